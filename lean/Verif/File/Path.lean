import Verif.Text.Split
/-
Paths (tkrzw_file_util.cc 77-182, the POSIX variants): C45.
-/
namespace Verif.Path
open Verif.Split

/-! ### The model -/

/-- `DIR_SEP_CHR` and `EXT_SEP_CHR` (tkrzw_file_util.cc 58-60). -/
def sep : UInt8 := 47
def dot : UInt8 := 46

/-- `CURRENT_DIR_NAME` and `PARENT_DIR_NAME` (tkrzw_file_util.cc 62-63). -/
def cur : Bytes := [46]
def par : Bytes := [46, 46]

/-- `JoinPath` (tkrzw_file_util.cc 77-93). -/
def joinPath (base child : Bytes) : Bytes :=
  if child.isEmpty then base
  else if child.head? == some sep then child
  else
    let joined := if base.isEmpty then [sep] else base
    let joined := if joined.getLast? != some sep then joined ++ [sep] else joined
    joined ++ child

/-- One turn of the first loop of `NormalizePath` (tkrzw_file_util.cc 108-121). -/
def normElem (abs : Bool) (out : List Bytes) (elem : Bytes) : List Bytes :=
  if elem = cur then out
  else if elem = par then
    if out.isEmpty && abs then out
    else if out.isEmpty || out.getLast? == some par then out ++ [par]
    else out.dropLast
  else out ++ [elem]

/-- The second loop of `NormalizePath` (tkrzw_file_util.cc 126-131); its index is taken not to overflow. -/
def joinElems : List Bytes → Bytes
  | [] => []
  | [x] => x
  | x :: xs => x ++ [sep] ++ joinElems xs

/-- `NormalizePath` (tkrzw_file_util.cc 95-133). -/
def normalizePath (path : Bytes) : Bytes :=
  if path.isEmpty then [] else
  let abs := path.head? == some sep
  let out := (splitChar path sep true).foldl (normElem abs) []
  (if abs then [sep] else []) ++ joinElems out

/-- `std::string::rfind` of a character. -/
def rfind (c : UInt8) : Bytes → Option Nat
  | [] => none
  | b :: bs =>
    match rfind c bs with
    | some i => some (i + 1)
    | none => if b = c then some 0 else none

/-- The loop over the separators at the end (tkrzw_file_util.cc 136-139, 152-155). -/
def stripSize (path : Bytes) : Nat → Nat
  | 0 => 0
  | n + 1 => if n + 1 > 1 && path[n]? == some sep then stripSize path n else n + 1

/-- `PathToBaseName` (tkrzw_file_util.cc 135-149). -/
def pathToBaseName (path : Bytes) : Bytes :=
  let tmp := path.take (stripSize path path.length)
  if tmp = [sep] then tmp else
  match rfind sep tmp with
  | none => tmp
  | some pos => tmp.drop (pos + 1)

/-- `PathToDirectoryName` (tkrzw_file_util.cc 151-168). -/
def pathToDirectoryName (path : Bytes) : Bytes :=
  let tmp := path.take (stripSize path path.length)
  if tmp = [sep] then tmp else
  match rfind sep tmp with
  | none => cur
  | some pos => if pos = 0 then [sep] else tmp.take pos

/-- `PathToExtension` (tkrzw_file_util.cc 170-177). -/
def pathToExtension (path : Bytes) : Bytes :=
  match rfind dot (pathToBaseName path) with
  | none => []
  | some pos => (pathToBaseName path).drop (pos + 1)

/-! ### SPECIFICATION

Where a path leads, in a tree of directories without links. A place is the list of the names from the innermost directory up to the root. -/

/-- The parts of a string between the occurrences of a character. -/
def parts (c : UInt8) : Bytes → List Bytes
  | [] => [[]]
  | b :: bs => if b = c then [] :: parts c bs else
    match parts c bs with
    | [] => [[b]]
    | x :: xs => (b :: x) :: xs

/-- The components of a path: the parts between the slashes that are not empty. -/
def comps (p : Bytes) : List Bytes := (parts sep p).filter (fun x => !x.isEmpty)

/-- An absolute path begins with a slash. -/
def isAbs (p : Bytes) : Bool := p.head? == some sep

/-- One step: `.` stays, `..` goes up (and stays at the root), a name goes down. -/
def go (d : List Bytes) (c : Bytes) : List Bytes := if c = cur then d else if c = par then d.tail else c :: d

/-- Where the path leads from a working directory. -/
def place (cwd : List Bytes) (p : Bytes) : List Bytes := (comps p).foldl go (if isAbs p then [] else cwd)

/-! ### Parts -/

theorem parts_ne (c : UInt8) (s : Bytes) : parts c s ≠ [] := by
  cases s with
  | nil => simp [parts]
  | cons b bs =>
    simp only [parts]
    split
    · simp
    · split <;> simp

theorem parts_append (c : UInt8) : ∀ x y : Bytes, parts c (x ++ c :: y) = parts c x ++ parts c y
  | [], y => by simp [parts]
  | b :: x, y => by
    rw [List.cons_append, parts, parts, parts_append c x y]
    by_cases hb : b = c
    · simp [hb]
    · simp only [if_neg hb]
      cases h : parts c x with
      | nil => exact absurd h (parts_ne c x)
      | cons p ps => simp

theorem parts_clean (c : UInt8) : ∀ x : Bytes, c ∉ x → parts c x = [x]
  | [], _ => rfl
  | b :: x, h => by
    rw [List.mem_cons, not_or] at h
    rw [parts, if_neg (Ne.symm h.1), parts_clean c x h.2]

theorem parts_between (c : UInt8) : ∀ l : List Bytes, l ≠ [] → (∀ x ∈ l, c ∉ x) → parts c (between [c] l) = l
  | [], h, _ => absurd rfl h
  | [x], _, h => parts_clean c x (h x (by simp))
  | x :: y :: l, _, h => by
    rw [between_cons _ _ (by simp), List.append_assoc, List.singleton_append, parts_append, parts_clean c x (h x (by simp)),
      parts_between c (y :: l) (by simp) (fun z hz => h z (by simp [hz]))]
    rfl

theorem splitChar_ne (s : Bytes) (c : UInt8) : splitChar s c false ≠ [] := (splitWith_segs _ 1 s (Nat.le_refl _)).1.ne_nil

/-- `StrSplit` finds the parts. -/
theorem splitChar_parts (s : Bytes) (c : UInt8) : splitChar s c false = parts c s := by
  obtain ⟨h1, h2⟩ := C39_split_char s c
  have := parts_between c _ (splitChar_ne s c) h2
  rw [h1] at this
  exact this.symm

theorem splitChar_comps (s : Bytes) : splitChar s sep true = comps s := by
  rw [(C39_split_skip s [] [] sep).1, splitChar_parts]; rfl

theorem comps_append (x y : Bytes) : comps (x ++ sep :: y) = comps x ++ comps y := by
  unfold comps; rw [parts_append, List.filter_append]

theorem comps_nil : comps [] = [] := rfl
theorem comps_sep (y : Bytes) : comps (sep :: y) = comps y := by
  have := comps_append [] y
  simpa [comps_nil] using this
theorem comps_snoc (x : Bytes) : comps (x ++ [sep]) = comps x := by
  have := comps_append x []
  simpa [comps_nil] using this

/-- A name: not empty and without a slash. -/
def Name (x : Bytes) : Prop := x ≠ [] ∧ sep ∉ x

theorem comps_name {x : Bytes} (h : Name x) : comps x = [x] := by
  unfold comps; rw [parts_clean sep x h.2]; simp [h.1]

theorem parts_mem (c : UInt8) : ∀ s : Bytes, ∀ x ∈ parts c s, c ∉ x
  | [], x, h => by simp [parts] at h; subst h; simp
  | b :: s, x, h => by
    have ih := parts_mem c s
    rw [parts] at h
    split at h
    · rcases List.mem_cons.1 h with rfl | h
      · simp
      · exact ih x h
    · rename_i hb
      split at h
      · simp at h; subst h; simp [Ne.symm hb]
      · rename_i p ps e
        rcases List.mem_cons.1 h with rfl | h
        · rw [List.mem_cons, not_or]
          exact ⟨Ne.symm hb, ih p (by rw [e]; simp)⟩
        · exact ih x (by rw [e]; simp [h])

theorem comps_mem {s x : Bytes} (h : x ∈ comps s) : Name x := by
  unfold comps at h
  rw [List.mem_filter] at h
  exact ⟨by simpa using h.2, parts_mem sep s x h.1⟩

theorem joinElems_cons (x : Bytes) {l : List Bytes} (h : l ≠ []) : joinElems (x :: l) = x ++ [sep] ++ joinElems l := by
  cases l with
  | nil => exact absurd rfl h
  | cons y l => rfl

theorem comps_join : ∀ l : List Bytes, (∀ x ∈ l, Name x) → comps (joinElems l) = l
  | [], _ => rfl
  | [x], h => comps_name (h x (by simp))
  | x :: y :: l, h => by
    rw [joinElems_cons _ (by simp), List.append_assoc, List.singleton_append, comps_append, comps_name (h x (by simp)),
      comps_join (y :: l) (fun z hz => h z (by simp [hz]))]
    rfl

theorem head_join : ∀ l : List Bytes, (∀ x ∈ l, Name x) → (joinElems l).head? ≠ some sep
  | [], _ => by simp [joinElems]
  | x :: l, h => by
    have hx := h x (by simp)
    obtain ⟨b, x', rfl⟩ := List.exists_cons_of_ne_nil hx.1
    have hb : b ≠ sep := fun e => hx.2 (by simp [e])
    cases l with
    | nil => simp [joinElems, hb]
    | cons y l => simp [joinElems, hb]

theorem join_nil {l : List Bytes} (h : ∀ x ∈ l, Name x) (e : joinElems l = []) : l = [] := by
  have := comps_join l h
  rw [e, comps_nil] at this
  exact this.symm

/-! ### The normal form -/

/-- A name that is neither `.` nor `..`. -/
def Plain (x : Bytes) : Prop := Name x ∧ x ≠ cur ∧ x ≠ par

/-- The form of a normalized path: the steps up, which an absolute path has not, and then names. -/
def Normal (abs : Bool) (l : List Bytes) : Prop := ∃ n names, l = List.replicate n par ++ names ∧ (∀ x ∈ names, Plain x) ∧ (abs = true → n = 0)

theorem par_name : Name par := ⟨by decide, by decide⟩

theorem Normal.names {abs : Bool} {l : List Bytes} (h : Normal abs l) : ∀ x ∈ l, Name x := by
  obtain ⟨n, names, rfl, h1, _⟩ := h
  intro x hx
  rcases List.mem_append.1 hx with hx | hx
  · rw [List.eq_of_mem_replicate hx]; exact par_name
  · exact (h1 x hx).1

theorem normElem_spec (abs : Bool) {out : List Bytes} (h : Normal abs out) {c : Bytes} (hc : Name c) :
    Normal abs (normElem abs out c) ∧ ∀ d, (abs = true → d = []) → (normElem abs out c).foldl go d = go (out.foldl go d) c := by
  obtain ⟨n, names, rfl, h1, h2⟩ := h
  unfold normElem
  by_cases e1 : c = cur
  · simp only [if_pos e1]
    exact ⟨⟨n, names, rfl, h1, h2⟩, fun d _ => by simp [go, e1]⟩
  rw [if_neg e1]
  by_cases e2 : c = par
  · subst e2
    rw [if_pos rfl]
    have hgo : ∀ d, go d par = d.tail := fun d => by simp [go, show par ≠ cur by decide]
    rcases List.eq_nil_or_concat names with rfl | ⟨pre, z, rfl⟩
    · rw [List.append_nil]
      cases n with
      | zero =>
        cases abs with
        | true =>
          refine ⟨⟨0, [], rfl, by simp, fun _ => rfl⟩, fun d hd => ?_⟩
          rw [hd rfl]; simp [hgo]
        | false =>
          refine ⟨⟨1, [], rfl, by simp, by simp⟩, fun d _ => ?_⟩
          simp [hgo]
      | succ n =>
        have ha : abs = false := by
          cases abs with
          | false => rfl
          | true => have := h2 rfl; omega
        subst ha
        have hl : (List.replicate (n + 1) par).getLast? = some par := by rw [List.getLast?_replicate]; simp
        have hz : (List.replicate (n + 1) par).isEmpty = false := rfl
        rw [if_neg (by simp), if_pos (by rw [hl]; simp)]
        refine ⟨⟨n + 1 + 1, [], by rw [List.append_nil, List.replicate_succ' (n := n + 1)], by simp, by simp⟩, fun d _ => ?_⟩
        rw [List.foldl_append]; rfl
    · rw [List.concat_eq_append] at h1 ⊢
      have hz := h1 z (by simp)
      have hne : (List.replicate n par ++ (pre ++ [z])).isEmpty = false := by simp
      have hl : (List.replicate n par ++ (pre ++ [z])).getLast? = some z := by rw [← List.append_assoc, List.getLast?_concat]
      have hd : (List.replicate n par ++ (pre ++ [z])).dropLast = List.replicate n par ++ pre := by rw [← List.append_assoc, List.dropLast_concat]
      rw [if_neg (by simp [hne]), if_neg (by rw [hl]; simp [hne, hz.2.2]), hd]
      refine ⟨⟨n, pre, rfl, fun x hx => h1 x (by simp [hx]), h2⟩, fun d _ => ?_⟩
      rw [hgo, ← List.append_assoc, List.foldl_append]
      simp [go, hz.2.1, hz.2.2]
  · rw [if_neg e2]
    refine ⟨⟨n, names ++ [c], by rw [List.append_assoc], ?_, h2⟩, fun d _ => by rw [List.foldl_append]; rfl⟩
    intro x hx
    rcases List.mem_append.1 hx with hx | hx
    · exact h1 x hx
    · rw [List.mem_singleton] at hx; subst hx; exact ⟨hc, e1, e2⟩

theorem normLoop_spec (abs : Bool) : ∀ (cs : List Bytes) {out : List Bytes}, Normal abs out → (∀ c ∈ cs, Name c) →
    Normal abs (cs.foldl (normElem abs) out) ∧
      ∀ d, (abs = true → d = []) → (cs.foldl (normElem abs) out).foldl go d = cs.foldl go (out.foldl go d)
  | [], out, h, _ => ⟨h, fun _ _ => rfl⟩
  | c :: cs, out, h, hc => by
    have h1 := normElem_spec abs h (hc c (by simp))
    have h2 := normLoop_spec abs cs h1.1 (fun x hx => hc x (by simp [hx]))
    refine ⟨h2.1, fun d hd => ?_⟩
    rw [List.foldl_cons, h2.2 d hd, h1.2 d hd, List.foldl_cons]

theorem normLoop_same (abs : Bool) (l : List Bytes) (h : Normal abs l) : l.foldl (normElem abs) [] = l := by
  obtain ⟨n, names, rfl, h1, h2⟩ := h
  have ups : ∀ m, (abs = true → m = 0) → (List.replicate m par).foldl (normElem abs) [] = List.replicate m par := by
    intro m
    induction m with
    | zero => intro _; rfl
    | succ m ih =>
      intro hm
      have ha : abs = false := by
        cases abs with
        | false => rfl
        | true => have := hm rfl; omega
      rw [List.replicate_succ', List.foldl_append, ih (by simp [ha])]
      subst ha
      show normElem false (List.replicate m par) par = _
      unfold normElem
      rw [if_neg (by decide), if_pos rfl, if_neg (by simp)]
      cases m with
      | zero => rfl
      | succ m =>
        rw [if_pos]
        rw [List.getLast?_replicate]; simp
  have downs : ∀ (names out : List Bytes), (∀ x ∈ names, Plain x) → names.foldl (normElem abs) out = out ++ names := by
    intro names
    induction names with
    | nil => intro out _; simp
    | cons x names ih =>
      intro out hx
      have hp := hx x (by simp)
      rw [List.foldl_cons, ih _ (fun y hy => hx y (by simp [hy])), normElem, if_neg hp.2.1, if_neg hp.2.2]
      simp
  rw [List.foldl_append, ups n h2, downs names _ h1]

/-- The normal form, and what the normalized path is. -/
theorem normalize_form (p : Bytes) : ∃ l, Normal (isAbs p) l ∧ normalizePath p = (if isAbs p then [sep] else []) ++ joinElems l ∧
    comps (normalizePath p) = l ∧ isAbs (normalizePath p) = isAbs p ∧
    (∀ d, (isAbs p = true → d = []) → l.foldl go d = (comps p).foldl go d) := by
  refine ⟨(comps p).foldl (normElem (isAbs p)) [], ?_⟩
  have h0 : Normal (isAbs p) [] := ⟨0, [], rfl, by simp, fun _ => rfl⟩
  have hs := normLoop_spec (isAbs p) (comps p) h0 (fun c hc => comps_mem hc)
  have he : normalizePath p = (if isAbs p then [sep] else []) ++ joinElems ((comps p).foldl (normElem (isAbs p)) []) := by
    unfold normalizePath
    rw [splitChar_comps]
    by_cases hp : p = []
    · subst hp; rfl
    · rw [if_neg (by simpa using hp)]; rfl
  refine ⟨hs.1, he, ?_, ?_, fun d hd => hs.2 d hd⟩
  · rw [he]
    have hj := comps_join _ hs.1.names
    by_cases ha : isAbs p = true
    · rw [if_pos ha, List.singleton_append, comps_sep, hj]
    · rw [if_neg ha, List.nil_append, hj]
  · rw [he]
    cases ha : isAbs p with
    | true => rfl
    | false =>
      rw [ha] at hs
      rw [if_neg (by simp), List.nil_append, isAbs]
      have := head_join _ hs.1.names
      simpa using this

/-! ### C45 -/

/-- C45: the normalized path leads to the same place as the path, from every working directory, and is absolute if the path is. -/
theorem C45_same_place (p : Bytes) (cwd : List Bytes) : place cwd (normalizePath p) = place cwd p ∧ isAbs (normalizePath p) = isAbs p := by
  obtain ⟨l, h1, h2, h3, h4, h5⟩ := normalize_form p
  refine ⟨?_, h4⟩
  unfold place
  rw [h3, h4]
  exact h5 _ (fun ha => by rw [if_pos ha])

/-- C45: the components of the normalized path are some `..`, none if the path is absolute, and then names other than `.` and `..`; and the path
has a single slash between each two of them, one in front if it is absolute, and no other. -/
theorem C45_normal_form (p : Bytes) : ∃ n names, comps (normalizePath p) = List.replicate n par ++ names ∧
    (∀ x ∈ names, x ≠ [] ∧ sep ∉ x ∧ x ≠ cur ∧ x ≠ par) ∧ (isAbs p = true → n = 0) ∧
    normalizePath p = (if isAbs p then [sep] else []) ++ between [sep] (List.replicate n par ++ names) := by
  obtain ⟨l, ⟨n, names, g1, g2, g3⟩, h2, h3, h4, h5⟩ := normalize_form p
  have hb : ∀ l : List Bytes, joinElems l = between [sep] l := by
    intro l
    induction l with
    | nil => rfl
    | cons x l ih =>
      cases l with
      | nil => rfl
      | cons y l => rw [joinElems_cons _ (by simp), between_cons _ _ (by simp), ih]
  refine ⟨n, names, by rw [h3, g1], fun x hx => ?_, g3, by rw [h2, hb, g1]⟩
  obtain ⟨⟨a, b⟩, c, d⟩ := g2 x hx
  exact ⟨a, b, c, d⟩

/-- C45: normalization is idempotent. -/
theorem C45_idempotent (p : Bytes) : normalizePath (normalizePath p) = normalizePath p := by
  obtain ⟨l, h1, h2, h3, h4, h5⟩ := normalize_form p
  obtain ⟨l', g1, g2, g3, g4, g5⟩ := normalize_form (normalizePath p)
  rw [g2, h4]
  have : l' = l := by
    have e : normalizePath (normalizePath p) = (if isAbs p then [sep] else []) ++ joinElems ((comps (normalizePath p)).foldl (normElem (isAbs p)) []) := by
      unfold normalizePath
      by_cases hp : p = []
      · subst hp; rfl
      · have hq : ∀ q : Bytes, normalizePath q = (if isAbs q then [sep] else []) ++ joinElems ((comps q).foldl (normElem (isAbs q)) []) := by
          intro q
          unfold normalizePath
          rw [splitChar_comps]
          by_cases hq : q = []
          · subst hq; rfl
          · rw [if_neg (by simpa using hq)]; rfl
        have := hq (normalizePath p)
        rw [h4] at this
        unfold normalizePath at this
        exact this
    rw [h3, normLoop_same _ l h1] at e
    have := congrArg comps e
    rw [g3] at this
    rw [this]
    cases isAbs p with
    | true => rw [if_pos rfl, List.singleton_append, comps_sep, comps_join _ h1.names]
    | false => rw [if_neg (by simp), List.nil_append, comps_join _ h1.names]
  rw [this, ← h2]

theorem walk_normal {n : Nat} {names : List Bytes} (h : ∀ x ∈ names, Plain x) (d : List Bytes) :
    (List.replicate n par ++ names).foldl go d = names.reverse ++ d.drop n := by
  have downs : ∀ (names d : List Bytes), (∀ x ∈ names, Plain x) → names.foldl go d = names.reverse ++ d := by
    intro names
    induction names with
    | nil => intro d _; rfl
    | cons x names ih =>
      intro d hx
      have hp := hx x (by simp)
      rw [List.foldl_cons, ih _ (fun y hy => hx y (by simp [hy])), go, if_neg hp.2.1, if_neg hp.2.2]
      simp
  have ups : ∀ n d, (List.replicate n par).foldl go d = d.drop n := by
    intro n
    induction n with
    | zero => intro d; rfl
    | succ n ih =>
      intro d
      rw [List.replicate_succ, List.foldl_cons, ih, go, if_neg (by decide), if_pos rfl, List.drop_tail]
  rw [List.foldl_append, ups, downs names _ h]

/-- C45: two paths have the same normalized path exactly if both are absolute or both are relative, and they lead to the same place from every
working directory. -/
theorem C45_canonical (p q : Bytes) : normalizePath p = normalizePath q ↔ isAbs p = isAbs q ∧ ∀ cwd, place cwd p = place cwd q := by
  constructor
  · intro h
    refine ⟨?_, fun cwd => ?_⟩
    · rw [← (C45_same_place p []).2, h, (C45_same_place q []).2]
    · rw [← (C45_same_place p cwd).1, h, (C45_same_place q cwd).1]
  · rintro ⟨ha, h⟩
    obtain ⟨l, ⟨n, names, g1, g2, g3⟩, h2, h3, h4, h5⟩ := normalize_form p
    obtain ⟨l', ⟨n', names', g1', g2', g3'⟩, h2', h3', h4', h5'⟩ := normalize_form q
    have hp : ∀ cwd, place cwd p = names.reverse ++ (if isAbs p then [] else cwd).drop n := by
      intro cwd
      rw [← (C45_same_place p cwd).1, place, h3, h4, g1, walk_normal g2]
    have hq : ∀ cwd, place cwd q = names'.reverse ++ (if isAbs q then [] else cwd).drop n' := by
      intro cwd
      rw [← (C45_same_place q cwd).1, place, h3', h4', g1', walk_normal g2']
    have e0 := h []
    rw [hp, hq] at e0
    have hnames : names = names' := by simpa using e0
    have hn : n = n' := by
      cases hab : isAbs p with
      | true => rw [g3 hab, g3' (by rw [← ha, hab])]
      | false =>
        have e1 := congrArg List.length (h (List.replicate (n + n') cur))
        rw [hp, hq, ← ha, hab, hnames] at e1
        simp at e1
        omega
    rw [h2, h2', g1, g1', ha, hnames, hn]

/-- Two different paths to one place. -/
example : normalizePath [47, 97, 47, 46, 47, 98, 47, 47, 46, 46, 47, 99] = [47, 97, 47, 99] ∧ normalizePath [46, 46, 47, 46, 46, 47, 97, 47] = [46, 46, 47, 46, 46, 47, 97] ∧
    place [[120], [121]] [46, 46, 47, 97, 47] = [[97], [121]] ∧ normalizePath [47, 46, 46, 47, 97] = [47, 97] := by decide +kernel

/-- What a user may not expect: a path that stays in the working directory has the empty string, not `.`, as its normalized path. -/
theorem C45_empty (p : Bytes) : normalizePath p = [] ↔ isAbs p = false ∧ ∀ cwd, place cwd p = cwd := by
  have h0 : normalizePath [] = [] := rfl
  constructor
  · intro h
    rw [← h0, C45_canonical] at h
    refine ⟨h.1, fun cwd => ?_⟩
    rw [h.2]; rfl
  · rintro ⟨h1, h2⟩
    rw [← h0, C45_canonical]
    exact ⟨h1, fun cwd => by rw [h2]; rfl⟩

example : normalizePath [97, 47, 46, 46] = [] ∧ normalizePath [46] = [] := by decide +kernel

/-! Joining and taking apart -/

/-- C45: a relative child is joined below the base; an absolute child, and an empty child, leave only the child and the base. -/
theorem C45_join (base child : Bytes) :
    (isAbs child = true → joinPath base child = child) ∧ (child = [] → joinPath base child = base) ∧
    (isAbs child = false → child ≠ [] → base ≠ [] →
      comps (joinPath base child) = comps base ++ comps child ∧ isAbs (joinPath base child) = isAbs base ∧
      (∀ cwd, place cwd (joinPath base child) = place (place cwd base) child)) := by
  refine ⟨fun h => ?_, fun h => ?_, fun h1 h2 h3 => ?_⟩
  · unfold joinPath
    have hc : child.isEmpty = false := by cases child; cases h; rfl
    rw [hc, if_neg (by simp), if_pos (by exact h)]
  · subst h; rfl
  · have e : joinPath base child = (if base.getLast? = some sep then base else base ++ [sep]) ++ child := by
      unfold joinPath
      rw [if_neg (by simpa using h2), if_neg (by simpa [isAbs] using h1)]
      have : base.isEmpty = false := by simpa using h3
      simp only [this, Bool.false_eq_true, if_false]
      by_cases hl : base.getLast? = some sep
      · simp [hl]
      · simp [hl]
    have ec : comps (joinPath base child) = comps base ++ comps child := by
      rw [e]
      by_cases hl : base.getLast? = some sep
      · rw [if_pos hl]
        rcases List.eq_nil_or_concat base with rfl | ⟨b, z, rfl⟩
        · exact absurd rfl h3
        · rw [List.concat_eq_append] at hl ⊢
          rw [List.getLast?_concat] at hl
          cases hl
          rw [comps_snoc, List.append_assoc, List.singleton_append, comps_append]
      · rw [if_neg hl, List.append_assoc, List.singleton_append, comps_append]
    have ea : isAbs (joinPath base child) = isAbs base := by
      rw [e]
      obtain ⟨b, bs, rfl⟩ := List.exists_cons_of_ne_nil h3
      unfold isAbs
      split <;> simp
    refine ⟨ec, ea, fun cwd => ?_⟩
    unfold place
    rw [ec, ea, List.foldl_append, h1]
    simp

/-- An unexpected case: the child of an empty base is put at the root. -/
theorem C45_join_empty_base (child : Bytes) (h1 : isAbs child = false) (h2 : child ≠ []) : joinPath [] child = sep :: child := by
  unfold joinPath
  rw [if_neg (by simpa using h2), if_neg (by simpa [isAbs] using h1)]
  rfl

theorem rfind_spec (c : UInt8) : ∀ s : Bytes, (rfind c s = none → c ∉ s) ∧ (∀ i, rfind c s = some i → s = s.take i ++ c :: s.drop (i + 1) ∧ c ∉ s.drop (i + 1))
  | [] => ⟨by simp, by simp [rfind]⟩
  | b :: s => by
    have ih := rfind_spec c s
    rw [rfind]
    cases h : rfind c s with
    | some j =>
      refine ⟨by simp, fun i hi => ?_⟩
      cases hi
      have := ih.2 j h
      refine ⟨?_, this.2⟩
      rw [List.take_succ_cons, List.drop_succ_cons, List.cons_append, ← this.1]
    | none =>
      dsimp only
      by_cases hb : b = c
      · rw [if_pos hb]
        refine ⟨by simp, fun i hi => ?_⟩
        cases hi
        subst hb
        exact ⟨by simp, ih.1 h⟩
      · rw [if_neg hb]
        refine ⟨fun _ => ?_, by simp⟩
        rw [List.mem_cons, not_or]
        exact ⟨Ne.symm hb, ih.1 h⟩

theorem stripSize_spec (p : Bytes) : ∀ n, n ≤ p.length → stripSize p n ≤ n ∧ (1 ≤ n → 1 ≤ stripSize p n) ∧ comps (p.take (stripSize p n)) = comps (p.take n) ∧
    ((p.take (stripSize p n)).getLast? = some sep → p.take (stripSize p n) = [sep])
  | 0, _ => ⟨Nat.le_refl _, by omega, rfl, by simp [stripSize]⟩
  | n + 1, hn => by
    have ih := stripSize_spec p n (by omega)
    rw [stripSize]
    by_cases hc : n + 1 > 1 ∧ p[n]? = some sep
    · rw [if_pos (by simp only [Bool.and_eq_true, decide_eq_true_eq, beq_iff_eq]; exact hc)]
      refine ⟨by omega, fun _ => ih.2.1 (by omega), ?_, ih.2.2.2⟩
      rw [ih.2.2.1]
      have e : p.take (n + 1) = p.take n ++ [sep] := by
        rw [List.take_succ, hc.2]; rfl
      rw [e, comps_snoc]
    · rw [if_neg (by simp only [Bool.and_eq_true, decide_eq_true_eq, beq_iff_eq]; exact hc)]
      refine ⟨Nat.le_refl _, fun h => h, rfl, fun hl => ?_⟩
      have hlt : n < p.length := by omega
      have e : p.take (n + 1) = p.take n ++ [p[n]] := by rw [List.take_succ, List.getElem?_eq_getElem hlt]; rfl
      rw [e, List.getLast?_concat] at hl
      cases hl' : n with
      | zero => subst hl'; rw [e]; simpa using hl
      | succ m =>
        exact absurd ⟨by omega, by rw [List.getElem?_eq_getElem hlt]; exact hl⟩ hc

/-- C45: the base name has no slash, unless the path is nothing but slashes; the directory name is not empty; and joined again they are the same
path up to normalization. -/
theorem C45_dir_base (p : Bytes) :
    normalizePath (joinPath (pathToDirectoryName p) (pathToBaseName p)) = normalizePath p ∧
    (sep ∉ pathToBaseName p ∨ (pathToBaseName p = [sep] ∧ comps p = [] ∧ isAbs p = true)) ∧ pathToDirectoryName p ≠ [] ∧
    isAbs (pathToDirectoryName p) = isAbs p ∧ (pathToBaseName p = [] ↔ p = []) := by
  obtain ⟨s1, s2, s3, s4⟩ := stripSize_spec p p.length (Nat.le_refl _)
  rw [List.take_length] at s3
  have hab : isAbs (p.take (stripSize p p.length)) = isAbs p := by
    unfold isAbs
    cases p with
    | nil => rfl
    | cons b bs =>
      have := s2 (by simp)
      rw [List.head?_take, if_neg (by omega)]
  have hnil : p.take (stripSize p p.length) = [] ↔ p = [] := by
    constructor
    · intro h
      cases p with
      | nil => rfl
      | cons b bs =>
        have := s2 (by simp)
        have hl := congrArg List.length h
        rw [List.length_take, List.length_nil] at hl
        omega
    · intro h; subst h; rfl
  unfold pathToDirectoryName pathToBaseName
  dsimp only
  generalize p.take (stripSize p p.length) = t at s3 s4 hab hnil
  have norm : ∀ q r : Bytes, isAbs q = isAbs r → comps q = comps r → normalizePath q = normalizePath r := by
    intro q r h1 h2
    rw [C45_canonical]
    exact ⟨h1, fun cwd => by rw [place, place, h1, h2]⟩
  by_cases ht : t = [sep]
  · subst ht
    rw [if_pos rfl]
    refine ⟨norm _ _ (by rw [← hab]; rfl) (by rw [← s3]; rfl), Or.inr ⟨rfl, by rw [← s3]; rfl, by rw [← hab]; rfl⟩, by simp, hab, ?_⟩
    rw [← hnil, if_pos rfl]
  · simp only [if_neg ht]
    have hr := rfind_spec sep t
    cases hf : rfind sep t with
    | none =>
      dsimp only
      have hc := hr.1 hf
      have hna : isAbs t = false := by
        cases t with
        | nil => rfl
        | cons b bs =>
          rw [List.mem_cons, not_or] at hc
          simp [isAbs, Ne.symm hc.1]
      refine ⟨?_, Or.inl hc, by decide, by rw [← hab, hna]; rfl, hnil⟩
      by_cases htn : t = []
      · subst htn
        have hp : p = [] := hnil.1 rfl
        subst hp
        decide +kernel
      · have hj := (C45_join cur t).2.2 hna htn (by decide)
        rw [C45_canonical]
        refine ⟨by rw [hj.2.1, ← hab, hna]; rfl, fun cwd => ?_⟩
        rw [hj.2.2]
        show place cwd t = place cwd p
        rw [place, place, s3, hab]
    | some pos =>
      dsimp only
      obtain ⟨he, hc⟩ := hr.2 pos hf
      have hne : t.drop (pos + 1) ≠ [] := by
        intro h0
        rw [h0] at he
        have : t.getLast? = some sep := by rw [he, List.getLast?_concat]
        exact ht (s4 this)
      have hna : isAbs (t.drop (pos + 1)) = false := by
        revert hc
        cases t.drop (pos + 1) with
        | nil => intro _; rfl
        | cons b bs =>
          intro hc
          rw [List.mem_cons, not_or] at hc
          simp [isAbs, Ne.symm hc.1]
      have htne : t ≠ [] := by intro h; subst h; simp at he
      have hp : p ≠ [] := fun h => htne (hnil.2 h)
      have hpos : pos = 0 ∨ (t.take pos ≠ [] ∧ pos ≠ 0) := by
        rcases Nat.eq_zero_or_pos pos with h | h
        · exact Or.inl h
        · refine Or.inr ⟨fun h0 => ?_, by omega⟩
          rw [List.take_eq_nil_iff] at h0
          rcases h0 with h0 | h0
          · omega
          · exact htne h0
      have hct : comps t = comps (t.take pos) ++ comps (t.drop (pos + 1)) := by
        conv => lhs; rw [he]
        exact comps_append _ _
      refine ⟨?_, Or.inl hc, ?_, ?_, ⟨fun h => absurd h hne, fun h => absurd h hp⟩⟩
      · rcases hpos with h0 | ⟨h0, h0'⟩
        · subst h0
          rw [if_pos rfl]
          have hj := (C45_join [sep] (t.drop 1)).2.2 hna hne (by simp)
          refine norm _ _ ?_ ?_
          · rw [hj.2.1, ← hab, he]; rfl
          · rw [hj.1, ← s3, hct]; rfl
        · rw [if_neg h0']
          have hj := (C45_join (t.take pos) (t.drop (pos + 1))).2.2 hna hne h0
          refine norm _ _ ?_ ?_
          · rw [hj.2.1, ← hab]
            unfold isAbs
            rw [List.head?_take, if_neg h0']
          · rw [hj.1, ← s3, hct]
      · rcases hpos with h0 | ⟨h0, h0'⟩
        · rw [if_pos h0]; simp
        · rw [if_neg h0']; exact h0
      · rcases hpos with h0 | ⟨h0, h0'⟩
        · subst h0
          rw [if_pos rfl, ← hab, he]; rfl
        · rw [if_neg h0', ← hab]
          unfold isAbs
          rw [List.head?_take, if_neg h0']

/-- C45: the extension is what follows the last dot of the base name, and is empty if there is none. -/
theorem C45_extension (p : Bytes) : dot ∉ pathToExtension p ∧
    ((∃ stem, pathToBaseName p = stem ++ dot :: pathToExtension p) ∨ (dot ∉ pathToBaseName p ∧ pathToExtension p = [])) := by
  have h := rfind_spec dot (pathToBaseName p)
  unfold pathToExtension
  cases hf : rfind dot (pathToBaseName p) with
  | none => exact ⟨by simp, Or.inr ⟨h.1 hf, rfl⟩⟩
  | some pos => exact ⟨(h.2 pos hf).2, Or.inl ⟨_, (h.2 pos hf).1⟩⟩

/-- `/a//b.c/` is `b.c` in `/a/`, with extension `c`. -/
example : pathToDirectoryName [47, 97, 47, 47, 98, 46, 99, 47] = [47, 97, 47] ∧ pathToBaseName [47, 97, 47, 47, 98, 46, 99, 47] = [98, 46, 99] ∧
    pathToExtension [47, 97, 47, 47, 98, 46, 99, 47] = [99] ∧ joinPath [47, 97, 47] [98, 46, 99] = [47, 97, 47, 98, 46, 99] := by decide +kernel

end Verif.Path
