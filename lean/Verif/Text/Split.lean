import Verif.Prelude.Bytes
/-
`StrSplit`, `StrSplitAny` and `StrJoin` (tkrzw_str_util.cc 534-603, tkrzw_str_util.h 248-257): C39.
-/
namespace Verif.Split

/-- `std::string_view::find` and `find_first_of` from position `i`: the least position, not before `i` and before the end of the
string, where the test holds of what follows (called at tkrzw_str_util.cc 539, 566, 589). -/
def findFrom (test : Bytes → Bool) (s : Bytes) : (fuel i : Nat) → Option Nat
  | 0, _ => none
  | fuel + 1, i => if i < s.length then if test (s.drop i) then some i else findFrom test s fuel (i + 1) else none

/-- The loop of the three splitters (tkrzw_str_util.cc 537-550, 563-576, 587-600). -/
def splitLoop (test : Bytes → Bool) (width : Nat) (s : Bytes) (skip : Bool) : (fuel i : Nat) → List Bytes → List Bytes × Nat
  | 0, i, acc => (acc, i)
  | fuel + 1, i, acc =>
    if i < s.length then
      match findFrom test s (s.length - i) i with
      | none => (acc, i)
      | some pos => splitLoop test width s skip fuel (pos + width) (if !skip || i < pos then acc ++ [(s.drop i).take (pos - i)] else acc)
    else (acc, i)

/-- The loop and the last segment (tkrzw_str_util.cc 548-551, 574-577, 598-601). -/
def splitWith (test : Bytes → Bool) (width : Nat) (s : Bytes) (skip : Bool) : List Bytes :=
  let (acc, i) := splitLoop test width s skip (s.length + 1) 0 []
  if !skip || i < s.length then acc ++ [s.drop i] else acc

/-- `StrSplit` by a character (tkrzw_str_util.cc 534-552). -/
def splitChar (s : Bytes) (c : UInt8) (skip : Bool) : List Bytes := splitWith (fun t => t.head? == some c) 1 s skip

/-- `StrSplit` by a string (tkrzw_str_util.cc 554-580). -/
def splitStr (s d : Bytes) (skip : Bool) : List Bytes :=
  if d.isEmpty then s.map fun c => [c] else splitWith (fun t => d.isPrefixOf t) d.length s skip

/-- `StrSplitAny` (tkrzw_str_util.cc 583-602). -/
def splitAny (s ds : Bytes) (skip : Bool) : List Bytes := splitWith (fun t => match t.head? with | some c => ds.contains c | none => false) 1 s skip

/-- The loop of `StrJoin` (tkrzw_str_util.h 250-255). -/
def joinLoop (d : Bytes) : List Bytes → Bytes → Bytes
  | [], str => str
  | e :: es, str => joinLoop d es ((if str.isEmpty then str else str ++ d) ++ e)

/-- `StrJoin` of strings (tkrzw_str_util.h 248-257). -/
def strJoin (elems : List Bytes) (d : Bytes) : Bytes := joinLoop d elems []

/-! ### SPECIFICATION -/

/-- SPECIFICATION: the segments with the delimiter between each two. -/
def between (d : Bytes) : List Bytes → Bytes
  | [] => []
  | [x] => x
  | x :: xs => x ++ d ++ between d xs

/-- SPECIFICATION: the segments of a string: cut at the first place where the delimiter occurs, and so on with what follows it.
`Segs test width s l`: with a delimiter of `width` bytes recognised by `test`. -/
inductive Segs (test : Bytes → Bool) (width : Nat) : Bytes → List Bytes → Prop
  | last (s : Bytes) (h : ∀ i, i < s.length → test (s.drop i) = false) : Segs test width s [s]
  | cut (s : Bytes) (n : Nat) (l : List Bytes) (h1 : n < s.length) (h2 : test (s.drop n) = true) (h3 : ∀ i, i < n → test (s.drop i) = false)
      (h4 : Segs test width (s.drop (n + width)) l) : Segs test width s (s.take n :: l)

/-! ### Proofs -/

theorem findFrom_some {test : Bytes → Bool} {s : Bytes} {fuel i pos : Nat} (h : findFrom test s fuel i = some pos) :
    i ≤ pos ∧ pos < s.length ∧ test (s.drop pos) = true ∧ ∀ j, i ≤ j → j < pos → test (s.drop j) = false := by
  induction fuel generalizing i with
  | zero => cases h
  | succ fuel ih =>
    simp only [findFrom] at h
    split at h
    · split at h
      · cases h; exact ⟨Nat.le_refl _, by assumption, by assumption, fun j h1 h2 => by omega⟩
      · obtain ⟨h1, h2, h3, h4⟩ := ih h
        refine ⟨by omega, h2, h3, fun j hj1 hj2 => ?_⟩
        by_cases e : j = i
        · subst e; simpa using ‹¬test (List.drop j s) = true›
        · exact h4 j (by omega) hj2
    · cases h

theorem findFrom_none {test : Bytes → Bool} {s : Bytes} {fuel i : Nat} (hf : s.length ≤ i + fuel) (h : findFrom test s fuel i = none) :
    ∀ j, i ≤ j → j < s.length → test (s.drop j) = false := by
  induction fuel generalizing i with
  | zero => intro j h1 h2; omega
  | succ fuel ih =>
    simp only [findFrom] at h
    split at h
    · split at h
      · cases h
      · intro j hj1 hj2
        by_cases e : j = i
        · subst e; simpa using ‹¬test (List.drop j s) = true›
        · exact ih (by omega) h j (by omega) hj2
    · intro j h1 h2; omega

/-- What the loop and the last segment add, without skipping. -/
theorem splitLoop_spec (test : Bytes → Bool) (width : Nat) (s : Bytes) (hw : 1 ≤ width) (fuel i : Nat) (acc : List Bytes)
    (hf : s.length < i + fuel) :
    ∃ l, Segs test width (s.drop i) l ∧
      (splitLoop test width s false fuel i acc).1 ++ [s.drop (splitLoop test width s false fuel i acc).2] = acc ++ l ∧
      (∀ acc', (if (splitLoop test width s true fuel i acc').2 < s.length
          then (splitLoop test width s true fuel i acc').1 ++ [s.drop (splitLoop test width s true fuel i acc').2]
          else (splitLoop test width s true fuel i acc').1) = acc' ++ l.filter (fun x => !x.isEmpty)) := by
  induction fuel generalizing i acc with
  | zero =>
    have : s.drop i = [] := List.drop_eq_nil_of_le (by omega)
    refine ⟨[[]], ?_, ?_, ?_⟩
    · rw [this]; exact .last _ (by intro i h; simp at h)
    · simp [splitLoop, this]
    · intro acc'
      have hn : ¬ (splitLoop test width s true 0 i acc').2 < s.length := by show ¬ i < s.length; omega
      rw [if_neg hn]; simp [splitLoop]
  | succ fuel ih =>
    simp only [splitLoop]
    by_cases hi : i < s.length
    · simp only [if_pos hi]
      cases hfd : findFrom test s (s.length - i) i with
      | none =>
        have h := findFrom_none (by omega) hfd
        refine ⟨[s.drop i], .last _ ?_, rfl, ?_⟩
        · intro j hj
          rw [List.drop_drop]
          simp only [List.length_drop] at hj
          exact h (i + j) (by omega) (by omega)
        · intro acc'
          have : (s.drop i).isEmpty = false := by
            rw [List.isEmpty_eq_false_iff, ne_eq, List.drop_eq_nil_iff]; omega
          simp [hi, this]
      | some pos =>
        obtain ⟨h1, h2, h3, h4⟩ := findFrom_some hfd
        dsimp only
        simp only [Bool.not_false, Bool.true_or, if_true, Bool.not_true, Bool.false_or, decide_eq_true_eq]
        obtain ⟨l, g1, g2, g3⟩ := ih (pos + width) (acc ++ [(s.drop i).take (pos - i)]) (by omega)
        refine ⟨(s.drop i).take (pos - i) :: l, ?_, ?_, ?_⟩
        · refine .cut _ _ _ (by rw [List.length_drop]; omega) ?_ ?_ ?_
          · rw [List.drop_drop]; rw [show i + (pos - i) = pos by omega]; exact h3
          · intro j hj; rw [List.drop_drop]; exact h4 _ (by omega) (by omega)
          · rw [List.drop_drop]; rw [show i + (pos - i + width) = pos + width by omega]; exact g1
        · rw [g2]; simp
        · intro acc'
          rw [g3]
          by_cases e : i < pos
          · have : ((s.drop i).take (pos - i)).isEmpty = false := by
              rw [List.isEmpty_eq_false_iff]
              intro e1
              have := congrArg List.length e1
              simp only [List.length_take, List.length_drop, List.length_nil] at this
              omega
            rw [if_pos e, List.filter_cons_of_pos (by simp only [this, Bool.not_false]), List.append_assoc, List.singleton_append]
          · have : pos - i = 0 := by omega
            rw [if_neg e, this]; simp
    · simp only [if_neg hi]
      have : s.drop i = [] := List.drop_eq_nil_of_le (by omega)
      refine ⟨[[]], ?_, ?_, ?_⟩
      · rw [this]; exact .last _ (by intro i h; simp at h)
      · simp [this]
      · intro acc'; simp

theorem splitWith_segs (test : Bytes → Bool) (width : Nat) (s : Bytes) (hw : 1 ≤ width) :
    Segs test width s (splitWith test width s false) ∧
      splitWith test width s true = (splitWith test width s false).filter (fun x => !x.isEmpty) := by
  obtain ⟨l, g1, g2, g3⟩ := splitLoop_spec test width s hw (s.length + 1) 0 [] (by omega)
  have e1 : splitWith test width s false = l := by simpa [splitWith] using g2
  refine ⟨by rw [e1]; simpa using g1, ?_⟩
  rw [e1]
  have := g3 []
  simpa [splitWith] using this

theorem Segs.ne_nil {test : Bytes → Bool} {width : Nat} {s : Bytes} {l : List Bytes} (h : Segs test width s l) : l ≠ [] := by
  cases h <;> simp

theorem between_cons (d x : Bytes) {l : List Bytes} (h : l ≠ []) : between d (x :: l) = x ++ d ++ between d l := by
  cases l with
  | nil => exact absurd rfl h
  | cons y l => rfl

theorem Segs.between {test : Bytes → Bool} {d s : Bytes} {l : List Bytes} (h : Segs test d.length s l)
    (ht : ∀ t, test t = true → d <+: t) : between d l = s := by
  induction h with
  | last s h => rfl
  | cut s n l h1 h2 h3 h4 ih =>
    rw [between_cons _ _ h4.ne_nil, ih]
    obtain ⟨r, hr⟩ := ht _ h2
    have : s.drop (n + d.length) = r := by rw [← List.drop_drop, ← hr]; simp
    rw [this, List.append_assoc, hr, List.take_append_drop]

/-- `StrJoin` puts the delimiter between each two of the elements that follow the leading empty ones. -/
theorem strJoin_eq (elems : List Bytes) (d : Bytes) : strJoin elems d = between d (elems.dropWhile (·.isEmpty)) := by
  have key : ∀ (es : List Bytes) (str : Bytes), str ≠ [] → joinLoop d es str = between d (str :: es) := by
    intro es
    induction es with
    | nil => intro str h; rfl
    | cons e es ih =>
      intro str h
      have : str.isEmpty = false := by simpa using h
      simp only [joinLoop, this, Bool.false_eq_true, if_false]
      rw [ih _ (by simp [h])]
      cases es with
      | nil => simp [between]
      | cons x xs => simp [between]
  unfold strJoin
  induction elems with
  | nil => rfl
  | cons e es ih =>
    simp only [joinLoop, List.isEmpty_nil, if_true, List.nil_append]
    cases e with
    | nil => simpa using ih
    | cons c cs => rw [key _ _ (by simp)]; simp

/-- C39: `StrSplit` by a character cuts the string at each occurrence of the character: the segments do not contain it, and the
original is the segments with the character between each two. -/
theorem C39_split_char (s : Bytes) (c : UInt8) :
    between [c] (splitChar s c false) = s ∧ ∀ x ∈ splitChar s c false, c ∉ x := by
  have h := (splitWith_segs (fun t => t.head? == some c) 1 s (Nat.le_refl _)).1
  refine ⟨h.between (d := [c]) ?_, ?_⟩
  · intro t ht
    cases t with
    | nil => simp at ht
    | cons x t => simp at ht; subst ht; exact ⟨t, rfl⟩
  · show ∀ x ∈ splitWith _ 1 s false, c ∉ x
    have aux : ∀ s : Bytes, (∀ i, i < s.length → ((s.drop i).head? == some c) = false) → c ∉ s := by
      intro s hs hm
      obtain ⟨i, hi, e⟩ := List.getElem_of_mem hm
      have := hs i hi
      rw [List.head?_drop] at this
      simp [hi, e] at this
    generalize splitWith _ 1 s false = l at h
    induction h with
    | last s h => intro x hx; simp only [List.mem_singleton] at hx; subst hx; exact aux _ h
    | cut s n l h1 h2 h3 h4 ih =>
      intro x hx
      rcases List.mem_cons.1 hx with rfl | hx
      · apply aux
        intro i hi
        simp only [List.length_take] at hi
        have := h3 i (by omega)
        rw [List.head?_drop] at this ⊢
        rw [List.getElem?_take_of_lt (by omega)]
        exact this
      · exact ih x hx

/-- C39: `StrSplit` by a non-empty string cuts at the first occurrence of the delimiter, then at the first occurrence in what follows
it, and so on; the original is the segments with the delimiter between each two. -/
theorem C39_split_str (s d : Bytes) (hd : d ≠ []) :
    Segs (fun t => d.isPrefixOf t) d.length s (splitStr s d false) ∧ between d (splitStr s d false) = s := by
  have hw : 1 ≤ d.length := by cases d; exact absurd rfl hd; simp
  have h := (splitWith_segs (fun t => d.isPrefixOf t) d.length s hw).1
  have e : splitStr s d false = splitWith (fun t => d.isPrefixOf t) d.length s false := by
    unfold splitStr; rw [if_neg (by simpa using hd)]
  rw [e]
  exact ⟨h, h.between fun t ht => List.isPrefixOf_iff_prefix.1 ht⟩

/-- C39: with an empty delimiter the segments are the single bytes. -/
theorem C39_split_empty (s : Bytes) (skip : Bool) : splitStr s [] skip = s.map (fun c => [c]) ∧ (splitStr s [] skip).flatten = s := by
  refine ⟨rfl, ?_⟩
  show (s.map fun c => [c]).flatten = s
  induction s with
  | nil => rfl
  | cons c s ih => simpa using ih

/-- C39: `StrSplitAny` cuts the string at each byte that is one of the delimiters. -/
theorem C39_split_any (s ds : Bytes) :
    (∀ x ∈ splitAny s ds false, ∀ c ∈ x, c ∉ ds) ∧ ∃ seps : List UInt8, (∀ c ∈ seps, c ∈ ds) ∧
      seps.length + 1 = (splitAny s ds false).length ∧ ((splitAny s ds false).zip (seps.map (fun c => [c]) ++ [[]])).flatMap (fun p => p.1 ++ p.2) = s := by
  unfold splitAny
  have h := (splitWith_segs (fun t => match t.head? with | some c => ds.contains c | none => false) 1 s (Nat.le_refl _)).1
  generalize splitWith _ 1 s false = l at h
  have aux : ∀ s : Bytes, (∀ i, i < s.length → (match (s.drop i).head? with | some c => ds.contains c | none => false) = false) →
      ∀ c ∈ s, c ∉ ds := by
    intro s hs c hm
    obtain ⟨i, hi, e⟩ := List.getElem_of_mem hm
    have := hs i hi
    rw [List.head?_drop, List.getElem?_eq_getElem hi, e] at this
    simpa using this
  induction h with
  | last s h =>
    refine ⟨?_, [], by simp, by simp, by simp⟩
    intro x hx; simp only [List.mem_singleton] at hx; subst hx; exact aux _ h
  | cut s n l h1 h2 h3 h4 ih =>
    obtain ⟨g1, seps, g2, g3, g4⟩ := ih
    rw [List.head?_drop, List.getElem?_eq_getElem h1] at h2
    refine ⟨?_, s[n] :: seps, ?_, by simp [g3], ?_⟩
    · intro x hx
      rcases List.mem_cons.1 hx with rfl | hx
      · apply aux
        intro i hi
        simp only [List.length_take] at hi
        have := h3 i (by omega)
        rw [List.head?_drop] at this ⊢
        rw [List.getElem?_take_of_lt (by omega)]
        exact this
      · exact g1 x hx
    · intro c hc
      rcases List.mem_cons.1 hc with rfl | hc
      · simpa using h2
      · exact g2 c hc
    · simp only [List.map_cons, List.cons_append, List.zip_cons_cons, List.flatMap_cons, g4]
      rw [List.append_assoc, List.singleton_append, List.getElem_cons_drop, List.take_append_drop]

/-- C39: with `skip_empty` the result is the same without the empty segments. -/
theorem C39_split_skip (s d ds : Bytes) (c : UInt8) :
    splitChar s c true = (splitChar s c false).filter (fun x => !x.isEmpty) ∧
    splitStr s d true = (splitStr s d false).filter (fun x => !x.isEmpty) ∧
    splitAny s ds true = (splitAny s ds false).filter (fun x => !x.isEmpty) := by
  refine ⟨(splitWith_segs _ 1 s (Nat.le_refl _)).2, ?_, (splitWith_segs _ 1 s (Nat.le_refl _)).2⟩
  unfold splitStr
  by_cases hd : d = []
  · subst hd
    simp only [List.isEmpty_nil, if_true]
    symm
    apply List.filter_eq_self.2
    simp
  · have hd' : ¬ d.isEmpty = true := by simpa using hd
    rw [if_neg hd', if_neg hd']
    exact (splitWith_segs _ d.length s (by cases d; exact absurd rfl hd; simp)).2

/-- C39: joining gives the original string back, for a string that does not begin with the delimiter; the property does not have
that condition, see `C39_violated`. -/
theorem C39_split_join_partial (s d : Bytes) (hd : d ≠ []) (hs : ¬ d <+: s) : strJoin (splitStr s d false) d = s := by
  obtain ⟨h1, h2⟩ := C39_split_str s d hd
  rw [strJoin_eq]
  conv => rhs; rw [← h2]
  generalize splitStr s d false = l at h1
  cases h1 with
  | last s h => cases s <;> rfl
  | cut s n l g1 g2 g3 g4 =>
    have hn : n ≠ 0 := by
      rintro rfl
      exact hs (List.isPrefixOf_iff_prefix.1 (by simpa using g2))
    cases s with
    | nil => simp at g1
    | cons c s =>
      obtain ⟨m, rfl⟩ : ∃ m, n = m + 1 := ⟨n - 1, by omega⟩
      rfl

/-- `a,,b,` splits into `a`, the empty segment, `b` and the empty segment, and joins back. -/
example : splitStr [97, 44, 44, 98, 44] [44] false = [[97], [], [98], []] ∧ ¬ [44] <+: ([97, 44, 44, 98, 44] : Bytes) ∧
    strJoin [[97], [], [98], []] [44] = [97, 44, 44, 98, 44] := by decide +kernel

/-- C39 does not hold in general: `StrJoin` leaves out the delimiter as long as its result is empty, so `,a` gives `a`. -/
theorem C39_violated : strJoin (splitStr [44, 97] [44] false) [44] = [97] ∧ strJoin (splitChar [44, 97] 44 false) [44] ≠ [44, 97] := by
  decide +kernel

/-- `aab` by `ab` with a shift. -/
example : splitStr [97, 97, 98, 99] [97, 98] false = [[97], [99]] ∧ splitAny [97, 59, 98, 44, 44] [44, 59] true = [[97], [98]] := by
  decide +kernel

end Verif.Split
