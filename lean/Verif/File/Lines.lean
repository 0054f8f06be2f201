import Verif.File.FlatProps
import Verif.Codec.TextProps
/-
Reading a file line by line (`FileReader`, tkrzw_file_util.h 455-477, tkrzw_file_util.cc 1163-1197), and the TSV export
and import built on it (tkrzw_dbm_common_impl.cc 477-570).
-/
namespace Verif.Lines
open Verif Verif.Codec Verif.Flat

/-- `FileReader`: `rest` are the bytes `buffer_[index_ .. data_size_)`. -/
structure Reader where
  offset : Nat
  rest : Bytes
deriving DecidableEq, Repr

/-- The constructor (tkrzw_file_util.cc 1161). -/
def Reader.new : Reader := ⟨0, []⟩

/-- The inner loop of `ReadLine` (tkrzw_file_util.cc 1167-1173): the string so far, what remains of the buffer, and
whether the line is complete. -/
def scan (maxSize : Nat) : Bytes → Bytes → Bytes × Bytes × Bool
  | [], str => (str, [], false)
  | c :: rest, str =>
    if c = 10 ∨ (maxSize > 0 ∧ (str ++ [c]).length ≥ maxSize) then (str ++ [c], rest, true)
    else scan maxSize rest (str ++ [c])

/-- `FileReader::ReadLine` (tkrzw_file_util.cc 1163-1197). `none` would be a loop that does not end within the fuel. -/
def readLoop (file : Bytes) (maxSize : Nat) : Nat → Reader → Bytes → Option (Reader × Except Code Bytes)
  | 0, _, _ => none
  | fuel + 1, r, str =>
    match scan maxSize r.rest str with
    | (str, rest, true) => some ({ r with rest := rest }, .ok str)
    | (str, _, false) =>
      if file.length - r.offset < 1 then
        some ({ r with rest := [] }, if str.isEmpty then .error .notFound else .ok str)
      else
        let n := min (file.length - r.offset) 8192
        match readAt file r.offset n with
        | none => some ({ r with rest := [] }, .error .infeasible)
        | some buf => readLoop file maxSize fuel { offset := r.offset + n, rest := buf } str

/-- One call of `ReadLine`; every refill of the buffer consumes a byte of the file, so the fuel suffices. -/
def readLine (file : Bytes) (maxSize : Nat) (r : Reader) : Option (Reader × Except Code Bytes) :=
  readLoop file maxSize (file.length - r.offset + 2) r []

/-- All lines of a file, as far as the reader goes. -/
def readLines (file : Bytes) (maxSize : Nat) : Nat → Reader → List Bytes × Option Code
  | 0, _ => ([], none)
  | fuel + 1, r =>
    match readLine file maxSize r with
    | none => ([], none)
    | some (_, .error c) => ([], some c)
    | some (r, .ok l) =>
      let y := readLines file maxSize fuel r
      (l :: y.1, y.2)

/-- `StrTrimForTSV` (tkrzw_str_util.cc 1503-1518). -/
def trimTSV (keepTab : Bool) (s : Bytes) : Bytes :=
  s.map fun c => if c.toNat ≤ 32 ∨ c = 0x7f then (if c ≠ 9 ∨ keepTab = false then 32 else c) else c

/-- One line of `ExportDBMToTSV` (tkrzw_dbm_common_impl.cc 489-496). -/
def tsvLine (escape : Bool) (x : Bytes × Bytes) : Bytes :=
  (if escape then escapeC false x.1 else trimTSV false x.1) ++ [9] ++
    (if escape then escapeC false x.2 else trimTSV true x.2) ++ [10]

/-- The file written by `ExportDBMToTSV` (tkrzw_dbm_common_impl.cc 477-507) when `ProcessEach` shows the records in
the order of the list. -/
def exportTSV (escape : Bool) (recs : List (Bytes × Bytes)) : Bytes := recs.flatMap (tsvLine escape)

/-- `content.find('\t')` and the two `substr` (tkrzw_dbm_common_impl.cc 522-533). -/
def findTab : Bytes → Option (Bytes × Bytes)
  | [] => none
  | c :: rest => if c = 9 then some ([], rest) else (findTab rest).map fun x => (c :: x.1, x.2)

/-- The line without its newline (tkrzw_dbm_common_impl.cc 520-521). -/
def content (line : Bytes) : Bytes :=
  if line.isEmpty ∨ line.getLast? ≠ some 10 then line else line.dropLast

/-- `ImportDBMFromTSV` (tkrzw_dbm_common_impl.cc 507-541). -/
def importLoop {σ : Type} (file : Bytes) (unescape : Bool) (setf : σ → Bytes → Bytes → σ × Code) :
    Nat → Reader → σ → Option (σ × Code)
  | 0, _, _ => none
  | fuel + 1, r, s =>
    match readLine file 0 r with
    | none => none
    | some (_, .error c) => some (s, if c ≠ .notFound then c else .success)
    | some (r, .ok line) =>
      match findTab (content line) with
      | none => importLoop file unescape setf fuel r s
      | some (k, v) =>
        match setf s (if unescape then unescapeC k else k) (if unescape then unescapeC v else v) with
        | (s, .success) => importLoop file unescape setf fuel r s
        | (s, c) => some (s, c)

/-- The whole import; every line has at least one byte, so the fuel suffices. -/
def importTSV {σ : Type} (file : Bytes) (unescape : Bool) (setf : σ → Bytes → Bytes → σ × Code) (s : σ) :
    Option (σ × Code) := importLoop file unescape setf (file.length + 1) Reader.new s

/-- `ExportDBMKeysAsLines` (tkrzw_dbm_common_impl.cc 543-569). -/
def exportKeyLines (recs : List (Bytes × Bytes)) : Bytes := recs.flatMap fun x => x.1 ++ [10]

/-! Lemmas -/

/-- The reader stands before the bytes `t` of the file. -/
def At (file : Bytes) (r : Reader) (t : Bytes) : Prop := r.offset ≤ file.length ∧ r.rest ++ file.drop r.offset = t

/-- SPECIFICATION of one line: `line` is the first line of `line ++ t`, with its newline if it has one, cut to
`maxSize` bytes if `maxSize` is not zero. -/
structure IsLine (maxSize : Nat) (line t : Bytes) : Prop where
  pos : line ≠ []
  inner : ∀ c ∈ line.dropLast, c ≠ 10
  bound : maxSize > 0 → line.length ≤ maxSize
  stop : line.getLast? = some 10 ∨ (maxSize > 0 ∧ line.length = maxSize) ∨ t = []

theorem scan_spec (maxSize : Nat) (buf : Bytes) : ∀ str, (∀ c ∈ str, c ≠ 10) → (maxSize > 0 → str.length < maxSize) →
    ((∃ w rest, scan maxSize buf str = (str ++ w, rest, true) ∧ buf = w ++ rest ∧ w ≠ [] ∧
        (∀ c ∈ (str ++ w).dropLast, c ≠ 10) ∧ (maxSize > 0 → (str ++ w).length ≤ maxSize) ∧
        ((str ++ w).getLast? = some 10 ∨ (maxSize > 0 ∧ (str ++ w).length = maxSize))) ∨
      (scan maxSize buf str = (str ++ buf, [], false) ∧ (∀ c ∈ str ++ buf, c ≠ 10) ∧
        (maxSize > 0 → (str ++ buf).length < maxSize))) := by
  induction buf with
  | nil => intro str h1 h2; exact .inr ⟨by simp [scan], by simpa using h1, by simpa using h2⟩
  | cons c buf ih =>
    intro str h1 h2
    simp only [scan]
    by_cases hc : c = 10 ∨ (maxSize > 0 ∧ (str ++ [c]).length ≥ maxSize)
    · rw [if_pos hc]
      refine .inl ⟨[c], buf, rfl, rfl, by simp, by simpa using h1, ?_, ?_⟩
      · intro h; have := h2 h; simp; omega
      · rcases hc with rfl | ⟨h, h'⟩
        · exact .inl (by simp)
        · refine .inr ⟨h, ?_⟩
          have := h2 h; simp at *; omega
    · rw [if_neg hc]
      simp only [not_or, not_and, Nat.not_le, ge_iff_le] at hc
      rcases ih (str ++ [c]) (by
          intro x hx; rcases List.mem_append.mp hx with hx | hx
          · exact h1 x hx
          · simp at hx; rw [hx]; exact hc.1) (fun h => hc.2 h) with ⟨w, rest, e, hb, hw, h3, h4, h5⟩ | ⟨e, h3, h4⟩
      · refine .inl ⟨c :: w, rest, ?_, by rw [hb]; rfl, by simp, ?_, ?_, ?_⟩
        · rw [e]; simp
        · simpa using h3
        · simpa using h4
        · simpa using h5
      · refine .inr ⟨by rw [e]; simp, by simpa using h3, by simpa using h4⟩

theorem readLoop_spec (file : Bytes) (maxSize : Nat) : ∀ (fuel : Nat) (r : Reader) (str t : Bytes), At file r t →
    (∀ c ∈ str, c ≠ 10) → (maxSize > 0 → str.length < maxSize) → file.length - r.offset + 1 < fuel →
    (str ++ t = [] ∧ ∃ r', readLoop file maxSize fuel r str = some (r', .error .notFound)) ∨
    (∃ r' line t', readLoop file maxSize fuel r str = some (r', .ok line) ∧ At file r' t' ∧ str ++ t = line ++ t' ∧
      IsLine maxSize line t') := by
  intro fuel
  induction fuel with
  | zero => intro r str t _ _ _ h; omega
  | succ fuel ih =>
    intro r str t ha h1 h2 hf
    obtain ⟨ho, ht⟩ := ha
    rcases scan_spec maxSize r.rest str h1 h2 with ⟨w, rest, e, hb, hw, h3, h4, h5⟩ | ⟨e, h3, h4⟩
    · right
      refine ⟨{ r with rest := rest }, str ++ w, rest ++ file.drop r.offset, ?_, ⟨ho, rfl⟩, ?_, ?_⟩
      · simp only [readLoop, e]
      · rw [← ht, hb]; simp
      · exact ⟨by simp [hw], h3, h4, h5.imp id .inl⟩
    · simp only [readLoop, e]
      by_cases hn : file.length - r.offset < 1
      · rw [if_pos hn]
        have hd : file.drop r.offset = [] := List.drop_eq_nil_of_le (by omega)
        rw [hd, List.append_nil] at ht
        subst ht
        by_cases hs : str ++ r.rest = []
        · left; refine ⟨hs, ⟨{ r with rest := [] }, ?_⟩⟩; simp [hs]
        · right
          refine ⟨{ r with rest := [] }, str ++ r.rest, [], ?_, ⟨ho, by simp [hd]⟩, by simp, ?_⟩
          · have : (str ++ r.rest).isEmpty = false := by rw [List.isEmpty_eq_false_iff]; exact hs
            simp only [this]; rfl
          · exact ⟨hs, fun c hc => h3 c (List.dropLast_subset _ hc), fun h => by have := h4 h; omega, .inr (.inr rfl)⟩
      · rw [if_neg hn]
        generalize hN : min (file.length - r.offset) 8192 = n
        have hra : readAt file r.offset n = some ((file.drop r.offset).take n) := by
          rw [readAt, if_pos (by omega)]
        simp only [hra]
        have := ih { offset := r.offset + n, rest := (file.drop r.offset).take n } (str ++ r.rest)
          (file.drop r.offset) ⟨by show r.offset + n ≤ _; omega, by
            show (file.drop r.offset).take n ++ file.drop (r.offset + n) = _
            rw [← List.drop_drop, List.take_append_drop]⟩ h3 h4 (by
            show file.length - (r.offset + n) + 1 < fuel; omega)
        rw [← ht]
        simpa [List.append_assoc] using this

theorem readLine_spec (file : Bytes) (maxSize : Nat) (r : Reader) (t : Bytes) (ha : At file r t) :
    (t = [] ∧ ∃ r', readLine file maxSize r = some (r', .error .notFound)) ∨
    (∃ r' line t', readLine file maxSize r = some (r', .ok line) ∧ At file r' t' ∧ t = line ++ t' ∧
      IsLine maxSize line t') := by
  have := readLoop_spec file maxSize (file.length - r.offset + 2) r [] t ha (by simp)
    (fun h => by simpa using h) (by omega)
  rw [List.nil_append] at this
  exact this

theorem IsLine.unique {maxSize : Nat} {a b x y : Bytes} (ha : IsLine maxSize a x) (hb : IsLine maxSize b y)
    (h : a ++ x = b ++ y) : a = b ∧ x = y := by
  have key : ∀ {a b x y : Bytes}, IsLine maxSize a x → IsLine maxSize b y → a ++ x = b ++ y → a.length ≤ b.length →
      a = b ∧ x = y := by
    intro a b x y ha hb h hl
    have hp : a <+: b := List.prefix_of_prefix_length_le (l₃ := b ++ y) (h ▸ List.prefix_append _ _)
      (List.prefix_append _ _) hl
    obtain ⟨w, rfl⟩ := hp
    rw [List.append_assoc, List.append_cancel_left_eq] at h
    subst h
    cases w with
    | nil => simp
    | cons c w =>
      exfalso
      rcases ha.stop with h | ⟨h, h'⟩ | h
      · have hm : (10 : UInt8) ∈ (a ++ c :: w).dropLast := by
          rw [List.dropLast_append_of_ne_nil (by simp)]
          exact List.mem_append_left _ (List.mem_of_getLast? h)
        exact hb.inner _ hm rfl
      · have := hb.bound h
        simp at this; omega
      · simp at h
  rcases Nat.le_total a.length b.length with hl | hl
  · exact key ha hb h hl
  · obtain ⟨h1, h2⟩ := key hb ha h.symm hl
    exact ⟨h1.symm, h2.symm⟩

theorem readLine_line {file : Bytes} {maxSize : Nat} {r : Reader} {line t : Bytes} (ha : At file r (line ++ t))
    (hl : IsLine maxSize line t) : ∃ r', readLine file maxSize r = some (r', .ok line) ∧ At file r' t := by
  rcases readLine_spec file maxSize r _ ha with ⟨h, _⟩ | ⟨r', l', t', e, ha', h, hl'⟩
  · exact absurd (List.append_eq_nil_iff.mp h).1 hl.pos
  · obtain ⟨rfl, rfl⟩ := hl.unique hl' h
    exact ⟨r', e, ha'⟩

theorem readLine_end {file : Bytes} {maxSize : Nat} {r : Reader} (ha : At file r []) :
    ∃ r', readLine file maxSize r = some (r', .error .notFound) := by
  rcases readLine_spec file maxSize r _ ha with ⟨_, h⟩ | ⟨r', l', t', e, ha', h, hl'⟩
  · exact h
  · exact absurd (List.append_eq_nil_iff.mp h.symm).1 hl'.pos

/-! ### Line reader -/

/-- SPECIFICATION: the division of a text into lines. -/
inductive LinesOf (maxSize : Nat) : Bytes → List Bytes → Prop
  | nil : LinesOf maxSize [] []
  | cons {line t ls} : IsLine maxSize line t → LinesOf maxSize t ls → LinesOf maxSize (line ++ t) (line :: ls)

theorem LinesOf.join {maxSize t ls} (h : LinesOf maxSize t ls) : ls.flatten = t := by
  induction h with
  | nil => rfl
  | cons _ _ ih => rw [List.flatten_cons, ih]

theorem LinesOf.ne_nil {maxSize t ls} (h : LinesOf maxSize t ls) : ∀ l ∈ ls, l ≠ [] := by
  induction h with
  | nil => simp
  | cons hl _ ih =>
    intro l hm
    rcases List.mem_cons.mp hm with rfl | hm
    · exact hl.pos
    · exact ih l hm

theorem readLines_spec (file : Bytes) (maxSize : Nat) : ∀ (fuel : Nat) (r : Reader) (t : Bytes), At file r t →
    t.length < fuel → ∃ ls, readLines file maxSize fuel r = (ls, some .notFound) ∧ LinesOf maxSize t ls := by
  intro fuel
  induction fuel with
  | zero => intro r t _ h; omega
  | succ fuel ih =>
    intro r t ha hf
    rcases readLine_spec file maxSize r _ ha with ⟨rfl, r', e⟩ | ⟨r', l', t', e, ha', rfl, hl'⟩
    · exact ⟨[], by simp only [readLines, e], .nil⟩
    · have := List.length_pos_iff.mpr hl'.pos
      rw [List.length_append] at hf
      obtain ⟨ls, e2, h2⟩ := ih r' t' ha' (by omega)
      exact ⟨l' :: ls, by simp only [readLines, e, e2], .cons hl' h2⟩

/-- C59: for every file content and every limit, reading line by line ends with NOT_FOUND_ERROR and returns the lines
of the file: put together they are the whole content; no line is empty; a newline occurs only as the last byte of a
line; no line exceeds the limit; and a line ends only at a newline, at the limit or at the end of the file. -/
theorem C59_read_lines (file : Bytes) (maxSize : Nat) :
    ∃ ls, readLines file maxSize (file.length + 1) Reader.new = (ls, some .notFound) ∧ ls.flatten = file ∧
      (∀ l ∈ ls, l ≠ [] ∧ (∀ c ∈ l.dropLast, c ≠ 10) ∧ (maxSize > 0 → l.length ≤ maxSize)) ∧
      (∀ l ∈ ls.dropLast, l.getLast? = some 10 ∨ (maxSize > 0 ∧ l.length = maxSize)) := by
  obtain ⟨ls, e, h⟩ := readLines_spec file maxSize (file.length + 1) Reader.new file ⟨Nat.zero_le _, rfl⟩ (by omega)
  refine ⟨ls, e, h.join, ?_, ?_⟩
  · clear e
    induction h with
    | nil => simp
    | cons hl _ ih =>
      intro l hm
      rcases List.mem_cons.mp hm with rfl | hm
      · exact ⟨hl.pos, hl.inner, hl.bound⟩
      · exact ih l hm
  · clear e
    induction h with
    | nil => simp
    | cons hl ht ih =>
      rename_i line t ls
      cases ls with
      | nil => simp
      | cons m ls =>
        intro l hm
        rw [List.dropLast_cons₂, List.mem_cons] at hm
        rcases hm with rfl | hm
        · rcases hl.stop with h | h | h
          · exact .inl h
          · exact .inr h
          · exfalso
            subst h
            have := ht.join
            have hm := ht.ne_nil m (by simp)
            simp only [List.flatten_cons, List.append_eq_nil_iff] at this
            exact hm this.1
        · exact ih l hm

example : readLines ([97, 10, 10, 98, 99, 100] : Bytes) 2 7 Reader.new = ([[97, 10], [10], [98, 99], [100]], some .notFound) := by
  decide +kernel

/-! ### TSV -/

theorem escape_clean (s : Bytes) : (9 : UInt8) ∉ escapeC false s ∧ (10 : UInt8) ∉ escapeC false s := by
  constructor <;> intro h <;> have := (C36_escape_printable false s _ h).1 <;> revert this <;> decide

theorem findTab_spec {a b : Bytes} (h : (9 : UInt8) ∉ a) : findTab (a ++ 9 :: b) = some (a, b) := by
  induction a with
  | nil => simp [findTab]
  | cons c a ih =>
    simp only [List.mem_cons, not_or] at h
    simp only [List.cons_append, findTab]
    rw [if_neg (Ne.symm h.1), ih h.2]; rfl

theorem isLine_of {w t : Bytes} (h : (10 : UInt8) ∉ w) : IsLine 0 (w ++ [10]) t := by
  refine ⟨by simp, ?_, by simp, .inl (by simp)⟩
  rw [List.dropLast_concat]
  intro c hc he
  exact h (he ▸ hc)

theorem content_of (w : Bytes) : content (w ++ [10]) = w := by simp [content]

/-- The import of a file made of lines `key TAB value NEWLINE`. -/
theorem importLoop_spec {σ : Type} {setf : σ → Bytes → Bytes → σ × Code} {inv : σ → Prop} {view : σ → Dict}
    {fits : Bytes → Bytes → Prop} (S : Sets setf inv view fits) {file : Bytes} (unescape : Bool)
    (line : Bytes × Bytes → Bytes) (l : List (Bytes × Bytes))
    (hline : ∀ x ∈ l, ∃ a b, line x = a ++ [9] ++ b ++ [10] ∧ (9 : UInt8) ∉ a ∧ (10 : UInt8) ∉ a ∧ (10 : UInt8) ∉ b ∧
      (if unescape then unescapeC a else a) = x.1 ∧ (if unescape then unescapeC b else b) = x.2)
    (hf : ∀ x ∈ l, fits x.1 x.2) :
    ∀ (r : Reader) (s : σ) (fuel : Nat), At file r (l.flatMap line) → inv s → l.length < fuel →
      ∃ s', importLoop file unescape setf fuel r s = some (s', .success) ∧ inv s' ∧ view s' = setAll (view s) l := by
  induction l with
  | nil =>
    intro r s fuel ha hi hfu
    obtain ⟨f, rfl⟩ : ∃ f, fuel = f + 1 := ⟨fuel - 1, by omega⟩
    obtain ⟨r', e⟩ := readLine_end (maxSize := 0) ha
    exact ⟨s, by simp only [importLoop, e]; rfl, hi, rfl⟩
  | cons x l ih =>
    intro r s fuel ha hi hfu
    obtain ⟨f, rfl⟩ : ∃ f, fuel = f + 1 := ⟨fuel - 1, by omega⟩
    obtain ⟨a, b, e, h9, h10, h10', hk, hv⟩ := hline x (by simp)
    rw [List.flatMap_cons, e] at ha
    obtain ⟨r', er, ha'⟩ := readLine_line ha (isLine_of (w := a ++ [9] ++ b) (by
      simp only [List.mem_append, List.mem_singleton, not_or]
      exact ⟨⟨h10, by decide⟩, h10'⟩))
    have hset := S.ok s x.1 x.2 hi (hf x (by simp))
    rcases he : setf s x.1 x.2 with ⟨s1, c⟩
    rw [he] at hset
    dsimp only at hset
    obtain ⟨rfl, hi1, hv1⟩ := hset
    simp only [List.length_cons] at hfu
    obtain ⟨s', e', hi', hv'⟩ := ih (fun y hy => hline y (by simp [hy])) (fun y hy => hf y (by simp [hy])) r' s1 f ha'
      hi1 (by omega)
    refine ⟨s', ?_, hi', by rw [hv', hv1]; rfl⟩
    rw [importLoop]
    have ht : findTab (content (a ++ [9] ++ b ++ [10])) = some (a, b) := by
      rw [content_of, List.append_assoc]; exact findTab_spec h9
    simp only [er, ht, hk, hv, he]
    exact e'

theorem exportTSV_length (escape : Bool) (l : List (Bytes × Bytes)) : l.length ≤ (exportTSV escape l).length := by
  induction l with
  | nil => simp
  | cons x l ih =>
    rw [exportTSV] at ih ⊢
    rw [List.flatMap_cons, List.length_append, List.length_cons]
    have : 1 ≤ (tsvLine escape x).length := by simp [tsvLine]; omega
    omega

/-- C53: the records of a database, exported to TSV with escaping and imported with unescaping, are stored exactly over
what was in the receiving database, whatever bytes they contain, and the import reports SUCCESS. -/
theorem C53_tsv_import {σ : Type} {D : DbmImpl σ} {inv view fits} (L : Lawful D inv view fits)
    (l : List (Bytes × Bytes)) (hf : ∀ x ∈ l, fits x.1 x.2) (s : σ) (hi : inv s) :
    ∃ s', importTSV (exportTSV true l) true (dbmSet D) s = some (s', .success) ∧ inv s' ∧
      view s' = setAll (view s) l := by
  have := exportTSV_length true l
  refine importLoop_spec (dbmSet_sets L) true (tsvLine true) l ?_ hf Reader.new s _ ⟨Nat.zero_le _, rfl⟩ hi (by omega)
  intro x _
  refine ⟨escapeC false x.1, escapeC false x.2, by simp [tsvLine], (escape_clean _).1, (escape_clean _).2,
    (escape_clean _).2, ?_, ?_⟩ <;> simp [C36_escape_roundtrip]

/-- C53: exporting any database to TSV with escaping and importing into an empty database of any class restores all
records exactly. -/
theorem C53_tsv_roundtrip {σ : Type} {D : DbmImpl σ} {inv view fits} (L : Lawful D inv view fits)
    (d : Dict) (l : List (Bytes × Bytes)) (hl : d.Lists l) (hf : ∀ x ∈ l, fits x.1 x.2) (s : σ) (hi : inv s)
    (he : view s = Dict.empty) :
    ∃ s', importTSV (exportTSV true l) true (dbmSet D) s = some (s', .success) ∧ inv s' ∧ view s' = d := by
  obtain ⟨s', h1, h2, h3⟩ := C53_tsv_import L l hf s hi
  exact ⟨s', h1, h2, by rw [h3, he, setAll_lists hl]⟩

theorem trim_id (keepTab : Bool) (s : Bytes)
    (h : ∀ c ∈ s, 32 ≤ c.toNat ∧ c.toNat ≠ 127 ∨ (keepTab = true ∧ c = 9)) : trimTSV keepTab s = s := by
  induction s with
  | nil => rfl
  | cons c s ih =>
    simp only [trimTSV, List.map_cons] at ih ⊢
    rw [ih (fun x hx => h x (by simp [hx]))]
    congr 1
    rcases h c (by simp) with ⟨h1, h2⟩ | ⟨rfl, rfl⟩
    · split
      · rename_i hc
        have : c.toNat = 32 := by
          rcases hc with hc | hc
          · omega
          · subst hc; exact absurd rfl h2
        have : c = 32 := UInt8.toNat_inj.mp this
        subst this
        split <;> rfl
      · rfl
    · simp

/-- C53: without escaping, the records are restored exactly if no key contains a control character and no value
contains one except tabulators. -/
theorem C53_tsv_plain {σ : Type} {D : DbmImpl σ} {inv view fits} (L : Lawful D inv view fits)
    (d : Dict) (l : List (Bytes × Bytes)) (hl : d.Lists l) (hf : ∀ x ∈ l, fits x.1 x.2)
    (hk : ∀ x ∈ l, ∀ c ∈ x.1, 32 ≤ c.toNat ∧ c.toNat ≠ 127)
    (hv : ∀ x ∈ l, ∀ c ∈ x.2, 32 ≤ c.toNat ∧ c.toNat ≠ 127 ∨ c = 9) (s : σ) (hi : inv s)
    (he : view s = Dict.empty) :
    ∃ s', importTSV (exportTSV false l) false (dbmSet D) s = some (s', .success) ∧ inv s' ∧ view s' = d := by
  have := exportTSV_length false l
  obtain ⟨s', h1, h2, h3⟩ := importLoop_spec (dbmSet_sets L) false (file := exportTSV false l) (tsvLine false) l (by
    intro x hx
    refine ⟨x.1, x.2, ?_, ?_, ?_, ?_, rfl, rfl⟩
    · simp only [tsvLine, Bool.false_eq_true, if_false]
      rw [trim_id false x.1 (fun c hc => .inl (hk x hx c hc)), trim_id true x.2 (fun c hc => by
        rcases hv x hx c hc with h | h
        · exact .inl h
        · exact .inr ⟨rfl, h⟩)]
    · intro h; exact absurd (hk x hx _ h).1 (by decide)
    · intro h; exact absurd (hk x hx _ h).1 (by decide)
    · intro h
      rcases hv x hx _ h with h | h
      · exact absurd h.1 (by decide)
      · exact absurd h (by decide)) hf Reader.new s (((exportTSV false l).length) + 1) ⟨Nat.zero_le _, rfl⟩ hi (by omega)
  exact ⟨s', h1, h2, by rw [h3, he, setAll_lists hl]⟩

/-- C53: whatever the records, the export without escaping writes one line for each record: it holds exactly one
newline, at its end, and the imported key is the key with its control characters replaced by spaces. -/
theorem C53_tsv_plain_line (x : Bytes × Bytes) : ∃ k v, tsvLine false x = k ++ [9] ++ v ++ [10] ∧
    (9 : UInt8) ∉ k ∧ (10 : UInt8) ∉ k ∧ (10 : UInt8) ∉ v ∧ k.length = x.1.length ∧ v.length = x.2.length ∧
    ∀ (i : Nat) (c : UInt8), x.1[i]? = some c → k[i]? = some (if c.toNat < 32 ∨ c.toNat = 127 then 32 else c) := by
  have key : ∀ b s, (10 : UInt8) ∉ trimTSV b s ∧ (b = false → (9 : UInt8) ∉ trimTSV b s) := by
    intro b s
    constructor
    · intro h
      obtain ⟨c, _, hc⟩ := List.mem_map.mp h
      split at hc
      · split at hc
        · exact absurd hc (by decide)
        · rename_i h2; simp only [not_or, Decidable.not_not] at h2; rw [h2.1] at hc; exact absurd hc (by decide)
      · rename_i h1; subst hc; exact h1 (.inl (by decide))
    · rintro rfl h
      obtain ⟨c, _, hc⟩ := List.mem_map.mp h
      split at hc
      · simp at hc
      · rename_i h1; subst hc; exact h1 (.inl (by decide))
  refine ⟨trimTSV false x.1, trimTSV true x.2, by simp [tsvLine], (key _ _).2 rfl, (key _ _).1, (key _ _).1,
    by simp [trimTSV], by simp [trimTSV], ?_⟩
  intro i c hc
  simp only [trimTSV, List.getElem?_map, hc, Option.map_some, or_true, if_true]
  congr 1
  by_cases h32 : c.toNat = 32
  · have : c = 32 := UInt8.toNat_inj.mp h32
    subst this; rfl
  · have e : (c = 0x7f) ↔ c.toNat = 127 := ⟨fun h => by rw [h]; rfl, fun h => UInt8.toNat_inj.mp h⟩
    have : (c.toNat ≤ 32 ∨ c = 127) ↔ (c.toNat < 32 ∨ c.toNat = 127) := by rw [e]; omega
    simp only [this]

/-- C53: the keys exported as lines are read back by a line reader, if no key contains a newline. -/
theorem C53_key_lines (l : List (Bytes × Bytes)) (h : ∀ x ∈ l, (10 : UInt8) ∉ x.1) :
    (readLines (exportKeyLines l) 0 (l.length + 1) Reader.new) = (l.map fun x => x.1 ++ [10], some .notFound) := by
  have key : ∀ (file : Bytes) (l : List (Bytes × Bytes)), (∀ x ∈ l, (10 : UInt8) ∉ x.1) → ∀ r,
      At file r (exportKeyLines l) →
      readLines file 0 (l.length + 1) r = (l.map fun x => x.1 ++ [10], some .notFound) := by
    intro file l
    induction l with
    | nil =>
      intro _ r ha
      obtain ⟨r', e⟩ := readLine_end (maxSize := 0) ha
      simp only [List.length_nil, readLines, e]; rfl
    | cons x l ih =>
      intro h r ha
      simp only [exportKeyLines, List.flatMap_cons] at ha
      obtain ⟨r', er, ha'⟩ := readLine_line ha (isLine_of (h x (by simp)))
      have := ih (fun y hy => h y (by simp [hy])) r' ha'
      rw [List.length_cons, readLines]
      simp only [er, this, List.map_cons]
  exact key _ l h _ ⟨Nat.zero_le _, rfl⟩

example : (importTSV (exportTSV true [([0, 9, 10], [255, 92, 13]), ([], [])]) true (dbmSet Dict.impl) Dict.empty).map
    (fun x => (x.2, x.1 [0, 9, 10], x.1 [])) = some (.success, some [255, 92, 13], some []) := by decide +kernel

end Verif.Lines
