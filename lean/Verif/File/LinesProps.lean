import Verif.File.Lines
/-
C53 for files that were not written by ExportDBMToTSV: what ImportDBMFromTSV takes from a text.
-/
namespace Verif.Lines
open Verif Verif.Codec Verif.Flat

/-- SPECIFICATION: what a line without its newline says: nothing if it has no tab, else the key before the first tab and
the value behind it. -/
inductive Says : Bytes → Option (Bytes × Bytes) → Prop
  | none {l} : (9 : UInt8) ∉ l → Says l none
  | entry {k v} : (9 : UInt8) ∉ k → Says (k ++ 9 :: v) (some (k, v))

theorem findTab_none {a : Bytes} (h : (9 : UInt8) ∉ a) : findTab a = none := by
  induction a with
  | nil => rfl
  | cons c a ih =>
    simp only [List.mem_cons, not_or] at h
    simp only [findTab]
    rw [if_neg (Ne.symm h.1), ih h.2]; rfl

theorem Says.find {l : Bytes} {x : Option (Bytes × Bytes)} (h : Says l x) : findTab l = x := by
  cases h with
  | none h => exact findTab_none h
  | entry h => exact findTab_spec h

theorem importLines {σ : Type} {setf : σ → Bytes → Bytes → σ × Code} {inv : σ → Prop} {view : σ → Dict}
    {fits : Bytes → Bytes → Prop} (S : Sets setf inv view fits) {file : Bytes}
    (l : List (Bytes × Option (Bytes × Bytes))) (hl : ∀ x ∈ l, (10 : UInt8) ∉ x.1 ∧ Says x.1 x.2)
    (hf : ∀ k v, (k, v) ∈ l.filterMap (·.2) → fits k v) (last : Bytes) (hlast : (10 : UInt8) ∉ last) (lastSays : Option (Bytes × Bytes))
    (hls : Says last lastSays) (hlf : ∀ k v, lastSays = some (k, v) → fits k v) :
    ∀ (r : Reader) (s : σ) (fuel : Nat), At file r (l.flatMap (fun x => x.1 ++ [10]) ++ last) → inv s → l.length + last.length < fuel →
      ∃ s', importLoop file false setf fuel r s = some (s', .success) ∧ inv s' ∧
        view s' = setAll (view s) (l.filterMap (·.2) ++ lastSays.toList) := by
  have endOk : ∀ (r : Reader) (s : σ) (fuel : Nat), At file r [] → inv s → 0 < fuel → importLoop file false setf fuel r s = some (s, .success) := by
    intro r s fuel ha hi hfu
    obtain ⟨f, rfl⟩ : ∃ f, fuel = f + 1 := ⟨fuel - 1, by omega⟩
    obtain ⟨r', e⟩ := readLine_end (maxSize := 0) ha
    simp only [importLoop, e]; rfl
  have one : ∀ (r : Reader) (s : σ) (fuel : Nat) (line t : Bytes) (x : Option (Bytes × Bytes)), At file r (line ++ t) → inv s →
      IsLine 0 line t → Says (content line) x → (∀ k v, x = some (k, v) → fits k v) →
      ∃ r' s', importLoop file false setf (fuel + 1) r s = importLoop file false setf fuel r' s' ∧ At file r' t ∧ inv s' ∧
        view s' = setAll (view s) x.toList := by
    intro r s fuel line t x ha hi hl hx hfx
    obtain ⟨r', er, ha'⟩ := readLine_line ha hl
    cases x with
    | none =>
      refine ⟨r', s, ?_, ha', hi, rfl⟩
      rw [importLoop]; simp only [er, hx.find]
    | some kv =>
      obtain ⟨k, v⟩ := kv
      have hset := S.ok s k v hi (hfx k v rfl)
      rcases he : setf s k v with ⟨s1, c⟩
      rw [he] at hset
      dsimp only at hset
      obtain ⟨rfl, hi1, hv1⟩ := hset
      refine ⟨r', s1, ?_, ha', hi1, by rw [hv1]; rfl⟩
      rw [importLoop]; simp only [er, hx.find, he, Bool.false_eq_true, if_false]
  induction l with
  | nil =>
    intro r s fuel ha hi hfu
    simp only [List.flatMap_nil, List.nil_append] at ha
    by_cases hn : last = []
    · subst hn
      have : lastSays = none := hls.find.symm
      subst this
      exact ⟨s, endOk r s fuel ha hi (by omega), hi, rfl⟩
    · have hpos := List.length_pos_iff.2 hn
      obtain ⟨f, rfl⟩ : ∃ f, fuel = f + 1 := ⟨fuel - 1, by omega⟩
      have hil : IsLine 0 last [] := ⟨hn, fun c hc e => hlast (by subst e; exact List.dropLast_subset _ hc), by simp, .inr (.inr rfl)⟩
      have hc : content last = last := by
        unfold content
        rw [if_pos]
        right
        intro h
        exact hlast (List.mem_of_getLast? h)
      obtain ⟨r', s', e, ha', hi', hv'⟩ := one r s f last [] lastSays (by simpa using ha) hi hil (by rw [hc]; exact hls) hlf
      rw [e]
      refine ⟨s', endOk r' s' f ha' hi' (by simp at hfu; omega), hi', by rw [hv']; rfl⟩
  | cons x l ih =>
    intro r s fuel ha hi hfu
    obtain ⟨f, rfl⟩ : ∃ f, fuel = f + 1 := ⟨fuel - 1, by omega⟩
    have hx := hl x (by simp)
    simp only [List.flatMap_cons, List.append_assoc] at ha
    rw [← List.append_assoc, ← List.append_assoc, List.append_assoc] at ha
    obtain ⟨r', s', e, ha', hi', hv'⟩ := one r s f (x.1 ++ [10]) (l.flatMap (fun x => x.1 ++ [10]) ++ last) x.2 (by simpa using ha) hi (isLine_of hx.1)
      (by rw [content_of]; exact hx.2) (by
        intro k v hkv
        refine hf k v ?_
        rw [List.mem_filterMap]; exact ⟨x, by simp, hkv⟩)
    rw [e]
    simp only [List.length_cons] at hfu
    obtain ⟨s2, e2, hi2, hv2⟩ := ih (fun y hy => hl y (by simp [hy])) (by
      intro k v hkv
      refine hf k v ?_
      rw [List.mem_filterMap] at hkv ⊢
      obtain ⟨y, hy, h⟩ := hkv
      exact ⟨y, by simp [hy], h⟩) r' s' f ha' hi' (by omega)
    refine ⟨s2, e2, hi2, ?_⟩
    rw [hv2, hv']
    cases hxx : x.2 with
    | none => rw [List.filterMap_cons_none hxx]; rfl
    | some kv => rw [List.filterMap_cons_some hxx]; rfl

/-- C53: importing any text without unescaping: every line with a tab stores the value behind the first tab under the key
before it, in the order of the lines; lines without a tab are passed over; the last line need not end with a newline. -/
theorem C53_import_text {σ : Type} {D : DbmImpl σ} {inv view fits} (L : Lawful D inv view fits)
    (l : List (Bytes × Option (Bytes × Bytes))) (hl : ∀ x ∈ l, (10 : UInt8) ∉ x.1 ∧ Says x.1 x.2)
    (hf : ∀ k v, (k, v) ∈ l.filterMap (·.2) → fits k v) (last : Bytes) (hlast : (10 : UInt8) ∉ last) (lastSays : Option (Bytes × Bytes))
    (hls : Says last lastSays) (hlf : ∀ k v, lastSays = some (k, v) → fits k v) (s : σ) (hi : inv s) :
    ∃ s', importTSV (l.flatMap (fun x => x.1 ++ [10]) ++ last) false (dbmSet D) s = some (s', .success) ∧ inv s' ∧
      view s' = setAll (view s) (l.filterMap (·.2) ++ lastSays.toList) := by
  refine importLines (dbmSet_sets L) l hl hf last hlast lastSays hls hlf Reader.new s _ ⟨Nat.zero_le _, rfl⟩ hi ?_
  have h1 : ∀ l : List (Bytes × Option (Bytes × Bytes)), l.length ≤ (l.flatMap (fun x => x.1 ++ [10])).length := by
    intro l
    induction l with
    | nil => simp
    | cons x l ih => simp only [List.flatMap_cons, List.length_append, List.length_cons]; simp at ih ⊢; omega
  have := h1 l
  rw [List.length_append]; omega

example : (importTSV (asc "a\tb\tc\nplain\n\tx\na\tz") false (dbmSet Dict.impl) Dict.empty).map (fun x => (x.2, x.1 (asc "a"), x.1 [], x.1 (asc "plain"))) =
    some (.success, some (asc "z"), some (asc "x"), none) := by decide +kernel

end Verif.Lines
