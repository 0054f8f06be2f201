import Verif.Poly.Props
/-
C82: where PolyDBM does not open what it is asked to open, and cases that meet the hypotheses of the theorems.
-/
namespace Verif.Poly
open Verif Verif.Codec
open Verif.Text (lowered lowerCase beginsWith)

/-- A world where everything can be opened. -/
def fine : Env := ⟨fun _ => 1073741824, true, true⟩

instance (a b : Bytes) : Decidable (Same a b) := inferInstanceAs (Decidable (lowered a = lowered b))

/-- C82: a TreeDBM that is asked to ignore case, with the documented name of the comparator, is opened without complaint and without that comparator;
a BabyDBM is refused. -/
theorem C82_comparator_violated :
    let params := [(asc "key_comparator", asc "LexicalCaseKeyComparator")]
    AskedComp .tree params (some .lexicalCase) ∧ AskedComp .baby params (some .lexicalCase) ∧
    openAdvanced fine St.init (asc "casket.tkt") params = (⟨some ⟨⟨.tree, .mmapPara, none⟩, true, false⟩, true, [asc "casket.tkt"]⟩, .done) ∧
    openAdvanced fine St.init (asc "casket.tkmb") params = (St.init, .invalid .comparator) := by
  refine ⟨?_, ?_, by decide, by decide⟩
  · exact Or.inr ⟨_, rfl, asc "LexicalCaseKeyComparator", by decide, rfl⟩
  · exact Or.inr ⟨_, rfl, asc "LexicalCaseKeyComparator", by decide, rfl⟩

/-- C82: a TreeDBM takes every comparator that does not exist, and keeps the one it has. -/
theorem C82_unknown_comparator_violated (name : Bytes) (h0 : name ≠ []) (h : ∀ x, ∀ n ∈ compNames x, ¬ Same name n) :
    (¬ ∃ c, AskedComp .tree [(asc "key_comparator", name)] c) ∧
    openAdvanced fine St.init (asc "casket.tkt") [(asc "key_comparator", name)] =
      (⟨some ⟨⟨.tree, .mmapPara, none⟩, true, false⟩, true, [asc "casket.tkt"]⟩, .done) := by
  have hv : value [(asc "key_comparator", name)] (asc "key_comparator") = name := by simp [value, List.lookup]
  have hlong : lowered name ∉ longCase := by
    simp only [longCase, List.mem_cons, List.not_mem_nil, or_false, not_or]
    exact ⟨h .lexicalCase _ (by decide), h .pairLexicalCase _ (by decide)⟩
  have hc : compOf name = none := by
    cases hx : compOf name with
    | none => rfl
    | some x =>
      obtain ⟨n, h1, h2⟩ := (same_names name (compNames x)).mpr ((compOf_iff name hlong x).mp hx)
      exact absurd h2 (h x n h1)
  constructor
  · rintro ⟨c, hx⟩
    unfold AskedComp at hx
    rw [if_pos (Or.inl rfl), hv] at hx
    rcases hx with ⟨e, -⟩ | ⟨x, -, n, h1, h2⟩
    · exact h0 e
    · exact h x n h1 h2
  · have hch : choose (asc "casket.tkt") [(asc "key_comparator", name)] = .ok ⟨.tree, .mmapPara, none⟩ := by
      have hg : guess (asc "casket.tkt") = asc "tree" := by decide
      have e1 : ([(asc "key_comparator", name)] : Params).filter (fun p => !beginsWith p.1 (asc "ulog_")) = [(asc "key_comparator", name)] := by
        rw [List.filter_cons, if_pos (by show (!beginsWith (asc "key_comparator") (asc "ulog_")) = true; decide)]; rfl
      have e2 : ∀ keys, asc "key_comparator" ∉ keys → erase [(asc "key_comparator", name)] keys = [(asc "key_comparator", name)] := by
        intro keys hk; simp [erase, hk]
      have s1 : ∀ key, key ≠ asc "key_comparator" → search [(asc "key_comparator", name)] key [] = [] := by
        intro key hk
        have : (key == asc "key_comparator") = false := by simpa using hk
        simp [search, List.lookup, this]
      unfold choose
      dsimp only
      rw [e1, e2 _ (by decide), s1 _ (by decide), s1 _ (by decide), hg]
      have t1 : classOf (asc "tree") = some .tree := by decide
      have t2 : fileOf (lowerCase []) = some .mmapPara := by decide
      have t0 : (if (if lowerCase [] = [] then asc "tree" else lowerCase []) = [] ∧ asc "casket.tkt" = [] then asc "tiny"
          else if lowerCase [] = [] then asc "tree" else lowerCase []) = asc "tree" := by decide
      rw [t0, t1, t2]
      dsimp only
      rw [e2 _ (by decide)]
      unfold tune
      dsimp only
      have e3 : erase (erase [(asc "key_comparator", name)] hashKeys) treeKeys = [] := by
        rw [e2 _ (by decide), erase_eq_nil]
        intro p hp
        simp only [List.mem_singleton] at hp
        subst hp; show asc "key_comparator" ∈ treeKeys; decide
      have e4 : search [(asc "key_comparator", name)] (asc "key_comparator") [] = name := hv
      rw [e3, e4, hc, if_neg (by simp [search])]; rfl
    have e5 : ([(asc "key_comparator", name)] : Params).filter (fun p => beginsWith p.1 (asc "ulog_")) = [] := by
      rw [List.filter_cons, if_neg (by show ¬ beginsWith (asc "key_comparator") (asc "ulog_") = true; decide)]; rfl
    unfold openAdvanced
    rw [hch, e5]
    decide

/-- C82: the default file is not MemoryMapAtomicFile as documented, whose calls are atomic (C80), but MemoryMapParallelFile. -/
theorem C82_default_file_violated (path : Bytes) (params : Params) (hk : CompKnown path params) (hf : value params (asc "file") = [])
    (c : Choice) (h : choose path params = .ok c) : c.file = .mmapPara := by
  have := ((choose_iff path params hk c).mp h).2.1
  rcases this with ⟨n, h1, h2⟩ | ⟨-, h2⟩
  · rw [hf] at h2
    exfalso
    revert h1 h2
    cases c.file <;> simp only [fileNames, List.mem_cons, List.not_mem_nil, or_false] <;> rintro (rfl | rfl) <;> decide
  · exact h2

def ulogParam : Params := [(asc "ulog_file_size", asc "1Mi")]

/-- C82: a parameter of the update log that is not supported is refused only after the database has been opened, and created or emptied on the way;
and the object remembers, so that after the next opening, of a database without a file, `Close` fails. -/
theorem C82_ulog_violated :
    (¬ ∃ c, Chosen (asc "casket.tkh") ulogParam c) ∧
    openAdvanced fine St.init (asc "casket.tkh") ulogParam = (⟨none, true, [asc "casket.tkh"]⟩, .invalid (.unsupported (asc "ulog_file_size"))) ∧
    (openAdvanced fine (openAdvanced fine St.init (asc "casket.tkh") ulogParam).1 [] []).2 = .done ∧
    (close (openAdvanced fine (openAdvanced fine St.init (asc "casket.tkh") ulogParam).1 [] []).1).2 = .precondition := by
  refine ⟨?_, by decide, by decide, by decide⟩
  rintro ⟨c, h⟩
  have h1 := h.keys (asc "ulog_file_size", asc "1Mi") (by simp [ulogParam])
  generalize c.kind = k at h1
  generalize c.file = f at h1
  clear h c
  revert h1
  cases k <;> cases f <;> decide

/-- C82: `ProcessMulti` without a database is undefined. -/
theorem C82_process_multi_violated (r : Res) : call St.init .processMulti r = .undefined := rfl

/-! ### Cases -/

example : CompKnown (asc "casket.tkt") [(asc "key_comparator", asc "decimal"), (asc "num_buckets", asc "10")] := by
  refine ⟨fun _ => ⟨some .decimal, Or.inr ⟨_, rfl, asc "Decimal", by decide, by decide⟩⟩, by decide, by decide⟩

example : openAdvanced fine St.init (asc "casket.tkt") [(asc "key_comparator", asc "decimal"), (asc "num_buckets", asc "10")] =
    (⟨some ⟨⟨.tree, .mmapPara, some .decimal⟩, true, false⟩, true, [asc "casket.tkt"]⟩, .done) := by decide

/-- The name of a shard. -/
example : openAdvanced fine St.init (asc "dir.tks/casket.TKH-00001-of-00004") [(asc "file", asc "PositionalAtomicFile"), (asc "block_size", asc "512")] =
    (⟨some ⟨⟨.hash, .posAtom, none⟩, true, false⟩, true, [asc "dir.tks/casket.TKH-00001-of-00004"]⟩, .done) := by decide

example : HasExt (asc "dir.tks/casket.TKH-00001-of-00004") (asc "tkh") :=
  ⟨asc "dir.tks/casket", asc "TKH", asc "-00001-of-00004", 0, by decide, by decide, Or.inr (by decide), by decide, by decide⟩

/-- The parameter goes before the extension. -/
example : openAdvanced fine St.init (asc "casket.tkh") [(asc "dbm", asc "BabyDBM")] =
    (⟨some ⟨⟨.baby, .mmapPara, none⟩, true, false⟩, true, [asc "casket.tkh"]⟩, .done) := by decide

example : openAdvanced fine St.init (asc "casket.tkh") [(asc "max_page_size", asc "100")] =
    (St.init, .invalid (.unsupported (asc "max_page_size"))) := by decide

example : openAdvanced fine St.init [] [(asc "ulog_prefix", asc "log")] =
    (⟨some ⟨⟨.tiny, .mmapPara, none⟩, false, true⟩, false, []⟩, .done) := by decide

example : openAdvanced fine St.init (asc "casket.txt") [] = (St.init, .invalid .unknownClass) := by decide

example : (openAdvanced ⟨fun _ => 0, false, true⟩ St.init (asc "casket.tkh") []).2 = .dbmFails := by decide

/-- A comparator that does not exist. -/
example : ∀ x, ∀ n ∈ compNames x, ¬ Same (asc "backwards") n := by
  intro x; cases x <;> decide

end Verif.Poly
