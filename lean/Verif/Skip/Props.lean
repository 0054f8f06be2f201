import Verif.Skip.Steps
/-
Property theorems C17 (searching in a SkipDBM file) and C18 (the synchronization).
-/
namespace Verif.Skip
open Verif

/-- The file which the code writes for a list of records: a new file with the given metadata bytes, then WriteRecord for
each of them. -/
def written (c : Cfg) (md : Bytes) (recs : Recs) : Bytes := ((Writer.new c md).writeAll c recs).file

theorem written_eq {c : Cfg} (hc : c.Valid) {md : Bytes} (hm : md.length = metadataSize) (recs : Recs) : written c md recs = image c md recs := by
  have := (writeAll_spec hc.ok.w (by have := hc.step; omega) hm recs (new_spec c md)).1
  simpa [written] using this

/-- The caches which are reached from a new one by searching. -/
inductive Warm (c : Cfg) (F : Bytes) : Cache → Prop
  | new (cap num : Nat) : Warm c F (Cache.new c.step cap num)
  | search {cc : Cache} (key : Bytes) (upper : Bool) : Warm c F cc → Warm c F (search c F cc key upper).1
  | index {cc : Cache} (i : Nat) : Warm c F cc → Warm c F (searchByIndex c F cc i).1

theorem Warm.ok {c : Cfg} (hc : c.Ok) {md : Bytes} (hm : md.length = metadataSize) {recs : Recs} (hf : Fits c recs) (hs : SortedRecs recs) {cc : Cache}
    (h : Warm c (image c md recs) cc) : CacheOk c md recs cc := by
  induction h with
  | new cap num => exact cache_new hc md recs cap num
  | search key upper _ ih =>
    obtain ⟨cc', h1, e⟩ := search_image hc hm hf hs ih key upper
    rw [e]; exact h1
  | index i _ ih =>
    obtain ⟨cc', h1, e⟩ := searchByIndex_image hc hm hf ih i
    rw [e]; exact h1

/-- C17: in a file of sorted records, with any cache that searching can leave, the search of a key finds nothing exactly
when no record has the key, and otherwise a record with the key whose value is that of the first such record. -/
theorem C17_search_finds_the_stored_key (c : Cfg) (hc : c.Valid) (md : Bytes) (hm : md.length = metadataSize) (recs : Recs) (hs : SortedRecs recs)
    (hf : Fits c recs) (cc : Cache) (hcc : Warm c (written c md recs) cc) (key : Bytes) :
    ∃ o, (search c (written c md recs) cc key false).2 = .ok o ∧ (o = none ↔ ∀ r ∈ recs, r.1 ≠ key) ∧
      ∀ r, o = some r → r.key = key ∧ ∃ v, loadValue (written c md recs) r = .ok v ∧ recs.find? (fun x => x.1 = key) = some (key, v) := by
  rw [written_eq hc hm] at hcc ⊢
  obtain ⟨cc', _, e⟩ := search_image hc.ok hm hf hs (hcc.ok hc.ok hm hf hs) key false
  rw [e]
  have hfl := find_lower hs key
  refine ⟨_, rfl, ?_, ?_⟩
  · by_cases hin : lowerIndex recs key < recs.length
    · simp only [hin, dite_true, Bool.false_eq_true, false_or] at hfl ⊢
      by_cases hk : recs[lowerIndex recs key].1 = key
      · simp only [hk, if_true, reduceCtorEq, false_iff]
        intro h
        exact h _ (List.getElem_mem hin) hk
      · simp only [hk, if_false, true_iff]
        simp only [hk, if_false] at hfl
        intro r hr
        simpa using List.find?_eq_none.mp hfl r hr
    · simp only [hin, dite_false, true_iff] at hfl ⊢
      intro r hr
      simpa using List.find?_eq_none.mp hfl r hr
  · intro r hr
    by_cases hin : lowerIndex recs key < recs.length
    · simp only [hin, dite_true, Bool.false_eq_true, false_or] at hfl hr
      by_cases hk : recs[lowerIndex recs key].1 = key
      · simp only [hk, if_true, Option.some.injEq] at hr hfl
        subst hr
        refine ⟨by rw [(theRec_fields hc.ok hm hf hin).2.2.2.1, hk], _, loadValue_image hc.ok hm hf _ hin, ?_⟩
        rw [hfl]
        exact congrArg some (Prod.ext hk rfl)
      · simp only [hk, if_false] at hr
        cases hr
    · simp only [hin, dite_false] at hr
      cases hr

/-- C17: Jump goes to the first record whose key is not less than the given one: all the records before it have less
keys, and it has not; there is no position exactly when all the keys are less. -/
theorem C17_jump_is_lower_bound (c : Cfg) (hc : c.Valid) (md : Bytes) (hm : md.length = metadataSize) (recs : Recs) (hs : SortedRecs recs)
    (hf : Fits c recs) (cc : Cache) (hcc : Warm c (written c md recs) cc) (key : Bytes) :
    ∃ o, (search c (written c md recs) cc key true).2 = .ok o ∧ (o = none ↔ ∀ r ∈ recs, bytesLt r.1 key = true) ∧
      ∀ r, o = some r → ∃ before x after, recs = before ++ x :: after ∧ (∀ y ∈ before, bytesLt y.1 key = true) ∧ bytesLt x.1 key = false ∧
        r.index = before.length ∧ r.key = x.1 ∧ loadValue (written c md recs) r = .ok x.2 := by
  rw [written_eq hc hm] at hcc ⊢
  obtain ⟨cc', _, e⟩ := search_image hc.ok hm hf hs (hcc.ok hc.ok hm hf hs) key true
  rw [e]
  refine ⟨_, rfl, ?_, ?_⟩
  · by_cases hin : lowerIndex recs key < recs.length
    · simp only [hin, dite_true, true_or, if_true, reduceCtorEq, false_iff]
      intro h
      have h1 := h _ (List.getElem_mem hin)
      rw [at_lowerIndex key hin] at h1
      cases h1
    · simp only [hin, dite_false, true_iff]
      intro r hr
      obtain ⟨i, hi, rfl⟩ := List.getElem_of_mem hr
      exact lt_lowerIndex key hi (by omega)
  · intro r hr
    by_cases hin : lowerIndex recs key < recs.length
    · simp only [hin, dite_true, true_or, if_true, Option.some.injEq] at hr
      subst hr
      obtain ⟨_, _, _, h2, h3, _⟩ := theRec_fields hc.ok hm hf (md := md) hin
      refine ⟨recs.take (lowerIndex recs key), recs[lowerIndex recs key], recs.drop (lowerIndex recs key + 1), ?_, ?_, at_lowerIndex key hin, ?_, h2,
        loadValue_image hc.ok hm hf _ hin⟩
      · rw [← List.drop_eq_getElem_cons hin, List.take_append_drop]
      · intro y hy
        obtain ⟨i, hi, rfl⟩ := List.getElem_of_mem hy
        rw [List.length_take] at hi
        rw [List.getElem_take]
        exact lt_lowerIndex key (by omega) (by omega)
      · rw [h3, List.length_take]; omega
    · simp only [hin, dite_false] at hr
      cases hr

/-- C17: the search by an index finds the record with that index, and nothing from the number of records on. -/
theorem C17_get_by_index (c : Cfg) (hc : c.Valid) (md : Bytes) (hm : md.length = metadataSize) (recs : Recs) (hs : SortedRecs recs)
    (hf : Fits c recs) (cc : Cache) (hcc : Warm c (written c md recs) cc) (i : Nat) :
    ∃ o, (searchByIndex c (written c md recs) cc i).2 = .ok o ∧ (o = none ↔ recs.length ≤ i) ∧
      ∀ r, o = some r → ∃ v, recs[i]? = some (r.key, v) ∧ loadValue (written c md recs) r = .ok v := by
  rw [written_eq hc hm] at hcc ⊢
  obtain ⟨cc', _, e⟩ := searchByIndex_image hc.ok hm hf (hcc.ok hc.ok hm hf hs) i
  rw [e]
  refine ⟨_, rfl, ?_, ?_⟩
  · by_cases hi : i < recs.length
    · simp [hi]
    · simp [hi]; omega
  · intro r hr
    by_cases hi : i < recs.length
    · simp only [hi, if_true, Option.some.injEq] at hr
      subst hr
      refine ⟨recs[i].2, ?_, loadValue_image hc.ok hm hf i hi⟩
      rw [List.getElem?_eq_getElem hi, (theRec_fields hc.ok hm hf hi).2.2.2.1]
    · simp only [hi, if_false] at hr
      cases hr

/-- C17: reading the file from its first record to its end gives all the records in order, with keys and values as they
were written. -/
theorem C17_scan_reads_everything (c : Cfg) (hc : c.Valid) (md : Bytes) (hm : md.length = metadataSize) (recs : Recs) (hf : Fits c recs) :
    scan c (written c md recs) = .ok recs := by
  rw [written_eq hc hm]
  exact scan_image hc.ok hm hf

/-- C17, C18: every series of calls on a new database (updates, readings, synchronizations, merging of other databases,
rebuilding, closing and opening again, and movements of an iterator) gives what the specification says: readings and
iterators see the records of the last synchronization in key order, and each synchronization applies the updates in call
order. The memory limit of the sorter and the size of the cache are arbitrary. -/
theorem C18_history_partial (p : Params) (hv : p.cfg.Valid) (now : Nat) (ops : List Op) (ha : AllowedRun ⟨p.cfg, p.inOrder, [], [], [], none⟩ ops) :
    ∃ d d' it' s' os, Db.create p now = .ok d ∧ run d none ops = .ok (d', it', os) ∧ SpecRun ⟨p.cfg, p.inOrder, [], [], [], none⟩ ops s' os := by
  obtain ⟨d, e, hi, _⟩ := create_ok hv now
  obtain ⟨d', it', s', os, e', hs, _⟩ := run_ok ops (it := none) hi trivial ha
  exact ⟨d, d', it', s', os, e, e', hs⟩

/-- The records of a file are determined by it. -/
theorem Holds.unique {F : Bytes} {a b : Recs} (ha : Holds F a) (hb : Holds F b) : a = b := by
  obtain ⟨c, m, same, md, hl, hm, he, hf, _⟩ := ha
  obtain ⟨c', m', same', md', hl', hm', he', hf', _⟩ := hb
  rw [hl] at hl'
  cases hl'
  have h1 := scan_image (loadMetadata_valid hl).ok hm hf
  have h2 := scan_image (loadMetadata_valid hl).ok hm' hf'
  rw [← he] at h1
  rw [← he', h1] at h2
  cases h2
  rfl

theorem spec_unique {s : S} {op : Op} {s1 s2 : S} {o1 o2 : Out} (h1 : Spec s op s1 o1) (h2 : Spec s op s2 o2) : s1 = s2 ∧ o1 = o2 := by
  have plain : ∀ {a : S} {b : Out}, (s1 = a ∧ o1 = b) → (s2 = a ∧ o2 = b) → s1 = s2 ∧ o1 = o2 := by
    rintro a b ⟨rfl, rfl⟩ ⟨rfl, rfl⟩; exact ⟨rfl, rfl⟩
  cases op with
  | sync now reducer =>
    obtain ⟨a1, a2, a3⟩ := h1
    obtain ⟨b1, b2, b3⟩ := h2
    have := synced_unique a1 b1
    exact ⟨by rw [a2, b2, this], by rw [a3, b3]⟩
  | rebuild now c =>
    obtain ⟨a1, a2, a3⟩ := h1
    obtain ⟨b1, b2, b3⟩ := h2
    have := synced_unique a1 b1
    exact ⟨by rw [a2, b2, this], by rw [a3, b3]⟩
  | reopen now p now' =>
    obtain ⟨a1, a2, a3⟩ := h1
    obtain ⟨b1, b2, b3⟩ := h2
    have := synced_unique a1 b1
    exact ⟨by rw [a2, b2, this], by rw [a3, b3]⟩
  | merge src =>
    obtain ⟨⟨l, a1, a2⟩, a3⟩ := h1
    obtain ⟨⟨l', b1, b2⟩, b3⟩ := h2
    have := a1.unique b1
    subst this
    exact ⟨by rw [a2, b2], by rw [a3, b3]⟩
  | processFirst proc w =>
    rw [Spec.eq_def] at h1 h2
    cases hh : s.stored.head? <;>
    · simp only [hh] at h1 h2
      exact plain h1 h2
  | next =>
    rw [Spec.eq_def] at h1 h2
    cases hh : s.cur <;>
    · simp only [hh] at h1 h2
      exact plain h1 h2
  | previous =>
    rw [Spec.eq_def] at h1 h2
    cases hh : s.cur <;>
    · simp only [hh] at h1 h2
      exact plain h1 h2
  | iter proc w =>
    rw [Spec.eq_def] at h1 h2
    cases hh : s.cur <;>
    · simp only [hh] at h1 h2
      exact plain h1 h2
  | process key proc w => exact plain h1 h2
  | insert key a => exact plain h1 h2
  | getByIndex i => exact plain h1 h2
  | processEach proc w => exact plain h1 h2
  | count => exact plain h1 h2
  | effSize => exact plain h1 h2
  | clear now => exact plain h1 h2
  | revert => exact plain h1 h2
  | first => exact plain h1 h2
  | last => exact plain h1 h2
  | jump key => exact plain h1 h2
  | jumpLower key inclusive => exact plain h1 h2
  | jumpUpper key inclusive => exact plain h1 h2

/-- The specification leaves no choice. -/
theorem specRun_unique : ∀ (ops : List Op) {s s1 s2 : S} {os1 os2 : List Out}, SpecRun s ops s1 os1 → SpecRun s ops s2 os2 → s1 = s2 ∧ os1 = os2
  | [], s, s1, s2, os1, os2, h1, h2 => ⟨by rw [h1.1, h2.1], by rw [h1.2, h2.2]⟩
  | op :: rest, s, s1, s2, os1, os2, h1, h2 => by
    obtain ⟨a, o, os, p1, p2, rfl⟩ := h1
    obtain ⟨a', o', os', q1, q2, rfl⟩ := h2
    obtain ⟨rfl, rfl⟩ := spec_unique p1 q1
    obtain ⟨rfl, rfl⟩ := specRun_unique rest p2 q2
    exact ⟨rfl, rfl⟩

/-- C18: the memory limit of the external sorter and the size of the record cache change nothing: two databases created
with parameters which differ only in them give the same results for the same calls. -/
theorem C18_sort_memory_and_cache_change_nothing (c : Cfg) (hv : c.Valid) (inOrder : Bool) (m1 m2 cap1 cap2 now : Nat) (ops : List Op)
    (ha : AllowedRun ⟨c, inOrder, [], [], [], none⟩ ops) :
    ∃ d1 d2 r1 r2 it1 it2 os, Db.create ⟨c, m1, inOrder, cap1⟩ now = .ok d1 ∧ Db.create ⟨c, m2, inOrder, cap2⟩ now = .ok d2 ∧
      run d1 none ops = .ok (r1, it1, os) ∧ run d2 none ops = .ok (r2, it2, os) := by
  obtain ⟨d1, e1, i1, _⟩ := create_ok (p := ⟨c, m1, inOrder, cap1⟩) hv now
  obtain ⟨d2, e2, i2, _⟩ := create_ok (p := ⟨c, m2, inOrder, cap2⟩) hv now
  obtain ⟨r1, it1, s1, os1, f1, h1, _⟩ := run_ok ops (it := none) i1 trivial ha
  obtain ⟨r2, it2, s2, os2, f2, h2, _⟩ := run_ok ops (it := none) i2 trivial ha
  obtain ⟨_, rfl⟩ := specRun_unique ops h1 h2
  exact ⟨d1, d2, r1, r2, it1, it2, os1, e1, e2, f1, f2⟩

/-! The provided reducers -/

/-- C18: with ReduceToFirst each key keeps its oldest value. -/
theorem C18_reduce_to_first {s : S} {new : Recs} (h : Synced s (some reduceToFirst) new) (key : Bytes) :
    valuesOf key new = (liveAfter (valuesOf key s.sources.flatten ++ valuesOf key s.stored) (updatesOf key s.pending)).head?.toList := by
  rw [h.2 key, reduceBy.eq_def]
  simp only [reduceToFirst]
  generalize liveAfter _ _ = l
  cases l <;> simp

/-- C18: with ReduceToLast each key keeps its newest value. -/
theorem C18_reduce_to_last {s : S} {new : Recs} (h : Synced s (some reduceToLast) new) (key : Bytes) :
    valuesOf key new = (liveAfter (valuesOf key s.sources.flatten ++ valuesOf key s.stored) (updatesOf key s.pending)).getLast?.toList := by
  rw [h.2 key, reduceBy.eq_def]
  simp only [reduceToLast]
  generalize liveAfter _ _ = l
  cases l with
  | nil => rfl
  | cons a l => simp [List.getLast?_cons]

/-- C18: with ReduceToSecond each key keeps its second oldest value, or the only one. -/
theorem C18_reduce_to_second {s : S} {new : Recs} (h : Synced s (some reduceToSecond) new) (key : Bytes) :
    valuesOf key new = match liveAfter (valuesOf key s.sources.flatten ++ valuesOf key s.stored) (updatesOf key s.pending) with
      | [] => []
      | [v] => [v]
      | _ :: v :: _ => [v] := by
  rw [h.2 key, reduceBy.eq_def]
  simp only [reduceToSecond]
  generalize liveAfter _ _ = l
  match l with
  | [] => rfl
  | [v] => simp
  | a :: v :: l => simp

/-- C18: with ReduceConcat each key keeps the concatenation of its values from the oldest to the newest. -/
theorem C18_reduce_concat {s : S} {new : Recs} (h : Synced s (some (reduceConcat [])) new) (key : Bytes) :
    valuesOf key new = match liveAfter (valuesOf key s.sources.flatten ++ valuesOf key s.stored) (updatesOf key s.pending) with
      | [] => []
      | values => [values.flatten] := by
  have hj : ∀ l : List Bytes, joinWith [] l = l.flatten := by
    intro l
    induction l with
    | nil => rfl
    | cons a l ih =>
      cases l with
      | nil => simp [joinWith]
      | cons b l =>
        rw [joinWith, ih]
        · simp
        · simp
  rw [h.2 key, reduceBy.eq_def]
  simp only [reduceConcat, hj]
  generalize liveAfter _ _ = l
  cases l <;> simp

/-- C18: with a separator which occurs in no value, the values can be recovered from the joined one; here: the joined
value of at least one value is the values with the separator between each two of them. -/
theorem C18_reduce_concat_with_separator {s : S} {new : Recs} (sep : Bytes) (h : Synced s (some (reduceConcat sep)) new) (key : Bytes) :
    valuesOf key new = match liveAfter (valuesOf key s.sources.flatten ++ valuesOf key s.stored) (updatesOf key s.pending) with
      | [] => []
      | v :: values => [v ++ (values.map (sep ++ ·)).flatten] := by
  have hj : ∀ (l : List Bytes) (v : Bytes), joinWith sep (v :: l) = v ++ (l.map (sep ++ ·)).flatten := by
    intro l
    induction l with
    | nil => intro v; simp [joinWith]
    | cons a l ih => intro v; rw [joinWith, ih a]; simp; simp
  rw [h.2 key, reduceBy.eq_def]
  simp only [reduceConcat]
  generalize liveAfter _ _ = l
  cases l with
  | nil => rfl
  | cons v l => simp [hj]

/-- C18: with ReduceToTotalBigEndian each key keeps the sum modulo 2^64 of its values, as eight bytes. -/
theorem C18_reduce_to_total {s : S} {new : Recs} (h : Synced s (some reduceToTotalBigEndian) new) (key : Bytes) :
    valuesOf key new = match liveAfter (valuesOf key s.sources.flatten ++ valuesOf key s.stored) (updatesOf key s.pending) with
      | [] => []
      | values => [Codec.intToStrBigEndian ((values.map Codec.strToIntBigEndian).sum % 2 ^ 64) 8] := by
  rw [h.2 key, reduceBy.eq_def]
  simp only [reduceToTotalBigEndian]
  generalize liveAfter _ _ = l
  cases l <;> simp

theorem liveAfter_append : ∀ (a b : List (Option Bytes)) (base : List Bytes), liveAfter base (a ++ b) = liveAfter (liveAfter base a) b
  | [], b, base => rfl
  | none :: a, b, base => liveAfter_append a b []
  | some v :: a, b, base => liveAfter_append a b (base ++ [v])

/-- C18: a key whose last update is a removal is absent after the synchronization, whatever the reducer. -/
theorem C18_removed_key_is_absent {s : S} {reducer : Option Reducer} {new : Recs} (h : Synced s reducer new) (key : Bytes) (ups : List (Option Bytes))
    (hu : updatesOf key s.pending = ups ++ [none]) : ∀ r ∈ new, r.1 ≠ key := by
  have : valuesOf key new = [] := by
    rw [h.2 key, hu, liveAfter_append]
    cases reducer <;> simp [liveAfter, reduceBy]
  intro r hr hk
  have h2 : r.2 ∈ valuesOf key new := mem_valuesOf.mpr (by rw [← hk]; exact hr)
  rw [this] at h2
  cases h2

/-- C18: a key without updates keeps its values if there is no reducer and no merged database. -/
theorem C18_untouched_key_stays {s : S} {new : Recs} (h : Synced s none new) (key : Bytes) (hu : updatesOf key s.pending = [])
    (hs : s.sources = []) : valuesOf key new = valuesOf key s.stored := by
  rw [h.2 key, hu, hs]
  simp [liveAfter, reduceBy, valuesOf_nil]

end Verif.Skip
