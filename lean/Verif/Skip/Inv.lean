import Verif.Skip.MetaLemmas
/-
The invariant which connects the model with the specification, and the synchronization.
-/
namespace Verif.Skip
open Verif

/-- A source of the sorter holds records. -/
def SourceOk (x : Cfg × Bytes) (l : Recs) : Prop :=
  x.1.Ok ∧ (∃ md, md.length = metadataSize ∧ x.2 = image x.1 md l) ∧ Fits x.1 l ∧ SortedRecs l

/-- The sources hold the records of the merged databases. -/
def SourcesOk : List (Cfg × Bytes) → List Recs → Prop
  | [], ls => ls = []
  | x :: xs, ls => ∃ l ls', ls = l :: ls' ∧ SourceOk x l ∧ SourcesOk xs ls'

theorem scanAll_spec : ∀ {xs : List (Cfg × Bytes)} {ls : List Recs}, SourcesOk xs ls → scanAll xs = .ok ls
  | [], ls, h => by rw [SourcesOk] at h; subst h; rfl
  | (c, F) :: xs, ls, h => by
    obtain ⟨l, ls', rfl, ⟨hc, ⟨md, hm, hF⟩, hf, _⟩, hr⟩ := h
    simp only at hc hF hf
    rw [scanAll, hF, scan_image hc hm hf, scanAll_spec hr]
    rfl

theorem SourcesOk.append : ∀ {xs ys : List (Cfg × Bytes)} {ls ms : List Recs}, SourcesOk xs ls → SourcesOk ys ms →
    SourcesOk (xs ++ ys) (ls ++ ms)
  | [], ys, ls, ms, h, h' => by rw [SourcesOk] at h; subst h; exact h'
  | x :: xs, ys, ls, ms, h, h' => by
    obtain ⟨l, ls', rfl, h1, h2⟩ := h
    exact ⟨l, ls' ++ ms, rfl, h1, h2.append h'⟩

theorem SourcesOk.sorted : ∀ {xs : List (Cfg × Bytes)} {ls : List Recs}, SourcesOk xs ls → ∀ l ∈ ls, SortedRecs l
  | [], ls, h => by rw [SourcesOk] at h; subst h; simp
  | x :: xs, ls, h => by
    obtain ⟨l, ls', rfl, h1, h2⟩ := h
    intro y hy
    rcases List.mem_cons.mp hy with rfl | hy
    · exact h1.2.2.2
    · exact h2.sorted y hy

theorem SourcesOk.one {c : Cfg} {F : Bytes} {l : Recs} (h : SourceOk (c, F) l) : SourcesOk [(c, F)] [l] :=
  ⟨l, [], rfl, h, rfl⟩

/-- The updates kept in the sorter. -/
structure AsideOk (t : Sorter) (pend : Recs) : Prop where
  runs : ∀ r ∈ t.runs, SortedRecs r
  values : ∀ k, valuesOf k (t.runs.flatten ++ t.current) = valuesOf k pend

theorem flush_spec {t : Sorter} {pend : Recs} (h : AsideOk t pend) : AsideOk t.flush pend where
  runs := by
    intro r hr
    simp only [Sorter.flush, List.mem_append, List.mem_singleton] at hr
    rcases hr with hr | rfl
    · exact h.runs r hr
    · exact (stableSort_spec _).1
  values := by
    intro k
    rw [← h.values k]
    simp only [Sorter.flush, List.flatten_append, List.flatten_cons, List.flatten_nil, List.append_nil, valuesOf_append,
      (stableSort_spec _).2 k]

theorem add_aside {t : Sorter} {pend : Recs} (h : AsideOk t pend) (key value : Bytes) :
    AsideOk (t.add key value) (pend ++ [(key, value)]) ∧ (t.add key value).sources = t.sources := by
  have h' : AsideOk { t with mem := t.mem + (Codec.serializeStrPair key value).length + 8, current := t.current ++ [(key, value)] }
      (pend ++ [(key, value)]) := by
    refine ⟨h.runs, fun k => ?_⟩
    simp only
    rw [← List.append_assoc, valuesOf_append, h.values k, valuesOf_append]
  simp only [Sorter.add]
  split
  · exact ⟨flush_spec h', rfl⟩
  · exact ⟨h', rfl⟩

/-- The slots of the sorter. -/
theorem finish_spec {t : Sorter} {pend : Recs} (h : AsideOk t pend) {ls : List Recs} (hs : SourcesOk t.sources ls) :
    ∃ slots, t.finish = .ok slots ∧ (∀ s ∈ slots, SortedRecs s) ∧
      ∀ k, valuesOf k slots.flatten = valuesOf k ls.flatten ++ valuesOf k pend := by
  have go : ∀ t' : Sorter, AsideOk t' pend → t'.current = [] → SourcesOk t'.sources ls →
      ∃ slots, (do let ls ← scanAll t'.sources; pure (ls ++ t'.runs)) = Rd.ok slots ∧ (∀ s ∈ slots, SortedRecs s) ∧
        ∀ k, valuesOf k slots.flatten = valuesOf k ls.flatten ++ valuesOf k pend := by
    intro t' h' hc hs'
    rw [scanAll_spec hs']
    refine ⟨ls ++ t'.runs, rfl, ?_, fun k => ?_⟩
    · intro s hs1
      rcases List.mem_append.mp hs1 with h1 | h1
      · exact hs.sorted s h1
      · exact h'.runs s h1
    · have := h'.values k
      rw [hc, List.append_nil] at this
      rw [List.flatten_append, valuesOf_append, this]
  unfold Sorter.finish
  by_cases hc : t.current.isEmpty = true
  · simp only [hc, if_true]
    exact go t h (by simpa using hc) hs
  · simp only [hc, if_false, Bool.false_eq_true]
    exact go t.flush (flush_spec h) rfl hs

/-- The metadata describes a file with the given records. -/
structure Header (c : Cfg) (m : Meta) (recs : Recs) : Prop where
  good : m.Good
  num : m.num = recs.length
  eff : m.eff = effOf recs
  size : m.fileSize = offs c recs recs.length

/-- The file of the database is headed by metadata which describe it. -/
def Disk (d : Db) (recs : Recs) : Prop :=
  ∃ m fin, Header d.cfg m recs ∧ m.cyclic % 256 = d.md.cyclic % 256 ∧ d.file = image d.cfg (encodeMeta d.cfg m fin) recs

/-- The state of the model corresponds to that of the specification. -/
structure Inv (d : Db) (s : S) : Prop where
  cfg : d.cfg = s.cfg
  inOrder : d.inOrder = s.inOrder
  valid : d.cfg.Valid
  file : ∃ md, md.length = metadataSize ∧ d.file = image d.cfg md s.stored ∧ CacheOk d.cfg md s.stored d.cache
  disk : Disk d s.stored
  stored : SortedRecs s.stored
  fits : Fits d.cfg s.stored
  clean : ∀ r ∈ s.stored, r.2 ≠ removingValue
  cleanSrc : ∀ l ∈ s.sources, ∀ r ∈ l, r.2 ≠ removingValue
  cleanPend : ∀ r ∈ s.pending, r.2 ≠ some removingValue
  mode : d.writable = true ∧ d.healthy = true
  good : d.md.Good
  num : d.md.num = s.stored.length + (if s.inOrder then s.pending.length else 0)
  eff : d.md.eff = effOf s.stored + (if s.inOrder then effOf s.pend else 0)
  oldNum : d.oldNum = s.stored.length
  oldEff : d.oldEff = effOf s.stored
  sorter : ∃ t, d.sorter = some t ∧ SourcesOk t.sources s.sources ∧
    AsideOk t (if s.inOrder then [] else s.pend) ∧ (s.inOrder = true → t.current = [] ∧ t.runs = [])
  sorted : if s.inOrder then ∃ W, d.sorted = some W ∧ WriterOk d.cfg zeroMeta s.pend W else d.sorted = none
  ordered : s.inOrder = true → SortedRecs s.pend ∧ ∀ r ∈ s.pending, r.2 ≠ none
  removed : d.removed = false → ∀ r ∈ s.pending, r.2 ≠ none
  updated : d.updated = false → s.pending = [] ∧ s.sources = []

/-! The values after the updates -/

theorem valuesOf_pend (s : S) (k : Bytes) : valuesOf k s.pend = (updatesOf k s.pending).map (·.getD removingValue) := by
  unfold S.pend
  generalize s.pending = l
  induction l with
  | nil => rfl
  | cons r l ih =>
    rw [List.map_cons, valuesOf_cons, ih]
    by_cases h : r.1 = k <;> simp [updatesOf, h]

theorem mem_updatesOf {k : Bytes} {l : List (Bytes × Option Bytes)} {u : Option Bytes} (h : u ∈ updatesOf k l) : (k, u) ∈ l := by
  simp only [updatesOf, List.mem_map, List.mem_filter, decide_eq_true_eq] at h
  obtain ⟨⟨a, b⟩, ⟨h1, rfl⟩, rfl⟩ := h
  exact h1

theorem liveAfter_plain : ∀ (ups : List (Option Bytes)) (base : List Bytes), (∀ u ∈ ups, u ≠ none) →
    liveAfter base ups = base ++ ups.map (·.getD removingValue)
  | [], base, _ => by simp [liveAfter]
  | none :: ups, base, h => absurd rfl (h none (by simp))
  | some v :: ups, base, h => by
    rw [liveAfter, liveAfter_plain ups _ (fun u hu => h u (List.mem_cons_of_mem _ hu))]
    simp

theorem reduceRemove_from : ∀ (ups : List (Option Bytes)) (base : List Bytes), (∀ u ∈ ups, u ≠ some removingValue) →
    (ups.map (·.getD removingValue)).foldl (fun result v => if v = removingValue then [] else result ++ [v]) base = liveAfter base ups
  | [], base, _ => rfl
  | none :: ups, base, h => by
    simp only [List.map_cons, Option.getD_none, List.foldl_cons, if_true, liveAfter]
    exact reduceRemove_from ups [] (fun u hu => h u (List.mem_cons_of_mem _ hu))
  | some v :: ups, base, h => by
    have hv : v ≠ removingValue := fun e => h (some v) (by simp) (by rw [e])
    simp only [List.map_cons, Option.getD_some, List.foldl_cons, hv, if_false, liveAfter]
    exact reduceRemove_from ups _ (fun u hu => h u (List.mem_cons_of_mem _ hu))

theorem reduceRemove_clean (base : List Bytes) (h : ∀ v ∈ base, v ≠ removingValue) :
    base.foldl (fun result v => if v = removingValue then [] else result ++ [v]) [] = base := by
  have : ∀ (l acc : List Bytes), (∀ v ∈ l, v ≠ removingValue) →
      l.foldl (fun result v => if v = removingValue then [] else result ++ [v]) acc = acc ++ l := by
    intro l
    induction l with
    | nil => intro acc _; simp
    | cons v l ih =>
      intro acc hl
      rw [List.foldl_cons, if_neg (hl v (by simp)), ih _ (fun x hx => hl x (List.mem_cons_of_mem _ hx))]
      simp
  simpa using this base [] h

/-- The reduction of the code is the specified one. -/
theorem reduced_eq {removed : Bool} (reducer : Option Reducer) (key : Bytes) {base : List Bytes} {ups : List (Option Bytes)}
    (hb : ∀ v ∈ base, v ≠ removingValue) (hu : ∀ u ∈ ups, u ≠ some removingValue) (hr : removed = false → ∀ u ∈ ups, u ≠ none) :
    reduced removed reducer key (base ++ ups.map (·.getD removingValue)) = reduceBy reducer key (liveAfter base ups) := by
  have hlive : (if removed = true then afterLast removingValue (base ++ ups.map (·.getD removingValue))
      else base ++ ups.map (·.getD removingValue)) = liveAfter base ups := by
    cases removed with
    | false =>
      rw [liveAfter_plain ups base (hr rfl)]
      rfl
    | true =>
      rw [if_pos rfl, ← reduceRemove_eq, reduceRemove, List.foldl_append, reduceRemove_clean base hb, reduceRemove_from ups base hu]
  simp only [reduced, hlive, reduceBy]
  cases reducer <;> rfl

theorem liveAfter_mem : ∀ (ups : List (Option Bytes)) (base : List Bytes) (v : Bytes), v ∈ liveAfter base ups → v ∈ base ∨ some v ∈ ups
  | [], base, v, h => Or.inl h
  | none :: ups, base, v, h => by
    rcases liveAfter_mem ups [] v h with h | h
    · simp at h
    · exact Or.inr (List.mem_cons_of_mem _ h)
  | some u :: ups, base, v, h => by
    rcases liveAfter_mem ups _ v h with h | h
    · rcases List.mem_append.mp h with h | h
      · exact Or.inl h
      · exact Or.inr (by rw [List.mem_singleton.mp h]; simp)
    · exact Or.inr (List.mem_cons_of_mem _ h)

/-- The values of the synchronized records are not the marker. -/
theorem synced_clean {d : Db} {s : S} (h : Inv d s) {reducer : Option Reducer} (hf : ∀ f, reducer = some f → ∀ key values, removingValue ∉ f key values)
    {new : Recs} (hn : Synced s reducer new) : ∀ r ∈ new, r.2 ≠ removingValue := by
  intro r hr he
  have h1 : r.2 ∈ valuesOf r.1 new := mem_valuesOf.mpr hr
  rw [hn.2 r.1, reduceBy.eq_def, he] at h1
  cases hred : reducer with
  | some f =>
    rw [hred] at h1
    simp only at h1
    split at h1
    · simp at h1
    · exact hf f hred _ _ h1
  | none =>
    rw [hred] at h1
    rcases liveAfter_mem _ _ _ h1 with h2 | h2
    · rcases List.mem_append.mp h2 with h2 | h2
      · have h3 := mem_valuesOf.mp h2
        obtain ⟨l, hl, h3⟩ := List.mem_flatten.mp h3
        exact h.cleanSrc l hl _ h3 rfl
      · exact h.clean _ (mem_valuesOf.mp h2) rfl
    · exact h.cleanPend _ (mem_updatesOf h2) rfl

theorem synced_unique {s : S} {reducer : Option Reducer} {a b : Recs} (ha : Synced s reducer a) (hb : Synced s reducer b) : a = b :=
  sorted_unique ha.1 hb.1 fun k => by rw [ha.2 k, hb.2 k]

end Verif.Skip
