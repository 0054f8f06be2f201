import Verif.Cache.Iter
/-
Concrete histories of CacheDBM, with the real hash function: that the theorems are not vacuous, and what they cannot say.
-/
namespace Verif.Cache

/-- Four keys of the same partition. -/
def kA : Bytes := [45]
def kB : Bytes := [99]
def kC : Bytes := [106]
def kD : Bytes := [166]

theorem same_slot : realEnv.slotOf kA = 3 ∧ realEnv.slotOf kB = 3 ∧ realEnv.slotOf kC = 3 ∧ realEnv.slotOf kD = 3 := by decide +kernel

/-- A capacity of 64 records gives 3 to each partition. -/
def hist : List Plain := [.set kA [1], .set kB [2], .set kC [3], .get kA, .set kD [4]]

theorem fits_of_small {h : List Op} (hs : ∀ k p, Op.process k true p ∈ h → ∀ o v, (p o).1 = .set v → k.length + v.length ≤ 1000) : Fits h := by
  intro k p hm o
  have := hs k p hm o
  cases ha : (p o).1 with
  | set v =>
    have := this v ha
    show recFits k v
    unfold recFits blkSize
    have h1 : Codec.sizeVarNum k.length ≤ 10 := Codec.sizeVarNum_le _
    have h2 : Codec.sizeVarNum v.length ≤ 10 := Codec.sizeVarNum_le _
    omega
  | noop => trivial
  | remove => trivial

/-- The record of a call is small. -/
def Plain.small : Plain → Bool
  | .set k v => decide (k.length + v.length ≤ 1000)
  | _ => true

/-- A history of plain calls with small records. -/
theorem fits_plain {h : List Plain} (hs : h.all Plain.small = true) : Fits (h.map Plain.op) ∧ Small 1000 (h.map Plain.op) := by
  have key : ∀ k p, Op.process k true p ∈ h.map Plain.op → ∀ o v, (p o).1 = .set v → k.length + v.length ≤ 1000 := by
    intro k p hm o v hv
    obtain ⟨x, hx, he⟩ := List.mem_map.1 hm
    cases x with
    | set k' v' =>
      simp only [Plain.op, Op.process.injEq, true_and] at he
      obtain ⟨rfl, rfl⟩ := he
      have : v = v' := by cases o <;> simp [Api.setProc] at hv <;> exact hv.symm
      rw [this]
      have := List.all_eq_true.1 hs _ hx
      simpa [Plain.small] using this
    | remove k' =>
      simp only [Plain.op, Op.process.injEq, true_and] at he
      obtain ⟨rfl, rfl⟩ := he
      cases o <;> simp [Api.removeProc] at hv
    | get k' => simp [Plain.op] at he
    | clear => simp [Plain.op] at he
    | rebuild a b => simp [Plain.op] at he
  exact ⟨fits_of_small key, key⟩

theorem hist_fits : Fits (hist.map Plain.op) ∧ Small 1000 (hist.map Plain.op) := fits_plain (by decide)

/-- The record of `kB` is evicted, as `kA` was read after it. -/
example : look realEnv (run realEnv (State.new 64 (-1)) (hist.map Plain.op)) kA = some [1] ∧
    look realEnv (run realEnv (State.new 64 (-1)) (hist.map Plain.op)) kB = none ∧
    look realEnv (run realEnv (State.new 64 (-1)) (hist.map Plain.op)) kC = some [3] ∧
    look realEnv (run realEnv (State.new 64 (-1)) (hist.map Plain.op)) kD = some [4] ∧
    (run realEnv (State.new 64 (-1)) (hist.map Plain.op)).count = 3 := by decide +kernel

/-- `C11_get` for this history. -/
example : lastSet kA hist.reverse = some [1] := by decide +kernel

/-- `C11_evicts_lru` for this history. -/
example : UsedBefore ((hist.take 4).map Plain.op) kB kA := by
  refine (C11_evicts_lru realEnv 64 (-1) ((hist.take 4).map Plain.op) kD true (Api.setProc [4] true) hist_fits.1 kB (by decide) (by decide +kernel) (by decide +kernel)).2.2 kA
    (by decide +kernel) (by decide) (by decide +kernel)

/-- `C12_stays` applies: `kA` is there after calls for two other keys of its partition, which holds three. -/
example : look realEnv (run realEnv (State.new 64 (-1)) ([] ++ [(Plain.set kA [1]).op] ++ [Plain.set kB [2], Plain.set kC [3], Plain.get kB].map Plain.op)) kA = some [1] :=
  C12_stays realEnv 64 (-1) [] _ kA true _ (fits_plain (h := [.set kA [1], .set kB [2], .set kC [3], .get kB]) (by decide)).1 1000
    (fits_plain (h := [.set kA [1], .set kB [2], .set kC [3], .get kB]) (by decide)).2 (by unfold Enough; decide +kernel) (by simp) [1] (by decide +kernel) [kB, kC]
    (by decide) (by
      intro op hop
      simp only [List.map_cons, List.map_nil, List.mem_cons, List.not_mem_nil, or_false] at hop
      rcases hop with rfl | rfl | rfl <;> exact ⟨by decide, fun _ => by decide⟩)

/-- `C12_no_eviction` applies. -/
example : look realEnv (run realEnv (State.new 64 (-1)) ([Plain.set kA [1], .set kB [2], .get kA, .set kC [3], .remove kB].map Plain.op)) =
    dictRun ([Plain.set kA [1], .set kB [2], .get kA, .set kC [3], .remove kB].map Plain.op) :=
  C12_no_eviction realEnv 64 (-1) 1000 (by unfold Enough; decide +kernel) (fun _ => [kA, kB, kC]) (by intro i; decide)
    _ (fits_plain (by decide)).1 (fits_plain (by decide)).2 (by simp [Plain.op]) (by
      intro k w p hm
      simp [Plain.op] at hm
      rcases hm with ⟨rfl, _⟩ | ⟨rfl, _⟩ | ⟨rfl, _⟩ | ⟨rfl, _⟩ | ⟨rfl, _⟩ <;> decide)

/-- With one partition's share of 1 record, two partitions hold two records: `Count` exceeds the "maximum number of records" given to the
constructor (tkrzw_dbm_cache.h 152). -/
theorem C11_capacity_violated : (run realEnv (State.new 1 (-1)) ([Plain.set [0] [1], .set [1] [2]].map Plain.op)).count = 2 := by decide +kernel

/-- `Rebuild` with a smaller capacity keeps the least recently used record and drops the most recently used ones. -/
theorem C11_rebuild_violated :
    look realEnv (run realEnv (State.new 64 (-1)) ([Plain.set kA [1], .set kB [2], .set kC [3], .rebuild 1 (-1)].map Plain.op)) kA = some [1] ∧
    look realEnv (run realEnv (State.new 64 (-1)) ([Plain.set kA [1], .set kB [2], .set kC [3], .rebuild 1 (-1)].map Plain.op)) kB = none ∧
    look realEnv (run realEnv (State.new 64 (-1)) ([Plain.set kA [1], .set kB [2], .set kC [3], .rebuild 1 (-1)].map Plain.op)) kC = none := by decide +kernel

/-- A new value for a record that is there is not checked against the memory limit: with a limit of 2000 bytes a record of 2001 bytes stays. -/
theorem C11_memory_violated :
    (run realEnv (State.new 32 2000) ([Plain.set kA [1], .set kA (List.replicate 2000 7)].map Plain.op)).effSize = 2001 := by decide +kernel

/-- With a memory limit too small for one record, a record is evicted by its own `Set`. -/
theorem C12_memory_violated :
    look realEnv (run realEnv (State.new 64 32) ([Plain.set kA [1]].map Plain.op)) kA = none := by decide +kernel

/-- Evictions are not told to the update logger: a replica has more records. -/
theorem C25_cache_violated :
    Dict.replay Dict.empty (run realEnv (State.new 64 (-1)) (hist.map Plain.op)).log kB = some [2] ∧
    look realEnv (run realEnv (State.new 64 (-1)) (hist.map Plain.op)) kB = none := by decide +kernel

/-- A traversal with an update, an eviction-free removal through the iterator and a removal of a record not yet passed. -/
def sampleEvs : List Ev := [.next, .proc false (fun _ _ => (.noop, ())), .db ((Plain.remove kC).op), .proc true (fun _ _ => (.remove, ())), .next]

/-- The hypotheses of `C10_cache_iterator` hold, `kA` and `kB` are passed, and the traversal ends. -/
example : let s := run realEnv (State.new 64 (-1)) ([Plain.set kA [1], .set kB [2], .set kC [3]].map Plain.op)
    (evRun realEnv s Iter.first sampleEvs).2.2 = [kA, kB] ∧
    (Cache.next (evRun realEnv s Iter.first sampleEvs).1 (evRun realEnv s Iter.first sampleEvs).2.1).map (·.2) = some false := by decide +kernel

example : ∀ ev ∈ sampleEvs, EvOk ev ∧ EvKeeps ev := by
  intro ev hev
  simp only [sampleEvs, List.mem_cons, List.not_mem_nil, or_false] at hev
  rcases hev with rfl | rfl | rfl | rfl | rfl
  · exact ⟨trivial, trivial⟩
  · exact ⟨fun _ _ => trivial, trivial⟩
  · exact ⟨(fits_plain (h := [.remove kC]) (by decide)).1, trivial⟩
  · exact ⟨fun _ _ => trivial, trivial⟩
  · exact ⟨trivial, trivial⟩

example : iterLoop realEnv 10 (run realEnv (State.new 64 (-1)) ([Plain.set kA [1], .set kB [2], .set kC [3], .get kA].map Plain.op)) Iter.first =
    some [(kB, [2]), (kC, [3]), (kA, [1])] := by decide +kernel

example : ((jump realEnv (run realEnv (State.new 64 (-1)) ([Plain.set kA [1], .set kB [2], .set kC [3]].map Plain.op)) kB).map (·.2),
    (jump realEnv (run realEnv (State.new 64 (-1)) ([Plain.set kA [1], .set kB [2], .set kC [3]].map Plain.op)) [9]).map (·.2)) =
    (some true, some false) := by decide +kernel

end Verif.Cache
