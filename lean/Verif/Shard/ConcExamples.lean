import Verif.Shard.Conc
import Verif.Shard.Instances
import Verif.Tiny.Props
/-
C79: what other threads see while `ProcessMulti` and `Rekey` of a ShardDBM are under way, and examples. The shards are TinyDBM.
-/
namespace Verif.Shard.ConcExamples
open Verif Verif.Shard Verif.TwoPhase Verif.Shard.Conc

def tinyHash (k : Bytes) (n : Nat) : Nat := (k.headD 0).toNat % n
abbrev tiny : DbmImpl Tiny.State := Tiny.impl tinyHash
def env : HashMutex.Env := ⟨4, tinyHash⟩

/-- Two shards. With `sampleHash`, odd keys belong to the second one. -/
def new : State Tiny.State := ⟨List.replicate 2 (Tiny.init 7), false⟩
def put (s : State Tiny.State) (k v : Bytes) : State Tiny.State := (process sampleHash tiny s k true fun _ => (.set v, ())).1
/-- The record of the key 1. -/
def one : State Tiny.State := put new [1] [70]
/-- The records of the keys 1 and 3. -/
def both : State Tiny.State := put (put new [1] [70]) [3] [70]

/-- `Rekey` of the key 1 to the key 3. -/
def rekeyCall : Call Api.RekeyVars := ⟨[([1], Api.rekeyRemover false), ([3], Api.rekeySetter)], true, true, ⟨.success, []⟩⟩

example (s : State Tiny.State) : Api.rekey (impl sampleHash tiny) s [1] [3] true false =
    (((impl sampleHash tiny).processMulti s rekeyCall.pairs true rekeyCall.init).1,
      ((impl sampleHash tiny).processMulti s rekeyCall.pairs true rekeyCall.init).2.status,
      if ((impl sampleHash tiny).processMulti s rekeyCall.pairs true rekeyCall.init).2.status = .success then
        some ((impl sampleHash tiny).processMulti s rekeyCall.pairs true rekeyCall.init).2.value else none) := rfl

/-- `Get`: the status and the value. -/
def getCall (k : Bytes) : Call Api.RekeyVars := ⟨[(k, fun _ o => (.noop, match o with | some v => ⟨.success, v⟩ | none => ⟨.notFound, []⟩))], false, false, ⟨.success, []⟩⟩

def goes {ρ : Type} (n : Nat) : List (Ev ρ) := List.replicate n (.multi (0, .go ()))

/-- `Get` for both keys between the two processors of `Rekey`. -/
def between : List (Ev Api.RekeyVars) := [.multi (0, .call rekeyCall)] ++ goes 5 ++ [.other 1 (getCall [1]), .other 1 (getCall [3])] ++ goes 8

theorem between_hist : (mix sampleHash tiny env 7 one 1 between).hist =
    [.inv 0 rekeyCall, .inv 1 (getCall [1]), .ret 1 ⟨.notFound, []⟩, .inv 2 (getCall [3]), .ret 2 ⟨.notFound, []⟩, .ret 0 ⟨.success, [70]⟩] := by
  with_unfolding_all rfl

/-- The record has moved. -/
def Moved (d : Dict) : Prop := d [1] = none ∧ d [3] = some [70]

def Known (c : Call Api.RekeyVars) : Prop := c = rekeyCall ∨ c = getCall [1] ∨ c = getCall [3]

theorem moved_call {d : Dict} (h : Moved d) {c : Call Api.RekeyVars} (hc : Known c) : Moved (d.processMulti c.pairs c.writable c.init).1 := by
  obtain ⟨h1, h2⟩ := h
  rcases hc with rfl | rfl | rfl
  · simp [rekeyCall, Dict.processMulti, Dict.process, Api.rekeyRemover, Api.rekeySetter, Dict.act, Moved, h1, h2]
  · exact ⟨h1, h2⟩
  · exact ⟨h1, h2⟩

theorem start_call {d : Dict} (h : d [1] = some [70]) {c : Call Api.RekeyVars} (hc : Known c) :
    (d.processMulti c.pairs c.writable c.init).1 [1] = some [70] ∨ Moved (d.processMulti c.pairs c.writable c.init).1 := by
  rcases hc with rfl | rfl | rfl
  · right
    simp [rekeyCall, Dict.processMulti, Dict.process, Api.rekeyRemover, Api.rekeySetter, Dict.act, Moved, h, Dict.upd]
  · exact .inl h
  · exact .inl h

theorem serial_split {ρ : Type} {J : Dict → Prop} {P : Call ρ → Prop} (hJ : ∀ d, J d → ∀ c, P c → J (d.processMulti c.pairs c.writable c.init).1) :
    ∀ (o1 o2 : List (Nat × Call ρ × ρ)) (d f : Dict), J d → (∀ x ∈ o1, P x.2.1) → Serial d (o1 ++ o2) f → ∃ d', J d' ∧ Serial d' o2 f
  | [], o2, d, f, h, _, hs => ⟨d, h, hs⟩
  | (_, c, r) :: o1, o2, d, f, h, hp, hs => serial_split hJ o1 o2 _ f (hJ d h c (hp _ (List.mem_cons_self ..))) (fun x hx => hp x (by simp [hx])) hs.2

/-- C79 fails for `Rekey`: in the documentation of `Rekey`, the other threads observe that the record has either the old key or the new key,
and no intermediate states. With two keys of a shard that is not the first one, a thread finds neither of them while `Rekey` moves a record
from one to the other: `Get` for the old key does not find it, and `Get` for the new key after that does not either. No order of the three
calls explains this. -/
theorem C79_rekey_violated :
    view sampleHash (Tiny.view tinyHash) one.shards [1] = some [70] ∧
    (mix sampleHash tiny env 7 one 1 between).hist =
      [.inv 0 rekeyCall, .inv 1 (getCall [1]), .ret 1 ⟨.notFound, []⟩, .inv 2 (getCall [3]), .ret 2 ⟨.notFound, []⟩, .ret 0 ⟨.success, [70]⟩] ∧
    ∀ d : Dict, d [1] = some [70] → ¬ ∃ ord f, Explains ord (mix sampleHash tiny env 7 one 1 between).hist ∧ Serial d ord f := by
  refine ⟨by decide +kernel, between_hist, ?_⟩
  rintro d hd ⟨ord, f, he, hs⟩
  rw [between_hist] at he
  have known : ∀ x ∈ ord, Known x.2.1 ∧ (x.1 = 1 → x.2.1 = getCall [1]) ∧ (x.1 = 2 → x.2.1 = getCall [3]) := by
    intro x hx
    have := he.called x hx
    simp at this
    rcases this with h | h | h <;> simp [Known, h]
  obtain ⟨c2, hc2⟩ := he.returned 2 ⟨.notFound, []⟩ (by simp)
  have k2 : c2 = getCall [3] := (known _ hc2).2.2 rfl
  obtain ⟨c1, hc1⟩ := he.returned 1 ⟨.notFound, []⟩ (by simp)
  have k1 : c1 = getCall [1] := (known _ hc1).2.1 rfl
  subst k1 k2
  obtain ⟨o1, o2, rfl⟩ := List.append_of_mem hc2
  have h1 : 1 ∈ o1.map (·.1) := he.realTime o1 _ o2 rfl 1
    ⟨[.inv 0 rekeyCall, .inv 1 (getCall [1]), .ret 1 ⟨.notFound, []⟩], [.inv 2 (getCall [3]), .ret 2 ⟨.notFound, []⟩, .ret 0 ⟨.success, [70]⟩],
      ⟨.notFound, []⟩, getCall [3], rfl, by simp, by simp⟩
  have hc1' : (1, getCall [1], ⟨.notFound, []⟩) ∈ o1 := by
    rw [List.mem_append, List.mem_cons] at hc1
    rcases hc1 with h | h | h
    · exact h
    · cases h
    · obtain ⟨x, hx, e⟩ := List.mem_map.1 h1
      have nd := he.once
      rw [List.map_append, List.nodup_append] at nd
      exact absurd (e.trans rfl) (nd.2.2 x.1 (List.mem_map_of_mem hx) 1 (by
        rw [List.map_cons]
        exact List.mem_cons_of_mem _ (List.mem_map_of_mem (f := (·.1)) h)))
  obtain ⟨p1, p2, rfl⟩ := List.append_of_mem hc1'
  rw [List.append_assoc] at hs
  obtain ⟨d1, j1, hs1⟩ := serial_split (J := fun d => d [1] = some [70] ∨ Moved d) (P := Known)
    (fun d h c hc => h.elim (fun h => start_call h hc) (fun h => .inr (moved_call h hc))) p1 _ d f (.inl hd)
    (fun x hx => (known x (by simp [hx])).1) hs
  have m1 : Moved d1 := by
    rcases j1 with j1 | j1
    · have := hs1.1
      simp [getCall, Dict.processMulti, Dict.process, j1] at this
    · exact j1
  obtain ⟨d2, m2, hs2⟩ := serial_split (J := Moved) (P := Known) (fun d h c hc => moved_call h hc) p2 _ _ f (moved_call m1 (.inr (.inl rfl)))
    (fun x hx => (known x (by simp [hx])).1) hs1.2
  have := hs2.1
  simp [getCall, Dict.processMulti, Dict.process, m2.2] at this

/-- `ProcessMulti` that gives the keys 1 and 3 the value 71. -/
def setBoth : Call Bool := ⟨[([1], fun r _ => (.set [71], r)), ([3], fun r _ => (.set [71], r))], true, true, false⟩
/-- The records that `CompareExchangeMulti` expects: the key 1 has the new value and the key 3 has the old one. -/
def mixed : List (Bytes × Api.Arg) := [([1], .val [71]), ([3], .val [70])]
/-- `CompareExchangeMulti` of the shard: its state is whether a record was not as expected. -/
def compareCall : Call Bool :=
  ⟨mixed.map (fun kv => (kv.1, Api.cexChecker kv.2)) ++ [([5], Api.Arg.val [9])].map (fun kv => (kv.1, Api.cexSetter kv.2)), true, true, false⟩

/-- `CompareExchangeMulti` between the two processors of `ProcessMulti`. -/
def compareBetween : List (Ev Bool) := [.multi (0, .call setBoth)] ++ goes 5 ++ [.other 1 compareCall] ++ goes 8

theorem compare_hist : (mix sampleHash tiny env 7 both 1 compareBetween).hist =
    [.inv 0 setBoth, .inv 1 compareCall, .ret 1 false, .ret 0 false] := by
  with_unfolding_all rfl

def Same (d : Dict) : Prop := (d [1] = some [70] ∧ d [3] = some [70]) ∨ (d [1] = some [71] ∧ d [3] = some [71])

theorem same_call {d : Dict} (h : Same d) {c : Call Bool} (hc : c = setBoth ∨ c = compareCall) : Same (d.processMulti c.pairs c.writable c.init).1 := by
  rcases hc with rfl | rfl
  · right
    simp [setBoth, Dict.processMulti, Dict.process, Dict.act, Dict.upd]
  · rcases h with ⟨h1, h3⟩ | ⟨h1, h3⟩
    · left
      simp [compareCall, mixed, Dict.processMulti, Dict.process, Dict.act, Api.cexChecker, Api.cexSetter, h1, h3]
    · right
      simp [compareCall, mixed, Dict.processMulti, Dict.process, Dict.act, Api.cexChecker, Api.cexSetter, h1, h3]

/-- C79 fails for `CompareExchangeMulti` beside `ProcessMulti`: the documentation of ShardDBM says that isolation of `CompareExchangeMulti` is
assured among all kinds of methods. `ProcessMulti` changes two records of a shard that is not the first one from 70 to 71, and
`CompareExchangeMulti`, which runs in between, finds one with the new value and the other with the old one, so that it succeeds and stores a
record. No order of the two calls explains this, whatever else is stored. -/
theorem C79_compare_exchange_violated :
    (view sampleHash (Tiny.view tinyHash) both.shards [1] = some [70] ∧ view sampleHash (Tiny.view tinyHash) both.shards [3] = some [70]) ∧
    (mix sampleHash tiny env 7 both 1 compareBetween).hist = [.inv 0 setBoth, .inv 1 compareCall, .ret 1 false, .ret 0 false] ∧
    (compareExchangeMulti sampleHash tiny (mix sampleHash tiny env 7 both 1 (compareBetween.take 6)).mem mixed [([5], .val [9])] =
      ((mix sampleHash tiny env 7 both 1 (compareBetween.take 7)).mem, .success)) ∧
    ∀ d : Dict, d [1] = some [70] → d [3] = some [70] →
      ¬ ∃ ord f, Explains ord (mix sampleHash tiny env 7 both 1 compareBetween).hist ∧ Serial d ord f := by
  refine ⟨by decide +kernel, compare_hist, by with_unfolding_all rfl, ?_⟩
  rintro d h1 h3 ⟨ord, f, he, hs⟩
  rw [compare_hist] at he
  have known : ∀ x ∈ ord, (x.2.1 = setBoth ∨ x.2.1 = compareCall) ∧ (x.1 = 1 → x.2.1 = compareCall) := by
    intro x hx
    have := he.called x hx
    simp at this
    rcases this with h | h <;> simp [h]
  obtain ⟨c, hc⟩ := he.returned 1 false (by simp)
  obtain rfl : c = compareCall := (known _ hc).2 rfl
  obtain ⟨o1, o2, rfl⟩ := List.append_of_mem hc
  obtain ⟨d', j, hs'⟩ := serial_split (J := Same) (P := fun c => c = setBoth ∨ c = compareCall) (fun d h c hc => same_call h hc) o1 _ d f
    (.inl ⟨h1, h3⟩) (fun x hx => (known x (by simp [hx])).1) hs
  have := hs'.1
  rcases j with ⟨h1, h3⟩ | ⟨h1, h3⟩ <;>
    simp [compareCall, mixed, Dict.processMulti, Dict.process, Dict.act, Api.cexChecker, Api.cexSetter, h1, h3] at this

/-! The hypotheses of the positive theorems are met, and the calls run side by side. -/

theorem new_inv : Inv sampleHash (Tiny.Inv tinyHash) (Tiny.view tinyHash) new :=
  (C29_new (by decide) (Tiny.init_spec 7).1 (Tiny.init_spec 7).2).1

/-- Two calls of `ProcessMulti` that change the keys 1, 2 and 3 the other way round. -/
def upDown (v : Bytes) (ks : List Bytes) : Call Bool := ⟨ks.map fun k => (k, fun r o => (.set v, r || o.isSome)), true, true, false⟩
def crossed : List (Nat × Act Bool Unit) :=
  [(0, .call (upDown [8] [[1], [2], [3]])), (1, .call (upDown [9] [[3], [2], [1]]))] ++
    (List.replicate 12 [(0, Act.go ()), (1, Act.go ())]).flatten ++ List.replicate 12 (1, Act.go ()) ++ List.replicate 9 (0, Act.go ())

example : (Conc.run sampleHash tiny env 7 new 2 crossed).hist =
    [.inv 0 (upDown [8] [[1], [2], [3]]), .inv 1 (upDown [9] [[3], [2], [1]]), .ret 1 true, .ret 0 false] := by
  with_unfolding_all rfl
theorem crossed_single : Single crossed := by
  intro t c h hm
  simp [crossed] at h
  rcases h with ⟨_, rfl⟩ | ⟨_, rfl⟩ <;> simp [upDown] at hm
theorem crossed_fits : ∀ t c, (t, Act.call c) ∈ crossed → CallFits Tiny.recFits c := by
  intro t c h
  simp [crossed] at h
  rcases h with ⟨_, rfl⟩ | ⟨_, rfl⟩ <;> intro kp hkp r o <;> simp [upDown] at hkp <;> rcases hkp with rfl | rfl | rfl <;>
    simp only [ActFits] <;> decide
theorem tinyHash_ok : Tiny.InRange tinyHash := fun _ _ h => Nat.mod_lt _ h
example : ((Conc.run sampleHash tiny env 7 new 2 crossed).threads.all fun th => match th.pc with | .idle => true | _ => false) = true := by
  with_unfolding_all rfl
example : ∃ ord f, Explains ord (Conc.run sampleHash tiny env 7 new 2 crossed).hist ∧ Serial (view sampleHash (Tiny.view tinyHash) new.shards) ord f := by
  obtain ⟨ord, f, h1, h2, _⟩ := (C79_multi_linearizable_partial sampleHash_ok (Tiny.C01_lawful tinyHash_ok) new_inv (e := env) (by decide) 7 2 crossed crossed_fits).2
  exact ⟨ord, f, h1, h2⟩
example : NoDeadlock (Conc.run sampleHash tiny env 7 new 2 crossed) := C79_multi_no_deadlock env 7 new 2 crossed crossed_single
example : Inv sampleHash (Tiny.Inv tinyHash) (Tiny.view tinyHash) both :=
  have hL := C29_lawful sampleHash_ok (Tiny.C01_lawful tinyHash_ok)
  hL.process_inv _ _ true _ (hL.process_inv _ _ true _ new_inv (show Tiny.recFits [1] [70] by decide)) (show Tiny.recFits [3] [70] by decide)

/-- The calls that are taken: `ProcessMulti` for any keys, `Process` for a key of the first shard, and no `Process` for a key of another one. -/
example : inFirst (ρ := Bool) sampleHash 2 (0, .call (upDown [8] [[1], [3]])) = true := by decide
example : inFirst (ρ := Bool) sampleHash 2 (0, .call ⟨[([2], fun r _ => (.noop, r))], true, false, false⟩) = true := by decide
example : inFirst (ρ := Bool) sampleHash 2 (0, .call ⟨[([1], fun r _ => (.noop, r))], true, false, false⟩) = false := by decide

end Verif.Shard.ConcExamples
