import Verif.Skip.CrashInv
/-
C64: a SkipDBM whose process dies at any moment can be opened again, with the records before or after the call in
which it died.
-/
namespace Verif.Skip
open Verif

/-- An Open during which the process dies as well: the parameters, the time, the moment and the zeros after the file. -/
structure Again where
  p : Params
  now : Nat
  i : Nat
  z : Nat

/-- The file after a series of processes which died while opening it. -/
def reopenings (X : Bytes) : List Again → Rd Bytes
  | [] => .ok X
  | a :: rest => do
    let l ← openMoments a.p X a.now
    reopenings (padded (l.getD a.i X) a.z) rest

/-- SPECIFICATION: what happens to a database: a call, or a call in which the process dies at the `i`-th moment with
`z` zeros after the file, processes which die in Open, and an Open which is successful. -/
inductive Ev where
  | call (op : Op)
  | die (op : Op) (i z : Nat) (again : List Again) (p : Params) (now : Nat)

/-- What happens on the model. -/
def stepEv (d : Db) (it : Iter) : Ev → Rd (Db × Iter × Option Out)
  | .call op => do
    let (d, it, o) ← step d it op
    pure (d, it, some o)
  | .die op i z again p now => do
    let l ← d.moments op
    let X ← reopenings (padded (l.getD i d.file) z) again
    let d ← Db.openFile p X now
    pure (d, none, none)

/-- A series of events on the model. -/
def runEv (d : Db) (it : Iter) : List Ev → Rd (Db × Iter × List (Option Out))
  | [] => .ok (d, it, [])
  | e :: rest => do
    let (d, it, o) ← stepEv d it e
    let (d, it, os) ← runEv d it rest
    pure (d, it, o :: os)

/-- SPECIFICATION: what may be found afterwards: after a death, the records from before the call or from after it, and
no pending updates. The record format is the one from before, that of the Rebuild, or the default one. -/
def SpecEv (s : S) : Ev → S → Option Out → Prop
  | .call op, s', o => ∃ o', o = some o' ∧ Spec s op s' o'
  | .die op _ _ _ p _, s', o => o = none ∧ Survives s op s'.stored ∧ s' = ⟨s'.cfg, p.inOrder, s'.stored, [], [], none⟩ ∧
      (s'.cfg = s.cfg ∨ s'.cfg = defaultCfg ∨ ∃ now, op = .rebuild now s'.cfg)

/-- SPECIFICATION: the events which the theorem covers: see `Allowed`; the records also fit in a file with the default
parameters; no zeros follow the file in Clear. -/
def AllowedEv (s : S) : Ev → Prop
  | .call op => Allowed s op
  | .die op _ z again _ _ => Allowed s op ∧ (∀ recs, Survives s op recs → Fits defaultCfg recs) ∧
      ∀ now, op = .clear now → (∀ new, Synced s none new → Fits s.cfg new) ∧ z = 0 ∧ ∀ a ∈ again, a.z = 0

/-- SPECIFICATION: a series of events. -/
def SpecEvs : S → List Ev → S → List (Option Out) → Prop
  | s, [], s', os => s' = s ∧ os = []
  | s, e :: rest, s', os => ∃ s1 o os', SpecEv s e s1 o ∧ SpecEvs s1 rest s' os' ∧ os = o :: os'

/-- SPECIFICATION: a series of events which the theorem covers. -/
def AllowedEvs : S → List Ev → Prop
  | _, [] => True
  | s, e :: rest => AllowedEv s e ∧ ∀ s' o, SpecEv s e s' o → AllowedEvs s' rest

theorem reopenings_ok {b : Bool} {recs : Recs} (hs : Sound recs) : ∀ (again : List Again) {c : Cfg} {X : Bytes}, Left b c recs X →
    (b = false → ∀ a ∈ again, a.z = 0) → ∃ Y c', reopenings X again = .ok Y ∧ (c' = c ∨ c' = defaultCfg) ∧ Left b c' recs Y
  | [], c, X, h, _ => ⟨X, c, rfl, Or.inl rfl, h⟩
  | a :: rest, c, X, h, hz => by
    obtain ⟨_, l, _, _, _, _, em, hl⟩ := left_open hs h a.p a.now
    have hmem : ∃ c'', (c'' = c ∨ c'' = defaultCfg) ∧ Left b c'' recs (l.getD a.i X) := by
      rw [List.getD_eq_getElem?_getD]
      cases hi : l[a.i]? with
      | none => exact ⟨c, Or.inl rfl, h⟩
      | some Y => exact hl Y (List.mem_of_getElem? hi)
    obtain ⟨c1, hc1, hleft⟩ := hmem
    have hpad : Left b c1 recs (padded (l.getD a.i X) a.z) := by
      cases b with
      | true => exact hleft.pad a.z
      | false => rw [hz rfl a (by simp), padded_zero]; exact hleft
    obtain ⟨Y, c2, e2, hc2, h2⟩ := reopenings_ok hs rest hpad (fun hb a ha => hz hb a (by simp [ha]))
    refine ⟨Y, c2, by simp only [reopenings, em, Rd.bind_ok, e2], ?_, h2⟩
    rcases hc2 with rfl | rfl
    · exact hc1
    · exact Or.inr rfl

theorem stepEv_ok {d : Db} {s : S} (h : Inv d s) {it : Iter} (hit : IterOk d.cfg s.stored it s.pos) (e : Ev) (ha : AllowedEv s e) :
    ∃ d' it' s' o, stepEv d it e = .ok (d', it', o) ∧ SpecEv s e s' o ∧ Inv d' s' ∧ IterOk d'.cfg s'.stored it' s'.pos := by
  cases e with
  | call op =>
    obtain ⟨d', it', s', o, e1, hs, hi, hit'⟩ := step_ok h hit op ha
    exact ⟨d', it', s', some o, by simp only [stepEv, e1, Rd.bind_ok, Rd.pure_eq], ⟨o, rfl, hs⟩, hi, hit'⟩
  | die op i z again p now =>
    obtain ⟨ha1, hdef, hclr⟩ := ha
    obtain ⟨l, e1, _, _, hl⟩ := moments_ok h op ha1 hdef (fun now hop => (hclr now hop).1)
    have hmem : ∃ recs c', Survives s op recs ∧ SortedRecs recs ∧ (∀ r ∈ recs, r.2 ≠ removingValue) ∧ Left op.tail c' recs (l.getD i d.file) ∧
        (c' = s.cfg ∨ c' = defaultCfg ∨ ∃ now, op = .rebuild now c') := by
      rw [List.getD_eq_getElem?_getD]
      cases hi : l[i]? with
      | none => exact ⟨s.stored, s.cfg, Or.inl rfl, h.stored, h.clean, (inv_left h).weak, Or.inl rfl⟩
      | some Y => exact hl Y (List.mem_of_getElem? hi)
    obtain ⟨recs, c1, hsv, hsrt, hcl, hleft, hc1⟩ := hmem
    have hs : Sound recs := ⟨hsrt, hcl, hdef recs hsv⟩
    have htail : op.tail = false → ∃ now, op = .clear now := by
      intro hh
      cases op with
      | clear t => exact ⟨t, rfl⟩
      | _ => cases hh
    have hpad : Left op.tail c1 recs (padded (l.getD i d.file) z) := by
      cases ht : op.tail with
      | true => rw [ht] at hleft; exact hleft.pad z
      | false =>
        obtain ⟨now, hop⟩ := htail ht
        rw [(hclr now hop).2.1, padded_zero, ← ht]
        exact hleft
    obtain ⟨Y, c2, e2, hc2, h2⟩ := reopenings_ok hs again hpad (fun hb a hm => by
      obtain ⟨now, hop⟩ := htail hb
      exact (hclr now hop).2.2 a hm)
    obtain ⟨d3, _, c3, eo, hc3, hi3, _, _⟩ := left_open hs h2 p now
    refine ⟨d3, none, ⟨c3, p.inOrder, recs, [], [], none⟩, none, by simp only [stepEv, e1, e2, eo, Rd.bind_ok, Rd.pure_eq],
      ⟨rfl, hsv, rfl, ?_⟩, hi3, trivial⟩
    rcases hc3 with rfl | rfl
    · rcases hc2 with rfl | rfl
      · exact hc1
      · exact Or.inr (Or.inl rfl)
    · exact Or.inr (Or.inl rfl)

theorem runEv_ok : ∀ (evs : List Ev) {d : Db} {s : S} {it : Iter}, Inv d s → IterOk d.cfg s.stored it s.pos → AllowedEvs s evs →
    ∃ d' it' s' os, runEv d it evs = .ok (d', it', os) ∧ SpecEvs s evs s' os ∧ Inv d' s' ∧ IterOk d'.cfg s'.stored it' s'.pos
  | [], d, s, it, h, hit, _ => ⟨d, it, s, [], rfl, ⟨rfl, rfl⟩, h, hit⟩
  | e :: rest, d, s, it, h, hit, ha => by
    obtain ⟨d1, it1, s1, o, e1, hs1, h1, hit1⟩ := stepEv_ok h hit e ha.1
    obtain ⟨d2, it2, s2, os, e2, hs2, h2, hit2⟩ := runEv_ok rest h1 hit1 (ha.2 s1 o hs1)
    exact ⟨d2, it2, s2, o :: os, by simp only [runEv, e1, e2, Rd.bind_ok, Rd.pure_eq], ⟨s1, o, os, hs1, hs2, rfl⟩, h2, hit2⟩

/-- C64: every history of calls and deaths on a new database is one that the specification allows: no call fails, each
Open after a death succeeds, and it shows the records from before the call in which the process died or from after it.
Missing: a part of the new metadata in Clear (see `C64_clear_torn_metadata_violated`), what a memory-mapped file leaves
after Clear (see `C64_clear_partial_records_violated`), and a crash of the system, in which written data may be lost. -/
theorem C64_history_with_deaths_partial (p : Params) (hv : p.cfg.Valid) (now : Nat) (evs : List Ev)
    (ha : AllowedEvs ⟨p.cfg, p.inOrder, [], [], [], none⟩ evs) :
    ∃ d d' it s' os, Db.create p now = .ok d ∧ runEv d none evs = .ok (d', it, os) ∧
      SpecEvs ⟨p.cfg, p.inOrder, [], [], [], none⟩ evs s' os := by
  obtain ⟨d, e, hi, _⟩ := create_ok hv now
  obtain ⟨d', it', s', os, e2, hs, _, _⟩ := runEv_ok evs (it := none) hi trivial ha
  exact ⟨d, d', it', s', os, e, e2, hs⟩

/-- C64: the files taken as those during a call begin with the file before it and end with the file after it. -/
theorem C64_moments_from_before_to_after (p : Params) (hv : p.cfg.Valid) (now : Nat) (evs : List Ev)
    (ha : AllowedEvs ⟨p.cfg, p.inOrder, [], [], [], none⟩ evs) :
    ∃ d d1 it s os, Db.create p now = .ok d ∧ runEv d none evs = .ok (d1, it, os) ∧
      SpecEvs ⟨p.cfg, p.inOrder, [], [], [], none⟩ evs s os ∧
      ∀ op, AllowedEv s (.die op 0 0 [] p now) →
        ∃ l d2 it2 o, d1.moments op = .ok l ∧ step d1 it op = .ok (d2, it2, o) ∧ l.head? = some d1.file ∧ l.getLast? = some d2.file := by
  obtain ⟨d, e0, hi, _⟩ := create_ok hv now
  obtain ⟨d1, it, s, os, e1, hs, h1, hit1⟩ := runEv_ok evs (it := none) hi trivial ha
  refine ⟨d, d1, it, s, os, e0, e1, hs, fun op hop => ?_⟩
  obtain ⟨l, el, h1', h2, _⟩ := moments_ok h1 op hop.1 hop.2.1 (fun now hop' => (hop.2.2 now hop').1)
  obtain ⟨d2, it2, s2, o, e2, _⟩ := step_ok h1 hit1 op hop.1
  exact ⟨l, d2, it2, o, el, e2, h1', h2 it d2 it2 o e2⟩

end Verif.Skip
