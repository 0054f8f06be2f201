import Verif.Hash.SessionLemmas
/-
The properties of HashDBM: C03 and C04 (dictionary in both update modes), C05 (format of records), C06 (free regions), C09
(Rebuild), C25 (update log), C54 (read-only calls).
-/
namespace Verif.Hash
open Verif.Codec

variable {e : Env}

/-! ### C03, C04: a dictionary under any history -/

theorem session_dictionary (he : EnvOk e) {tunes : Int → Tune} (ht : ∀ n, (tunes n).Ok) {c : Cfg} (hc : CfgOk c) {x : Extra} (hx : x.Ok)
    {d0 : Db} {healthy : Bool} (h0 : openImpl x c [] = some (d0, healthy)) (ops : List SOp) (hroom : RunRoom e tunes d0 ops)
    (hf : SRunFits Dict.empty ops) :
    healthy = true ∧ d0.st.cfg = c ∧
    ∃ t', DbOk e (run (step e tunes) d0 ops).1 t' ∧ (run (step e tunes) d0 ops).1.st.Room ∧
      (t'.view, (run (step e tunes) d0 ops).2) = run sstep Dict.empty ops ∧ Dict.empty.replay t'.mem.log = t'.view := by
  obtain ⟨t0, x0, ho, hi0, hc0, hl0, hm0, hx0, hs0⟩ := open_new (e := e) hc hx
  rw [h0] at ho
  simp only [Option.some.injEq, Prod.mk.injEq] at ho
  obtain ⟨rfl, rfl⟩ := ho
  have hv0 : t0.view = Dict.empty := by simp [LSt.view, hl0, emptyLay, contents]
  obtain ⟨t', h1, h2, h3, l, h4, h5⟩ := run_spec he ht ops (d := ⟨t0.toState e, x0⟩) (t := t0) ⟨⟨rfl, hi0, hx0⟩, hs0⟩ hroom (by rw [hv0]; exact hf)
  rw [hv0] at h2 h5
  rw [hm0] at h4
  exact ⟨rfl, hc0, t', h1, h3, h2, by rw [h4]; exact h5⟩

theorem view_get (he : EnvOk e) {d : Db} {t : LSt} (h : DbOk e d t) (hr : d.st.Room) (k : Bytes) :
    (Api.get (dbImpl e) d k).2 = match t.view k with | some v => (.success, some v) | none => (.notFound, none) := by
  have hp : ActFits hashFits k (Api.getProc (t.view k)).1 := by cases h : t.view k <;> simp [Api.getProc, ActFits]
  have h1 := dbProcess_ok he h hr k false Api.getProc hp
  have h2 := processL_spec he h.inv k false Api.getProc hp
  simp only [Api.get]
  rw [h1.2.1, h2.1]
  cases t.view k <;> rfl

/-- C03: on a new HashDBM in the in-place mode, with any admissible parameters and hash function, every history of calls,
including `Clear`, `Rebuild` and closing and reopening the file, gives the outcomes of the same history on a dictionary; nothing
undefined happens and the file is never misread; at the end `Get` of every key returns what the dictionary has, and the record
count and the effective data size are right. The conditions: the records are within the size limits and the files are not
too large for the offset width. -/
theorem C03_hash_inplace_dictionary (he : EnvOk e) {tunes : Int → Tune} (ht : ∀ n, (tunes n).Ok) {c : Cfg} (hc : CfgOk c)
    (_hm : c.inPlace = true) {x : Extra} (hx : x.Ok) {d0 : Db} {healthy : Bool} (h0 : openImpl x c [] = some (d0, healthy))
    (ops : List SOp) (hroom : RunRoom e tunes d0 ops) (hf : SRunFits Dict.empty ops) :
    (run (step e tunes) d0 ops).2 = (run sstep Dict.empty ops).2 ∧
    (run (step e tunes) d0 ops).1.st.bad = false ∧
    (∀ k, (Api.get (dbImpl e) (run (step e tunes) d0 ops).1 k).2 =
      match (run sstep Dict.empty ops).1 k with | some v => (.success, some v) | none => (.notFound, none)) ∧
    (run sstep Dict.empty ops).1.Counted (run (step e tunes) d0 ops).1.st.mem.num (run (step e tunes) d0 ops).1.st.mem.eff := by
  obtain ⟨_, _, t', h1, h2, h3, h4⟩ := session_dictionary he ht hc hx h0 ops hroom hf
  have ev : (run sstep Dict.empty ops).1 = t'.view := by rw [← h3]
  refine ⟨by rw [← h3], by rw [h1.st]; exact h1.inv.ok, ?_, ?_⟩
  · intro k; rw [ev]; exact view_get he h1 h2 k
  · rw [ev, h1.st]; exact h1.inv.counted

/-- C04: the same for a new HashDBM in the appending mode. -/
theorem C04_hash_appending_dictionary (he : EnvOk e) {tunes : Int → Tune} (ht : ∀ n, (tunes n).Ok) {c : Cfg} (hc : CfgOk c)
    (_hm : c.inPlace = false) {x : Extra} (hx : x.Ok) {d0 : Db} {healthy : Bool} (h0 : openImpl x c [] = some (d0, healthy))
    (ops : List SOp) (hroom : RunRoom e tunes d0 ops) (hf : SRunFits Dict.empty ops) :
    (run (step e tunes) d0 ops).2 = (run sstep Dict.empty ops).2 ∧
    (run (step e tunes) d0 ops).1.st.bad = false ∧
    (∀ k, (Api.get (dbImpl e) (run (step e tunes) d0 ops).1 k).2 =
      match (run sstep Dict.empty ops).1 k with | some v => (.success, some v) | none => (.notFound, none)) ∧
    (run sstep Dict.empty ops).1.Counted (run (step e tunes) d0 ops).1.st.mem.num (run (step e tunes) d0 ops).1.st.mem.eff := by
  obtain ⟨_, _, t', h1, h2, h3, h4⟩ := session_dictionary he ht hc hx h0 ops hroom hf
  have ev : (run sstep Dict.empty ops).1 = t'.view := by rw [← h3]
  refine ⟨by rw [← h3], by rw [h1.st]; exact h1.inv.ok, ?_, ?_⟩
  · intro k; rw [ev]; exact view_get he h1 h2 k
  · rw [ev, h1.st]; exact h1.inv.counted

/-- A new database can always be made. -/
theorem C03_open_new {c : Cfg} (hc : CfgOk c) {x : Extra} (hx : x.Ok) : ∃ d, openImpl x c [] = some (d, true) := by
  obtain ⟨t0, x0, ho, _⟩ := open_new (e := ⟨fun _ _ => 0, fun _ _ => 3, fun _ _ _ => 0⟩) hc hx
  exact ⟨_, ho⟩

/-! ### C05: the format of a record -/

/-- C05: a record written with any key, value, child link and padding, with whatever stands in front of it and behind it in
the file, is read back with the same fields and passes the check of its checksums. -/
theorem C05_record_roundtrip (he : EnvOk e) {c : Cfg} (hc : CfgOk c) {r : Rec} (hg : FmtRec c r)
    (hch : r.child < 2 ^ (8 * c.ow + c.ap)) (pre post : Bytes) {minRead : Nat} (hmin : 48 ≤ minRead) :
    ∃ m, readMeta c (pre ++ (recBytes e c r ++ post)) pre.length minRead = some m ∧ m.op = r.op ∧ m.child = r.child ∧ m.key = r.key ∧
      m.padSize = r.pad ∧ m.whole = (recBytes e c r).length ∧
      readValue (pre ++ (recBytes e c r ++ post)) pre.length m = some r.value ∧
      checkCrc e c (pre ++ (recBytes e c r ++ post)) pre.length m = true := by
  obtain ⟨m, h1, h2, h3, h4, h5, h6, h7, h8, h9, h10, h11, h12⟩ := readMeta_rec he hc hg hch pre post hmin
  refine ⟨m, h1, h2, h4, h11, h7, ?_, h12, ?_⟩
  · rw [h10, recBytes_length hc]
  · simp only [checkCrc, h12, h3, h11, decide_true, Bool.true_and]
    by_cases hz : c.cw = 0
    · simp [hz]
    · simp [hz, h8 (by omega)]

/-- C05: the record made for a key and a value is aligned and not smaller than asked for. -/
theorem C05_record_size {c : Cfg} (op : OpType) (ideal : Nat) (k v : Bytes) (ch : Nat) :
    (setData c op ideal k v ch).size c % (1 <<< c.ap) = 0 ∧ ideal ≤ (setData c op ideal k v ch).size c ∧
    (setData c op ideal k v ch).key = k ∧ (setData c op ideal k v ch).value = v := by
  rw [setData_size]
  exact ⟨alignNumber_mod _ _ align_pos, Nat.le_trans (Nat.le_max_right _ _) (alignNumber_ge _ _), rfl, rfl⟩

/-! ### C06: free regions -/

/-- The regions `[o, o + n)` and `[o', o' + n')` have no byte in common. -/
def Disjoint (o n o' n' : Nat) : Prop := o + n ≤ o' ∨ o' + n' ≤ o

/-- SPECIFICATION: the bytes at an offset of the file are a record with this operation type, key, value and size. -/
def RecordAt (e : Env) (c : Cfg) (file : Bytes) (off : Nat) (op : OpType) (k v : Bytes) (size : Nat) : Prop :=
  ∃ m, readMeta c file off 48 = some m ∧ m.op = op ∧ m.key = k ∧ readValue file off m = some v ∧ m.whole = size ∧
    checkCrc e c file off m = true

theorem recordAt_of (he : EnvOk e) {t : LSt} (h : t.Inv e) (hr : (t.toState e).Room) {off r}
    (hat : recAt t.cfg (recordBase t.cfg) t.lay.recs off = some r) :
    RecordAt e t.cfg (t.toState e).file off r.op r.key r.value (r.size t.cfg) := by
  obtain ⟨x, y, h1, h2, _⟩ := recAt_split hat
  obtain ⟨m, g1, g2, g3, g4, g5, g6⟩ := read_one he h.cfg h.frame h.inv.base (h.room hr) h1
  rw [← h2] at g1 g2 g3
  exact ⟨m, g1, g4, g5, g3, g6, g2⟩

/-- C06: at every moment of every history of a HashDBM in the in-place mode, each region of the free block pool is
a void record of the file of just that size, no two regions of the pool overlap, and no region of the pool overlaps a record that
holds a key and its value; and each key the dictionary has stands in such a record. -/
theorem C06_free_regions (he : EnvOk e) {tunes : Int → Tune} (ht : ∀ n, (tunes n).Ok) {c : Cfg} (hc : CfgOk c) {x : Extra} (hx : x.Ok)
    {d0 : Db} {healthy : Bool} (h0 : openImpl x c [] = some (d0, healthy)) (ops : List SOp) (hroom : RunRoom e tunes d0 ops)
    (hf : SRunFits Dict.empty ops) {d : Db} (hd : d = (run (step e tunes) d0 ops).1) (hm : d.st.cfg.inPlace = true) :
    (∀ b ∈ d.st.mem.fbp, ∃ k v, RecordAt e d.st.cfg d.st.file b.off .void k v b.size) ∧
    d.st.mem.fbp.Pairwise (fun b b' => Disjoint b.off b.size b'.off b'.size) ∧
    ∃ place : Bytes → Nat × Nat × OpType, ∀ k v, (run sstep Dict.empty ops).1 k = some v →
      (place k).2.2 ≠ .void ∧ (place k).2.2 ≠ .remove ∧ RecordAt e d.st.cfg d.st.file (place k).1 (place k).2.2 k v (place k).2.1 ∧
      (∀ b ∈ d.st.mem.fbp, Disjoint (place k).1 (place k).2.1 b.off b.size) ∧
      ∀ k' v', k' ≠ k → (run sstep Dict.empty ops).1 k' = some v' → Disjoint (place k).1 (place k).2.1 (place k').1 (place k').2.1 := by
  obtain ⟨_, _, t, h1, h2, h3, h4⟩ := session_dictionary he ht hc hx h0 ops hroom hf
  rw [← hd] at h1 h2
  have ev : (run sstep Dict.empty ops).1 = t.view := by rw [← h3]
  have hst := h1.st
  have hc' : d.st.cfg = t.cfg := by rw [hst]; rfl
  have hmem : d.st.mem = t.mem := by rw [hst]; rfl
  have hr : (t.toState e).Room := by rw [← hst]; exact h2
  rw [ev, hmem, hc', show d.st.file = (t.toState e).file by rw [hst]]
  rw [hc'] at hm
  have hip : InPlace e t.cfg t.lay t.mem.fbp := by have := h1.inv.inv; unfold LInv at this; rwa [if_pos hm] at this
  have hch : ∀ k, ∃ y : Nat × Rec, ∀ v, t.view k = some v →
      recAt t.cfg (recordBase t.cfg) t.lay.recs y.1 = some y.2 ∧ y.2.op ≠ .void ∧ y.2.key = k ∧ y.2.value = v := by
    intro k
    cases hv : t.view k with
    | none => exact ⟨(0, ⟨.void, 0, [], [], 0⟩), by simp⟩
    | some v =>
      obtain ⟨o, ho⟩ := (contents_iff _ t.lay.recs rfl hip.noRemove hip.uniq k v).1 hv
      obtain ⟨r, hr1, hr2⟩ := Option.bind_eq_some_iff.1 ho
      simp only [Rec.kv] at hr2
      split at hr2
      · cases hr2
      · rename_i hop
        simp only [Option.some.injEq, Prod.mk.injEq] at hr2
        refine ⟨(o, r), ?_⟩
        intro v' hv'
        cases hv'
        exact ⟨hr1, hop, hr2.1, hr2.2⟩
  obtain ⟨f, hfun⟩ := Classical.axiomOfChoice hch
  refine ⟨?_, ?_, fun k => ((f k).1, (f k).2.size t.cfg, (f k).2.op), ?_⟩
  · intro b hb
    obtain ⟨r, g1, g2, g3⟩ := hip.fbp b hb
    have := recordAt_of he h1.inv hr g1
    rw [g2, g3] at this
    exact ⟨_, _, this⟩
  · refine List.Pairwise.imp_of_mem ?_ (List.pairwise_map.1 hip.fbpNodup)
    intro b b' hb hb' hne
    obtain ⟨r, g1, g2, g3⟩ := hip.fbp b hb
    obtain ⟨r', g1', g2', g3'⟩ := hip.fbp b' hb'
    have := recAt_disjoint g1 g1' hne
    rw [g3, g3'] at this
    exact this
  · intro k v hv
    obtain ⟨f1, f2, f3, f4⟩ := hfun k v hv
    refine ⟨f2, hip.noRemove _ (recAt_mem f1), ?_, ?_, ?_⟩
    · have := recordAt_of he h1.inv hr f1
      rw [f3, f4] at this
      exact this
    · intro b hb
      obtain ⟨r, g1, g2, g3⟩ := hip.fbp b hb
      have hne : (f k).1 ≠ b.off := by
        intro he'
        rw [he', g1] at f1
        simp only [Option.some.injEq] at f1
        rw [f1] at g2
        exact f2 g2
      have := recAt_disjoint f1 g1 hne
      rw [g3] at this
      exact this
    · intro k' v' hk' hv'
      obtain ⟨f1', f2', f3', f4'⟩ := hfun k' v' hv'
      refine recAt_disjoint f1 f1' ?_
      intro he'
      rw [he', f1'] at f1
      simp only [Option.some.injEq] at f1
      rw [f1, f3] at f3'
      exact hk' f3'.symm

/-! ### C09: Rebuild -/

/-- C09: `Rebuild` of a database, after any history and with any new parameters (bucket count, offset width, alignment,
checksums, update mode), succeeds; the new file has these parameters, every key has the same value, the count is right and nothing is
written to the update log. -/
theorem C09_hash_rebuild (he : EnvOk e) {tunes : Int → Tune} (ht : ∀ n, (tunes n).Ok) {c : Cfg} (hc : CfgOk c) {x : Extra} (hx : x.Ok)
    {d0 : Db} {healthy : Bool} (h0 : openImpl x c [] = some (d0, healthy)) (ops : List SOp) (hroom : RunRoom e tunes d0 ops)
    (hf : SRunFits Dict.empty ops) {d : Db} (hd : d = (run (step e tunes) d0 ops).1) {tn : Tune} (hn : tn.Ok)
    (hrb : RebuildRoom e tn d.st.cfg.inPlace d.st.file.length (rebuildBegin d)) :
    ∃ d', rebuild e tn d = some d' ∧ d'.st.bad = false ∧ d'.st.cfg = tn.cfg ∧ d'.st.mem.log = d.st.mem.log ∧
      (∃ t', DbOk e d' t' ∧ t'.view = (run sstep Dict.empty ops).1) ∧
      (d'.st.Room → ∀ k, (Api.get (dbImpl e) d' k).2 = (Api.get (dbImpl e) d k).2) ∧
      (run sstep Dict.empty ops).1.Counted d'.st.mem.num d'.st.mem.eff := by
  obtain ⟨_, _, t, h1, h2, h3, h4⟩ := session_dictionary he ht hc hx h0 ops hroom hf
  rw [← hd] at h1 h2
  have ev : (run sstep Dict.empty ops).1 = t.view := by rw [← h3]
  obtain ⟨d', t', g1, g2, g3, g4, g5⟩ := rebuild_spec he h1 h2 hn hrb
  refine ⟨d', g1, by rw [g2.st]; exact g2.inv.ok, by rw [g2.st]; exact g4, by rw [g2.st, h1.st]; exact g5, ⟨t', g2, by rw [g3, ev]⟩, ?_, ?_⟩
  · intro hr' k
    rw [view_get he g2 hr', view_get he h1 h2, g3]
  · rw [ev, ← g3, g2.st]; exact g2.inv.counted

/-! ### C25: the update log -/

/-- C25 (HashDBM as the source): after every history, replaying the update log on an empty dictionary gives the contents of
the database. -/
theorem C25_hash_log (he : EnvOk e) {tunes : Int → Tune} (ht : ∀ n, (tunes n).Ok) {c : Cfg} (hc : CfgOk c) {x : Extra} (hx : x.Ok)
    {d0 : Db} {healthy : Bool} (h0 : openImpl x c [] = some (d0, healthy)) (ops : List SOp) (hroom : RunRoom e tunes d0 ops)
    (hf : SRunFits Dict.empty ops) :
    Dict.empty.replay (run (step e tunes) d0 ops).1.st.mem.log = (run sstep Dict.empty ops).1 := by
  obtain ⟨_, _, t, h1, h2, h3, h4⟩ := session_dictionary he ht hc hx h0 ops hroom hf
  have ev : (run sstep Dict.empty ops).1 = t.view := by rw [← h3]
  rw [ev, h1.st]
  exact h4

/-! ### C54: read-only calls -/

/-- C54 (HashDBM): `Process` with writable=false leaves the file and the members as they are, whatever the processor returns and
in whatever state the file is, except that a broken file is noticed. -/
theorem C54_hash_read_only {τ : Type} (s : State) (k : Bytes) (p : ProcR τ) :
    (process e s k false p).1 = s ∨ (process e s k false p).1 = s.fail := by
  have hp : ∀ m' ws x, plan s.cfg (fileReader s.cfg s.file metaMinReadSize) s.mem k (e.hash k s.cfg.nb) false p = some (m', ws, x) →
      m' = s.mem ∧ ws = [] := by
    intro m' ws x h
    simp only [plan] at h
    split at h
    · cases h
    · split at h
      · cases h
      · split at h
        · cases h
        · simp only [true_or, if_true, Option.some.injEq, Prod.mk.injEq] at h
          exact ⟨h.1.symm, h.2.1.symm⟩
      · simp only [Option.some.injEq, Prod.mk.injEq] at h
        exact ⟨h.1.symm, h.2.1.symm⟩
  simp only [process, processImpl]
  split
  · exact Or.inr rfl
  · rename_i m ws x h
    obtain ⟨rfl, rfl⟩ := hp _ _ _ h
    exact Or.inl rfl

end Verif.Hash
