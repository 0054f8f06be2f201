import Verif.Hash.EachProps
import Verif.Dbm.BucketIter
/-
C10 for the iterator of HashDBM: a traversal interleaved with arbitrary calls on the database.
-/
namespace Verif.Hash
open Verif.Codec Verif.BucketIter

variable {e : Env} {tunes : Int → Tune}

/-- `CancelIterators` (tkrzw_dbm_hash.cc 1270-1274). -/
def Iter.cancel (it : Iter) : Iter := { it with bucket := -1 }

/-- The iterator after a call on the database: `Clear`, `Rebuild` and `Close` cancel it (tkrzw_dbm_hash.cc 678, 1782, 389). -/
def iterAfter (it : Iter) : SOp → Iter
  | .call .clear => it.cancel
  | .call (.rebuild _) => it.cancel
  | .call _ => it
  | .reopen _ _ => it.cancel
  | .sync _ => it

/-- What `Iterator::Get` returns: the key and the value of the current record, if it succeeds. -/
def iterGet (e : Env) (d : Db) (it : Iter) : Option (Bytes × Bytes) :=
  (iterProcess e d.st it false (fun k v => (.noop, (k, v)))).2.2

/-- What `Get` returns. -/
def look (e : Env) (d : Db) (k : Bytes) : Option Bytes := (Api.get (dbImpl e) d k).2.2

/-- An event during a traversal: a call on the database, `Iterator::Next`, or `Iterator::Process` (which covers `Get`, `Set` and
`Remove` of the iterator). -/
inductive Ev where
  | db (op : SOp)
  | next
  | proc (w : Bool) (p : Bytes → Bytes → Action × Unit)

/-- One event. -/
def evStep (e : Env) (tunes : Int → Tune) (d : Db) (it : Iter) : Ev → Db × Iter
  | .db op => ((step e tunes d op).1, iterAfter it op)
  | .next => match Hash.next d.st it with
    | none => (d.fail, it)
    | some (it, _) => (d, it)
  | .proc w p => let x := iterProcess e d.st it w p; ({ d with st := x.1 }, x.2.1)

/-- SPECIFICATION: the record `Get` would return is passed by `Next`, and by a `Process` that returns REMOVE. -/
def passed (e : Env) (d : Db) (it : Iter) : Ev → List Bytes
  | .db _ => []
  | .next => ((iterGet e d it).map (·.1)).toList
  | .proc _ p => match iterGet e d it with
    | some (k, v) => if (p k v).1 = .remove then [k] else []
    | none => []

/-- Run events and collect the keys passed. -/
def evRun (e : Env) (tunes : Int → Tune) : Db → Iter → List Ev → Db × Iter × List Bytes
  | d, it, [] => (d, it, [])
  | d, it, ev :: evs =>
    let x := evStep e tunes d it ev
    let y := evRun e tunes x.1 x.2 evs
    (y.1, y.2.1, passed e d it ev ++ y.2.2)

/-- SPECIFICATION: the event respects the size limits. -/
def EvOk (e : Env) (tunes : Int → Tune) (d : Db) : Ev → Prop
  | .db op => SFits (look e d) op ∧ StepRoom e tunes d op
  | .next => True
  | .proc _ p => ∀ k v, ActFits hashFits k (p k v).1

/-- SPECIFICATION: all events respect the size limits, and the file stays small enough for its offset width. -/
def EvsOk (e : Env) (tunes : Int → Tune) : Db → Iter → List Ev → Prop
  | d, _, [] => d.st.Room
  | d, it, ev :: evs => d.st.Room ∧ EvOk e tunes d ev ∧ EvsOk e tunes (evStep e tunes d it ev).1 (evStep e tunes d it ev).2 evs

/-- SPECIFICATION: the event is none of `Rebuild` and `Close`, which cancel all iterators. -/
def EvKeeps : Ev → Prop
  | .db (.call (.rebuild _)) => False
  | .db (.reopen _ _) => False
  | _ => True

/-- SPECIFICATION: the record of the key exists all the time. -/
def Throughout (e : Env) (tunes : Int → Tune) (k : Bytes) : Db → Iter → List Ev → Prop
  | d, _, [] => (look e d k).isSome
  | d, it, ev :: evs => (look e d k).isSome ∧ Throughout e tunes k (evStep e tunes d it ev).1 (evStep e tunes d it ev).2 evs

/-! ### The iterator is a bucket iterator -/

def Iter.it (it : Iter) : It := ⟨it.bucket, it.keys⟩

theorem look_eq (he : EnvOk e) {d : Db} {t : LSt} (h : DbOk e d t) (hr : d.st.Room) : look e d = t.view := by
  funext k
  rw [look, view_get he h hr k]
  cases t.view k <;> rfl

theorem keysOk (he : EnvOk e) {t : LSt} (h : t.Inv e) (hr : (t.toState e).Room) :
    KeysOk t.cfg.nb (fun k => e.hash k t.cfg.nb) (bkKeys (t.toState e)) (fun k => (t.view k).isSome = true) := by
  refine ⟨fun k => he.hash k _ h.cfg.nb.1, fun i hi => ?_, fun i hi k => ?_⟩
  · obtain ⟨_, _, _, h3, _⟩ := bkKeys_spec he h hr hi
    exact sorted_nodup h3
  · obtain ⟨_, _, _, _, h4⟩ := bkKeys_spec he h hr hi
    exact h4 k

theorem readNext_eq (he : EnvOk e) {t : LSt} (h : t.Inv e) (hr : (t.toState e).Room) (fuel : Nat) : ∀ it : Iter,
    it.keys = [] → ∃ it' b, Hash.readNext (t.toState e) fuel it = some (it', b) ∧
      BucketIter.readNext t.cfg.nb (bkKeys (t.toState e)) fuel it.it = (it'.it, b) := by
  induction fuel with
  | zero => intro it _; exact ⟨_, _, rfl, rfl⟩
  | succ fuel ih =>
    intro it hk
    obtain ⟨b, keys⟩ := it
    cases hk
    rw [Hash.readNext, BucketIter.readNext]
    by_cases hb : b < 0 ∨ b ≥ t.cfg.nb
    · rw [if_pos (show b < 0 ∨ b ≥ (t.toState e).cfg.nb from hb), if_pos (show (Iter.it ⟨b, []⟩).idx < 0 ∨ (Iter.it ⟨b, []⟩).idx ≥ t.cfg.nb from hb)]
      exact ⟨_, _, rfl, rfl⟩
    · rw [if_neg (show ¬ (b < 0 ∨ b ≥ (t.toState e).cfg.nb) from hb), if_neg (show ¬ ((Iter.it ⟨b, []⟩).idx < 0 ∨ (Iter.it ⟨b, []⟩).idx ≥ t.cfg.nb) from hb)]
      obtain ⟨rs, h1, h2, _, _⟩ := bkKeys_spec he h hr (i := b.toNat) (by omega)
      have ei : (Iter.it ⟨b, []⟩).idx.toNat = b.toNat := rfl
      simp only [h1, h2, ei]
      by_cases hn : bkKeys (t.toState e) b.toNat = []
      · rw [if_neg (by simp [hn]), if_pos hn, hn]
        exact ih ⟨b + 1, []⟩ rfl
      · have hrs : rs ≠ [] := by
          intro e1
          rw [e1] at h2
          exact hn h2.symm
        rw [if_pos ⟨hrs, hn⟩, if_neg hn]
        exact ⟨_, _, rfl, rfl⟩

theorem readNext_true {n : Nat} {ks : Nat → List Bytes} (fuel : Nat) : ∀ it : It,
    (BucketIter.readNext n ks fuel it).2 = true → (BucketIter.readNext n ks fuel it).1.keys ≠ [] := by
  induction fuel with
  | zero => intro it h; simp [BucketIter.readNext] at h
  | succ fuel ih =>
    intro it
    simp only [BucketIter.readNext]
    split
    · simp
    · split
      · exact ih _
      · rename_i h; exact fun _ => h

theorem readKeys_eq (he : EnvOk e) {t : LSt} (h : t.Inv e) (hr : (t.toState e).Room) (it : Iter) :
    ∃ it' b, Hash.readKeys (t.toState e) it = some (it', b) ∧
      BucketIter.readKeys t.cfg.nb (bkKeys (t.toState e)) it.it = (it'.it, b) := by
  simp only [Hash.readKeys, BucketIter.readKeys]
  by_cases h1 : it.bucket < 0
  · exact ⟨_, _, if_pos h1, if_pos h1⟩
  · rw [if_neg h1, if_neg (show ¬ it.it.idx < 0 from h1)]
    by_cases h2 : it.keys = []
    · rw [if_pos h2, if_pos (show it.it.keys = [] from h2)]
      obtain ⟨it', b, e1, e2⟩ := readNext_eq he h hr (t.cfg.nb + 1) it h2
      refine ⟨it', b, ?_, e2⟩
      have e1' : Hash.readNext (t.toState e) ((t.toState e).cfg.nb + 1) it = some (it', b) := e1
      rw [e1']
      cases b with
      | false => rfl
      | true =>
        have := readNext_true (n := t.cfg.nb) (ks := bkKeys (t.toState e)) (t.cfg.nb + 1) it.it (by rw [e2])
        rw [e2] at this
        have h3 : it'.keys ≠ [] := this
        simp [h3]
    · rw [if_neg h2, if_neg (show ¬ it.it.keys = [] from h2)]
      exact ⟨_, _, rfl, rfl⟩

theorem iterProcess_at (he : EnvOk e) {d : Db} {t : LSt} (h : DbOk e d t) (hr : d.st.Room) {τ : Type} {it it' : Iter} (w : Bool)
    (p : Bytes → Bytes → Action × τ) (hf : ∀ k v, ActFits hashFits k (p k v).1) (hrk : Hash.readKeys d.st it = some (it', true))
    {k : Bytes} {rest : List Bytes} (hk : it'.keys = k :: rest) :
    (∃ t', DbOk e { d with st := (iterProcess e d.st it w p).1 } t') ∧ (iterProcess e d.st it w p).1.cfg = d.st.cfg ∧
    (iterProcess e d.st it w p).2 = match t.view k with
      | none => (it', none)
      | some v => (if (p k v).1 = .remove then { it' with keys := rest } else it', some (p k v).2) := by
  have hq : (fun v => ((p k v).1, some ((p k v).1, (p k v).2))) = (fun v => ((p k v).1, some (p k v))) := rfl
  have hfit : ActFits hashFits k (fullOnly (fun v => ((p k v).1, some (p k v))) none (t.view k)).1 := by
    cases t.view k with
    | none => trivial
    | some v => exact hf k v
  obtain ⟨h1, h2, _⟩ := dbProcess_ok he h hr k w (fullOnly (fun v => ((p k v).1, some (p k v))) none) hfit
  have h3 := (processL_spec he h.inv k w (fullOnly (fun v => ((p k v).1, some (p k v))) none) hfit).1
  rw [h3] at h2
  have hcfg := (process_grow (e := e) d.st k w (fullOnly (fun v => ((p k v).1, some (p k v))) none)).2
  have eq : iterProcess e d.st it w p =
      match (process e d.st k w (fullOnly (fun v => ((p k v).1, some (p k v))) none)).2 with
      | none => ((process e d.st k w (fullOnly (fun v => ((p k v).1, some (p k v))) none)).1, it', none)
      | some (a, t) => ((process e d.st k w (fullOnly (fun v => ((p k v).1, some (p k v))) none)).1,
          if a = .remove then { it' with keys := rest } else it', some t) := by
    simp only [iterProcess, hrk, hk]
    rw [hq]
    generalize process e d.st k w (fullOnly (fun v => ((p k v).1, some (p k v))) none) = y
    obtain ⟨y1, y2⟩ := y
    cases y2 with
    | none => rfl
    | some a =>
      obtain ⟨a, t⟩ := a
      cases a <;> rfl
  have h1' : DbOk e { d with st := (process e d.st k w (fullOnly (fun v => ((p k v).1, some (p k v))) none)).1 } _ := h1
  have h2' : (process e d.st k w (fullOnly (fun v => ((p k v).1, some (p k v))) none)).2 = _ := h2
  rw [eq, h2']
  cases hv : t.view k with
  | none => exact ⟨⟨_, h1'⟩, hcfg, rfl⟩
  | some v => exact ⟨⟨_, h1'⟩, hcfg, rfl⟩

theorem iterProcess_end {s : State} {τ : Type} {it it' : Iter} (w : Bool)
    (p : Bytes → Bytes → Action × τ) (hrk : Hash.readKeys s it = some (it', false)) : iterProcess e s it w p = (s, it', none) := by
  simp only [iterProcess, hrk]

/-- A call that does not cancel iterators keeps the number of buckets. -/
theorem step_cfg (d : Db) (op : SOp) (h : ∀ it : Iter, iterAfter it op = it) : (step e tunes d op).1.st.cfg = d.st.cfg := by
  have P : ∀ {τ : Type} (k : Bytes) (w : Bool) (p : ProcR τ), ((dbImpl e).process d k w p).1.st.cfg = d.st.cfg :=
    fun k w p => (process_grow d.st k w p).2
  cases op with
  | reopen a b =>
    have := h Iter.first
    exact absurd this (by simp [iterAfter, Iter.cancel, Iter.first])
  | sync stamp =>
    simp only [step]
    cases hs : synchronize stamp d with
    | none => rfl
    | some d' =>
      simp only [synchronize] at hs
      split at hs
      · cases hs
      · split at hs
        · cases hs
        · cases hs; rfl
  | call op =>
    cases op with
    | get k => exact P k false Api.getProc
    | set k v ow => exact P k true (Api.setProc v ow)
    | remove k => exact P k true Api.removeProc
    | append k v dl => exact P k true (Api.appendProc v dl)
    | process k w p => exact P k w p
    | clear =>
      have := h Iter.first
      exact absurd this (by decide)
    | rebuild n =>
      have := h Iter.first
      exact absurd this (by simp [iterAfter, Iter.cancel, Iter.first])

/-- One event keeps the traversal invariant. -/
theorem trav_step (he : EnvOk e) (ht : ∀ n, (tunes n).Ok) {K : Bytes → Prop} {d : Db} {t : LSt} {it : Iter} {em : List Bytes}
    (h : DbOk e d t) (hr : d.st.Room) (hK : ∀ k, K k → (look e d k).isSome = true)
    (hv : Trav d.st.cfg.nb (fun k => e.hash k d.st.cfg.nb) K it.it em) (ev : Ev) (ok : EvOk e tunes d ev)
    (hkeep : EvKeeps ev ∨ ∀ k, ¬ K k) (hr' : (evStep e tunes d it ev).1.st.Room)
    (hK' : ∀ k, K k → (look e (evStep e tunes d it ev).1 k).isSome = true) :
    (∃ t', DbOk e (evStep e tunes d it ev).1 t') ∧
    Trav (evStep e tunes d it ev).1.st.cfg.nb (fun k => e.hash k (evStep e tunes d it ev).1.st.cfg.nb) K
      (evStep e tunes d it ev).2.it (em ++ passed e d it ev) := by
  have hst := h.st
  have hcfg : d.st.cfg = t.cfg := by rw [hst]; rfl
  have hrt : (t.toState e).Room := by rw [← hst]; exact hr
  have hlook := look_eq he h hr
  have sp : ∃ it' b, Hash.readKeys d.st it = some (it', b) ∧
      ((b = true ∧ Going d.st.cfg.nb (fun k => e.hash k d.st.cfg.nb) K it'.it em ∧ it'.keys ≠ []) ∨ (b = false ∧ Over K it'.it em)) := by
    obtain ⟨it', b, e1, e2⟩ := readKeys_eq he h.inv hrt it
    have sp := BucketIter.readKeys_spec (keysOk he h.inv hrt) (K := K) (fun k hk => by rw [← hlook]; exact hK k hk) (it := it.it) (em := em)
      (by rw [← hcfg]; exact hv)
    rw [e2] at sp
    exact ⟨it', b, by rw [hst]; exact e1, by rw [hcfg]; exact sp⟩
  cases ev with
  | db op =>
    obtain ⟨t', h1, h2, _⟩ := step_spec he ht h hr op (by rw [← hlook]; exact ok.1) ok.2
    refine ⟨⟨t', h1⟩, ?_⟩
    simp only [passed, List.append_nil, evStep] at hK' hr' ⊢
    have hl' := look_eq he h1 hr'
    have cancel : (∀ k, ¬ K k) → Trav (step e tunes d op).1.st.cfg.nb (fun k => e.hash k (step e tunes d op).1.st.cfg.nb) K it.cancel.it em :=
      fun hno => .inr ⟨rfl, hv.nodup, fun k hk => absurd hk (hno k)⟩
    have stay : (∀ it : Iter, iterAfter it op = it) →
        Trav (step e tunes d op).1.st.cfg.nb (fun k => e.hash k (step e tunes d op).1.st.cfg.nb) K (iterAfter it op).it em := by
      intro hs
      rw [hs it, step_cfg d op hs]
      exact hv
    cases op with
    | reopen a b =>
      refine cancel ?_
      rcases hkeep with hk | hk
      · exact hk.elim
      · exact hk
    | sync a => exact stay fun _ => rfl
    | call op =>
      cases op with
      | get k => exact stay fun _ => rfl
      | set k v ow => exact stay fun _ => rfl
      | remove k => exact stay fun _ => rfl
      | append k v dl => exact stay fun _ => rfl
      | process k w p => exact stay fun _ => rfl
      | clear =>
        refine cancel fun k hk => ?_
        have h3 := hK' k hk
        have h4 := congrArg Prod.fst h2
        simp only at h4
        rw [hl', h4] at h3
        simp [sstep, Dict.step, Dict.empty] at h3
      | rebuild n =>
        refine cancel ?_
        rcases hkeep with hk | hk
        · exact hk.elim
        · exact hk
  | next =>
    obtain ⟨it', b, e1, sp⟩ := sp
    simp only [evStep, Hash.next, passed, iterGet, e1]
    rcases sp with ⟨rfl, g, ne⟩ | ⟨rfl, o⟩
    · refine ⟨⟨_, h⟩, ?_⟩
      obtain ⟨k, rest, hk⟩ := List.exists_cons_of_ne_nil ne
      have hat := (iterProcess_at he h hr false (fun k v => (Action.noop, (k, v))) (by intro _ _; trivial) e1 hk).2.2
      rw [hat]
      have g' := g.drop (k := k) (rest := rest) hk
      simp only [hk, List.drop_succ_cons, List.drop_zero]
      left
      apply g'
      cases hvk : t.view k with
      | none =>
        refine .inr ⟨rfl, fun hkk => ?_⟩
        have := hK k hkk
        rw [hlook, hvk] at this; cases this
      | some v => exact .inl rfl
    · refine ⟨⟨_, h⟩, ?_⟩
      rw [iterProcess_end _ _ e1]
      right; simpa using o
  | proc w p =>
    obtain ⟨it', b, e1, sp⟩ := sp
    simp only [evStep, passed, iterGet]
    rcases sp with ⟨rfl, g, ne⟩ | ⟨rfl, o⟩
    · obtain ⟨k, rest, hk⟩ := List.exists_cons_of_ne_nil ne
      have hat := (iterProcess_at he h hr false (fun k v => (Action.noop, (k, v))) (by intro _ _; trivial) e1 hk).2.2
      obtain ⟨hs, hc, hat'⟩ := iterProcess_at he h hr w p ok e1 hk
      refine ⟨hs, ?_⟩
      rw [hat, hat', hc]
      left
      cases hvk : t.view k with
      | none => simpa using g
      | some v =>
        simp only
        split
        · exact g.drop (k := k) (rest := rest) hk _ (.inl rfl)
        · simpa using g
    · rw [iterProcess_end _ _ e1, iterProcess_end _ _ e1]
      exact ⟨⟨_, h⟩, .inr (by simpa using o)⟩

theorem Throughout.head {k : Bytes} {d : Db} {it : Iter} {evs : List Ev} (h : Throughout e tunes k d it evs) : (look e d k).isSome = true := by
  cases evs with
  | nil => exact h
  | cons _ _ => exact h.1

theorem EvsOk.head {d : Db} {it : Iter} {evs : List Ev} (h : EvsOk e tunes d it evs) : d.st.Room := by
  cases evs with
  | nil => exact h
  | cons _ _ => exact h.1

theorem trav_run (he : EnvOk e) (ht : ∀ n, (tunes n).Ok) (K : Bytes → Prop) (evs : List Ev) : ∀ (d : Db) (it : Iter) (em : List Bytes) (t : LSt),
    DbOk e d t → Trav d.st.cfg.nb (fun k => e.hash k d.st.cfg.nb) K it.it em → EvsOk e tunes d it evs →
    ((∀ ev ∈ evs, EvKeeps ev) ∨ ∀ k, ¬ K k) → (∀ k, K k → Throughout e tunes k d it evs) →
    (∃ t', DbOk e (evRun e tunes d it evs).1 t') ∧ (evRun e tunes d it evs).1.st.Room ∧
    Trav (evRun e tunes d it evs).1.st.cfg.nb (fun k => e.hash k (evRun e tunes d it evs).1.st.cfg.nb) K
      (evRun e tunes d it evs).2.1.it (em ++ (evRun e tunes d it evs).2.2) ∧
    ∀ k, K k → (look e (evRun e tunes d it evs).1 k).isSome = true := by
  induction evs with
  | nil => intro d it em t h hv ok _ hK; exact ⟨⟨_, h⟩, ok, by simpa [evRun] using hv, fun k hk => hK k hk⟩
  | cons ev evs ih =>
    intro d it em t h hv ok hkeep hK
    obtain ⟨⟨t', h1⟩, h2⟩ := trav_step he ht h ok.1 (fun k hk => (hK k hk).1) hv ev ok.2.1 (hkeep.imp (fun f => f ev (by simp)) id) ok.2.2.head
      (fun k hk => (hK k hk).2.head)
    have := ih _ _ _ t' h1 h2 ok.2.2 (hkeep.imp (fun f e he => f e (by simp [he])) id) (fun k hk => (hK k hk).2)
    simp only [evRun]
    rw [← List.append_assoc]
    exact this

/-- C10 (HashDBM, iterator and updates): a traversal from `First` of a database with any history, in both update modes, interleaved with any
calls on the database and through the iterator, meets no broken record and passes no key twice; and if there is no `Rebuild` and no
`Close` among the calls, then when `Next` says NOT_FOUND_ERROR, it has passed every record that existed all the time. -/
theorem C10_hash_iterator_updates (he : EnvOk e) (ht : ∀ n, (tunes n).Ok) {c : Cfg} (hc : CfgOk c) {x : Extra} (hx : x.Ok)
    {d0 : Db} {healthy : Bool} (h0 : openImpl x c [] = some (d0, healthy)) (ops : List SOp) (hroom : RunRoom e tunes d0 ops)
    (hfit : SRunFits Dict.empty ops) {d : Db} (hd : d = (run (step e tunes) d0 ops).1) (evs : List Ev) (ok : EvsOk e tunes d Iter.first evs) :
    (evRun e tunes d Iter.first evs).1.st.bad = false ∧ (evRun e tunes d Iter.first evs).2.2.Nodup ∧
    ∃ it b, Hash.next (evRun e tunes d Iter.first evs).1.st (evRun e tunes d Iter.first evs).2.1 = some (it, b) ∧
      (b = false → (∀ ev ∈ evs, EvKeeps ev) → ∀ k, Throughout e tunes k d Iter.first evs → k ∈ (evRun e tunes d Iter.first evs).2.2) := by
  obtain ⟨_, _, t, h1, h2, h3, h4⟩ := session_dictionary he ht hc hx h0 ops hroom hfit
  rw [← hd] at h1 h2
  obtain ⟨⟨t', g1⟩, g2, g3, _⟩ := trav_run he ht (fun _ => False) evs d Iter.first [] t h1 trav_first ok (.inr fun _ h => h) (fun _ h => h.elim)
  generalize hy : evRun e tunes d Iter.first evs = y at g1 g2 g3 ⊢
  have hst := g1.st
  obtain ⟨it', b, e1, e2⟩ := readKeys_eq he g1.inv (by rw [← hst]; exact g2) y.2.1
  rw [← hst] at e1
  have en : ∃ it, Hash.next y.1.st y.2.1 = some (it, b) := by
    unfold Hash.next
    rw [e1]
    cases b <;> exact ⟨_, rfl⟩
  obtain ⟨it, en⟩ := en
  refine ⟨by rw [hst]; exact g1.inv.ok, by simpa using g3.nodup, it, b, en, ?_⟩
  rintro rfl hkeep k hk
  obtain ⟨_, f2, f3, f4⟩ := trav_run he ht (fun y => y = k) evs d Iter.first [] t h1 trav_first ok (.inl hkeep) (by rintro _ rfl; exact hk)
  rw [hy] at f2 f3 f4
  have hcfg : y.1.st.cfg = t'.cfg := by rw [hst]; rfl
  have sp := BucketIter.readKeys_spec (keysOk he g1.inv (by rw [← hst]; exact g2)) (K := fun y => y = k)
    (fun k hk => by rw [← look_eq he g1 g2]; exact f4 k hk) (it := y.2.1.it) (em := [] ++ y.2.2) (by rw [← hcfg]; exact f3)
  rw [e2] at sp
  rcases sp with ⟨e3, _⟩ | ⟨_, o⟩
  · cases e3
  · simpa using o.all k rfl

/-- C10 (HashDBM, `Jump`): jumping to an existing key positions the iterator at that key, and to an absent key fails with
NOT_FOUND_ERROR and leaves the iterator without position. -/
theorem C10_hash_jump (he : EnvOk e) (ht : ∀ n, (tunes n).Ok) {c : Cfg} (hc : CfgOk c) {x : Extra} (hx : x.Ok)
    {d0 : Db} {healthy : Bool} (h0 : openImpl x c [] = some (d0, healthy)) (ops : List SOp) (hroom : RunRoom e tunes d0 ops)
    (hfit : SRunFits Dict.empty ops) {d : Db} (hd : d = (run (step e tunes) d0 ops).1) (k : Bytes) :
    (∀ v, look e d k = some v → ∃ it, jump e d.st k = some (it, true) ∧ iterGet e d it = some (k, v)) ∧
    (look e d k = none → ∃ it, jump e d.st k = some (it, false) ∧ iterGet e d it = none) := by
  obtain ⟨_, _, t, ho, h2, h3, h4⟩ := session_dictionary he ht hc hx h0 ops hroom hfit
  rw [← hd] at ho h2
  have hst := ho.st
  have hrt : (t.toState e).Room := by rw [← hst]; exact h2
  have hcfg : d.st.cfg = t.cfg := by rw [hst]; rfl
  have hko := keysOk he ho.inv hrt
  rw [look_eq he ho h2]
  obtain ⟨it', b, e1, e2⟩ := readNext_eq he ho.inv hrt (t.cfg.nb + 1) ⟨e.hash k t.cfg.nb, []⟩ rfl
  replace e1 : Hash.readNext d.st (d.st.cfg.nb + 1) ⟨e.hash k d.st.cfg.nb, []⟩ = some (it', b) := by rw [hcfg, hst]; exact e1
  constructor
  · intro v hv
    have hit := readNext_hit hko (k := k) (by rw [hv]; rfl) t.cfg.nb
    have e2' : BucketIter.readNext t.cfg.nb (bkKeys (t.toState e)) (t.cfg.nb + 1) ⟨e.hash k t.cfg.nb, []⟩ = (it'.it, b) := e2
    rw [hit] at e2'
    injection e2' with e3 e4
    subst e4
    have hk3 : it'.keys = bkKeys (t.toState e) (e.hash k t.cfg.nb) := (congrArg It.keys e3).symm
    have hs3 : it'.bucket = e.hash k t.cfg.nb + 1 := (congrArg It.idx e3).symm
    have hm : k ∈ it'.keys := by
      rw [hk3]
      exact (hko.mem _ (hko.home_lt k) k).2 ⟨rfl, by rw [hv]; rfl⟩
    obtain ⟨r, hdw⟩ := dropWhile_ne hm
    have ej : jump e d.st k = some (⟨it'.bucket, k :: r⟩, true) := by
      unfold jump
      rw [e1]
      dsimp only
      rw [if_pos hm, hdw]
    refine ⟨_, ej, ?_⟩
    have rk : Hash.readKeys d.st ⟨it'.bucket, k :: r⟩ = some (⟨it'.bucket, k :: r⟩, true) := by
      simp only [Hash.readKeys]
      rw [if_neg (by omega), if_neg (by simp)]
    have := (iterProcess_at he ho h2 false (fun k v => (Action.noop, (k, v))) (by intro _ _; trivial) rk rfl).2.2
    rw [hv] at this
    rw [iterGet, this]
  · intro hv
    cases b with
    | true =>
      have hn : k ∉ it'.keys := by
        intro hm
        have := readNext_mem hko (t.cfg.nb + 1) (Iter.it ⟨e.hash k t.cfg.nb, []⟩) rfl k (by rw [e2]; exact hm)
        rw [hv] at this; cases this
      have ej : jump e d.st k = some (⟨-1, []⟩, false) := by
        unfold jump
        rw [e1]
        dsimp only
        rw [if_neg hn]
      refine ⟨_, ej, ?_⟩
      rw [iterGet, iterProcess_end (it' := ⟨-1, []⟩) _ _ rfl]
    | false =>
      have ej : jump e d.st k = some (it', false) := by unfold jump; rw [e1]
      refine ⟨_, ej, ?_⟩
      have g0 : Going t.cfg.nb (fun k => e.hash k t.cfg.nb) (fun _ => False) (Iter.it ⟨e.hash k t.cfg.nb, []⟩) [] := by
        refine ⟨?_, by simp [Iter.it], by simp [Iter.it], fun _ h => h.elim⟩
        have := hko.home_lt k
        simp only [Iter.it]; omega
      have sp := BucketIter.readNext_spec hko (fun _ h => h.elim) (t.cfg.nb + 1) _ g0 rfl (by simp only [Iter.it]; omega)
      rw [e2] at sp
      rcases sp with ⟨e3, _⟩ | ⟨_, o⟩
      · cases e3
      · have : it'.bucket = -1 := o.idx
        have rk : Hash.readKeys d.st it' = some (it', false) := by
          unfold Hash.readKeys
          rw [if_pos (by omega)]
        rw [iterGet, iterProcess_end _ _ rk]

end Verif.Hash
