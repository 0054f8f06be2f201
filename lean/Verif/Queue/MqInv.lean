import Verif.Queue.MqLemmas
/-
What the queue guarantees, as a specification (`Log`, `Spec`), and the invariant that ties the files of a queue and the
position of a reader to it.
-/
namespace Verif.Mq
open Verif Verif.Codec

/-- The calls that change a queue.  `now` is the wall time in milliseconds at the call. -/
inductive Op where
  | write (ts : Int) (now : Nat) (msg : Bytes)
  | update (ts : Int) (now : Nat)
  | sync

/-- The effect of a call on the queue. -/
def State.step (q : State) : Op → State × Code
  | .write ts now msg => q.write ts now msg
  | .update ts now => q.updateTimestamp ts now
  | .sync => (q.sync, .success)

def State.run (q : State) : List Op → State
  | [] => q
  | o :: os => (q.step o).1.run os

/-! The specification: a log of messages and the largest timestamp given so far. -/

structure Log where
  top : Nat
  msgs : List (Nat × Bytes)

/-- The timestamp a call asks for. -/
def stamp (ts : Int) (now : Nat) : Int := if ts < 0 then (now : Int) else ts

/-- A write appends the message with the timestamp asked for, or with the largest one so far if that is larger.
Timestamps from 2^48-1 on are refused. -/
def Log.step (l : Log) : Op → Log × Code
  | .write ts now msg =>
    if stamp ts now ≥ 2 ^ 48 - 1 then (l, .invalidArgument)
    else
      let t := max (stamp ts now).toNat l.top
      (⟨t, l.msgs ++ [(t, msg)]⟩, .success)
  | .update ts now =>
    if stamp ts now ≥ 2 ^ 48 - 1 then (l, .invalidArgument) else ({ l with top := max (stamp ts now).toNat l.top }, .success)
  | .sync => (l, .success)

def Log.run (l : Log) : List Op → Log
  | [] => l
  | o :: os => (l.step o).1.run os

/-- Messages have less than 2^32-1 bytes. -/
def Op.Ok : Op → Prop
  | .write _ _ msg => msg.length < 2 ^ 32 - 1
  | _ => True

/-- A reader sees a queue of messages: those of the log with at least the minimum timestamp, in their order. -/
structure Spec where
  log : Log
  pending : List (Nat × Bytes)

inductive Ev where
  | op (o : Op)
  | read

inductive Out where
  | code (c : Code)
  | message (ts : Nat) (msg : Bytes)
  | failed (c : Code)
  | hang
deriving DecidableEq, Repr

def Spec.step (minTs : Int) (s : Spec) : Ev → Spec × Out
  | .op o =>
    let r := s.log.step o
    (⟨r.1, s.pending ++ (r.1.msgs.drop s.log.msgs.length).filter (fun m => decide ((m.1 : Int) ≥ minTs))⟩, .code r.2)
  | .read =>
    match s.pending with
    | [] => (s, .failed .infeasible)
    | m :: rest => ({ s with pending := rest }, .message m.1 m.2)

def Spec.outs (minTs : Int) (s : Spec) : List Ev → List Out
  | [] => []
  | e :: es => (s.step minTs e).2 :: (s.step minTs e).1.outs minTs es

/-- The model under the same events. -/
def stepEv (q : State) (r : Reader) : Ev → (State × Reader) × Out
  | .op o => (((q.step o).1, r), .code (q.step o).2)
  | .read =>
    match r.read q with
    | none => ((q, r), .hang)
    | some (r, .ok m) => ((q, r), .message m.1 m.2)
    | some (r, .error c) => ((q, r), .failed c)

def outs (q : State) (r : Reader) : List Ev → List Out
  | [] => []
  | e :: es => (stepEv q r e).2 :: outs (stepEv q r e).1.1 (stepEv q r e).1.2 es

/-! The invariant. -/

structure Inv (q : State) (l : Log) (ss : List (List (Nat × Bytes))) : Prop where
  files : Files 0 q.files ss
  flat : ss.flatten = l.msgs
  top : q.ts = l.top
  topLt : q.ts < 2 ^ 48
  le : ∀ m ∈ l.msgs, m.1 ≤ q.ts
  cyc : q.cyclic < 256

theorem sync_files {q : State} {fs0 f} (e : q.files = fs0 ++ [f]) :
    q.sync = { q with cyclic := q.cyclic % 255 + 1, files := fs0 ++ [saveMeta f (q.cyclic % 255 + 1) fs0.length q.ts] } := by
  simp only [State.sync, State.lastId, e]
  simp

theorem Inv.sync {q l ss} (h : Inv q l ss) (hn : q.files.length < 2 ^ 48) : Inv q.sync l ss := by
  obtain ⟨fs0, f, ss0, msgs, i, e1, e2, h1, h2, h3, h4⟩ := h.files.split
  have hl := congrArg List.length e1
  simp at hl
  rw [sync_files e1]
  refine ⟨?_, h.flat, h.top, h.topLt, h.le, ?_⟩
  · subst e2
    refine h4 _ _ (.last (FileIs.save h1 (by omega) (by omega) h.topLt) (by simp))
  · simp only; omega

theorem Inv.ofNew (maxSize hard) : Inv (State.new maxSize hard) ⟨0, []⟩ [[]] := by
  have e : (⟨[[]], 0, 0, maxSize, hard⟩ : State).files = [] ++ [[]] := rfl
  rw [State.new, sync_files e]
  refine ⟨.last (FileIs.fresh (by decide : 0 % 255 + 1 < 256) (by decide) (by decide : (0 : Nat) < 2 ^ 48)) rfl, rfl, rfl, (by decide : (0 : Nat) < 2 ^ 48), by simp,
    (by decide : 0 % 255 + 1 < 256)⟩

theorem getLastD_append {α} (a : List α) (x d : α) : (a ++ [x]).getLastD d = x := by simp

/-- Rotation: the last file is finished, and a new one begun. -/
theorem Inv.rotate {q l ss} (h : Inv q l ss) (hn : q.files.length + 1 < 2 ^ 48) :
    Inv (State.sync { q.sync with files := q.sync.files ++ [[]] }) l (ss ++ [[]]) ∧
    (State.sync { q.sync with files := q.sync.files ++ [[]] }).files.length = q.files.length + 1 ∧
    (State.sync { q.sync with files := q.sync.files ++ [[]] }).ts = q.ts ∧
    (State.sync { q.sync with files := q.sync.files ++ [[]] }).hard = q.hard := by
  obtain ⟨fs0, f, ss0, msgs, i, e1, e2, h1, h2, h3, h4⟩ := h.files.split
  have hl := congrArg List.length e1
  simp at hl
  rw [sync_files e1]
  rw [sync_files (fs0 := fs0 ++ [saveMeta f (q.cyclic % 255 + 1) fs0.length q.ts]) (f := []) (by simp)]
  refine ⟨⟨?_, by simp [h.flat], h.top, h.topLt, h.le, ?_⟩, by simp [hl], rfl, rfl⟩
  · subst e2
    simp only [List.append_assoc, List.cons_append, List.nil_append, List.length_append, List.length_singleton]
    refine h4 _ _ (.cons (FileIs.save h1 (by omega) (by omega) h.topLt) (by simp) ?_ ?_)
    · refine ⟨?_, ?_⟩
      · intro m hm
        refine h.le m ?_
        rw [← h.flat]; simp [hm]
      · have := h1.long
        simp only
        rw [saveMeta, List.length_append, metaBlock_length, List.length_drop, show 32 + (f.length - 32) = f.length by omega]
    · exact .last (FileIs.fresh (by omega) (by omega) h.topLt) (by simp)
  · simp only; omega

/-- How the messages of the files change by a write. -/
inductive Grow (m : Nat × Bytes) : List (List (Nat × Bytes)) → List (List (Nat × Bytes)) → Prop
  | same {ss x} : Grow m (ss ++ [x]) (ss ++ [x ++ [m]])
  | next {ss} : Grow m ss (ss ++ [[m]])

theorem Inv.append {q l ss} (h : Inv q l ss) {t : Nat} (ht : t < 2 ^ 48) (msg : Bytes) (hm : msg.length < 2 ^ 32 - 1) :
    ∃ ss0 x, ss = ss0 ++ [x] ∧ Inv { q with ts := max t q.ts, files := q.files.dropLast ++ [q.files.getLastD [] ++ record (max t q.ts) msg] }
      ⟨max t l.top, l.msgs ++ [(max t l.top, msg)]⟩ (ss0 ++ [x ++ [(max t l.top, msg)]]) := by
  obtain ⟨fs0, f, ss0, msgs, i, e1, e2, h1, h2, h3, h4⟩ := h.files.split
  have e3 : q.files.getLastD [] = f := by rw [e1]; simp
  have e4 : q.files.dropLast = fs0 := by rw [e1]; simp
  have htl := h.topLt
  have hfl := h.flat
  refine ⟨ss0, msgs, e2, ?_, ?_, ?_, ?_, ?_, h.cyc⟩
  · simp only [e3, e4, ← h.top]
    exact h4 _ _ (.last (h1.append (_, msg) ⟨by simp only; omega, hm⟩) h2)
  · subst e2
    rw [← hfl]; simp
  · simp only [h.top]
  · simp only; omega
  · intro m hm
    simp only [← h.top]
    rcases List.mem_append.mp hm with hm | hm
    · have := h.le m hm; omega
    · simp at hm; rw [hm, h.top]; simp only; omega

theorem Inv.write {q l ss} (h : Inv q l ss) {t : Nat} (ht : t < 2 ^ 48) (msg : Bytes) (hm : msg.length < 2 ^ 32 - 1)
    (hn : q.files.length + 1 < 2 ^ 48) :
    ∃ ss', Grow (max t l.top, msg) ss ss' ∧
      Inv (q.writeImpl t msg) ⟨max t l.top, l.msgs ++ [(max t l.top, msg)]⟩ ss' ∧
      (q.writeImpl t msg).files.length ≤ q.files.length + 1 := by
  have step : ∀ (q : State) ss, Inv q l ss → q.files.length < 2 ^ 48 → ∃ ss0 x, ss = ss0 ++ [x] ∧
      Inv (let q := { q with ts := max t q.ts }
        let q := { q with files := q.files.dropLast ++ [q.files.getLastD [] ++ record q.ts msg] }
        if q.hard then q.sync else q) ⟨max t l.top, l.msgs ++ [(max t l.top, msg)]⟩ (ss0 ++ [x ++ [(max t l.top, msg)]]) ∧
      (let q := { q with ts := max t q.ts }
        let q := { q with files := q.files.dropLast ++ [q.files.getLastD [] ++ record q.ts msg] }
        if q.hard then q.sync else q).files.length = q.files.length := by
    intro q ss h hn
    obtain ⟨ss0, x, e, h'⟩ := h.append ht msg hm
    have hne := h.files.length.2
    have hl : 0 < q.files.length := List.length_pos_iff.mpr hne
    refine ⟨ss0, x, e, ?_⟩
    simp only
    split
    · refine ⟨h'.sync (by simp; omega), ?_⟩
      simp [State.sync]; omega
    · exact ⟨h', by simp; omega⟩
  simp only [State.writeImpl]
  by_cases hr : ((q.files.getLastD []).length : Int) ≥ q.maxSize
  · simp only [if_pos hr]
    obtain ⟨r1, r2, r3, r4⟩ := h.rotate hn
    obtain ⟨ss0, x, e, h', hl⟩ := step _ _ r1 (by rw [r2]; omega)
    obtain ⟨rfl, hx⟩ := List.append_inj' e (by simp)
    simp at hx; subst hx
    exact ⟨_, .next, by simpa using h', by rw [hl, r2]; omega⟩
  · simp only [if_neg hr]
    obtain ⟨ss0, x, e, h', hl⟩ := step _ _ h (by omega)
    subst e
    exact ⟨_, .same, h', by rw [hl]; omega⟩

/-- Every call keeps the invariant; what is appended to the log is what the reader finds behind. -/
theorem Inv.step {q l ss} (h : Inv q l ss) (o : Op) (ho : o.Ok) (hn : q.files.length + 1 < 2 ^ 48) :
    (q.step o).2 = (l.step o).2 ∧ (q.step o).1.files.length ≤ q.files.length + 1 ∧
    ∃ ss', Inv (q.step o).1 (l.step o).1 ss' ∧
      ((ss' = ss ∧ (l.step o).1.msgs = l.msgs) ∨ ∃ m, Grow m ss ss' ∧ (l.step o).1.msgs = l.msgs ++ [m]) := by
  cases o with
  | write ts now msg =>
    have eq : q.step (.write ts now msg) = if stamp ts now ≥ 2 ^ 48 - 1 then (q, .invalidArgument) else (q.writeImpl (stamp ts now).toNat msg, .success) := rfl
    have el : l.step (.write ts now msg) = if stamp ts now ≥ 2 ^ 48 - 1 then (l, .invalidArgument) else (⟨max (stamp ts now).toNat l.top, l.msgs ++ [(max (stamp ts now).toNat l.top, msg)]⟩, .success) := rfl
    rw [eq, el]
    by_cases hc : stamp ts now ≥ 2 ^ 48 - 1
    · rw [if_pos hc, if_pos hc]
      exact ⟨rfl, by simp, ss, h, .inl ⟨rfl, rfl⟩⟩
    · rw [if_neg hc, if_neg hc]
      obtain ⟨ss', h1, h2, h3⟩ := h.write (t := (stamp ts now).toNat) (by omega) msg ho hn
      exact ⟨rfl, h3, ss', h2, .inr ⟨_, h1, rfl⟩⟩
  | update ts now =>
    have eq : q.step (.update ts now) = if stamp ts now ≥ 2 ^ 48 - 1 then (q, .invalidArgument) else ({ q with ts := max (stamp ts now).toNat q.ts }, .success) := rfl
    have el : l.step (.update ts now) = if stamp ts now ≥ 2 ^ 48 - 1 then (l, .invalidArgument) else ({ l with top := max (stamp ts now).toNat l.top }, .success) := rfl
    rw [eq, el]
    by_cases hc : stamp ts now ≥ 2 ^ 48 - 1
    · rw [if_pos hc, if_pos hc]
      exact ⟨rfl, by simp, ss, h, .inl ⟨rfl, rfl⟩⟩
    · rw [if_neg hc, if_neg hc]
      refine ⟨rfl, by simp, ss, ⟨h.files, h.flat, by simp [h.top], ?_, ?_, h.cyc⟩, .inl ⟨rfl, rfl⟩⟩
      · have := h.topLt
        simp only; omega
      · intro m hm
        have := h.le m hm
        simp only; omega
  | sync =>
    refine ⟨rfl, ?_, ss, h.sync (by omega), .inl ⟨rfl, rfl⟩⟩
    obtain ⟨fs0, f, ss0, msgs, i, e1, -⟩ := h.files.split
    rw [State.step, sync_files e1, e1]; simp

/-! The reader. -/

/-- The messages behind the position of a reader. -/
inductive Pos : List (List (Nat × Bytes)) → Reader → List (Nat × Bytes) → Prop
  | start {ss m} : Pos ss ⟨m, none, none⟩ ss.flatten
  | closed {pre post m} : post ≠ [] → Pos (pre ++ post) ⟨m, some pre.length, none⟩ post.flatten
  | opened {pre A B post m} : Pos (pre ++ (A ++ B) :: post) ⟨m, some pre.length, some (32 + (recs A).length)⟩ (B ++ post.flatten)

theorem Pos.grow {ss ss' r rem m} (h : Pos ss r rem) (g : Grow m ss ss') : Pos ss' r (rem ++ [m]) := by
  cases g with
  | next =>
    cases h with
    | start =>
      rename_i mt
      have := @Pos.start (ss ++ [[m]]) mt
      simpa using this
    | @closed pre post mt hp =>
      have := @Pos.closed pre (post ++ [[m]]) mt (by simp)
      simpa using this
    | @opened pre A B post mt =>
      have := @Pos.opened pre A B (post ++ [[m]]) mt
      simpa using this
  | @same ss0 x =>
    generalize he : ss0 ++ [x] = ss at h
    cases h with
    | start =>
      rename_i mt
      subst he
      have := @Pos.start (ss0 ++ [x ++ [m]]) mt
      simpa using this
    | @closed pre post mt hp =>
      obtain ⟨post', y, rfl⟩ : ∃ p y, post = p ++ [y] := by
        rcases List.eq_nil_or_concat post with h | ⟨p, y, h⟩
        · exact absurd h hp
        · exact ⟨p, y, by simpa using h⟩
      rw [← List.append_assoc] at he
      obtain ⟨rfl, hx⟩ := List.append_inj' he rfl
      simp at hx; subst hx
      have := @Pos.closed pre (post' ++ [x ++ [m]]) mt (by simp)
      simpa using this
    | @opened pre A B post mt =>
      rcases List.eq_nil_or_concat post with h | ⟨post', y, h⟩
      · subst h
        obtain ⟨rfl, hx⟩ := List.append_inj' he rfl
        simp at hx; subst hx
        have := @Pos.opened ss0 A (B ++ [m]) [] mt
        simpa using this
      · have h : post = post' ++ [y] := by simpa using h
        subst h
        have he' : ss0 ++ [x] = (pre ++ (A ++ B) :: post') ++ [y] := by rw [he]; simp
        obtain ⟨rfl, hx⟩ := List.append_inj' he' rfl
        simp at hx; subst hx
        have := @Pos.opened pre A B (post' ++ [x ++ [m]]) mt
        simpa using this

/-- The messages a reader with this minimum looks for. -/
abbrev keep (minTs : Int) (l : List (Nat × Bytes)) : List (Nat × Bytes) := l.filter fun m => decide ((m.1 : Int) ≥ minTs)

theorem readLoop_opened {q : State} {ss} (hf : Files 0 q.files ss) (minTs : Int) : ∀ (fuel : Nat) pre A B post, ss = pre ++ (A ++ B) :: post →
    B.length + post.flatten.length + post.length < fuel → ∀ off, (off = some (32 + (recs A).length) ∨ (off = none ∧ A = [])) →
    ∃ r' rem', Pos ss r' rem' ∧ r'.minTs = minTs ∧ r'.file ≠ none ∧
      match keep minTs (B ++ post.flatten) with
      | [] => readLoop q fuel ⟨minTs, some pre.length, off⟩ pre.length = some (r', .error .infeasible) ∧ keep minTs rem' = []
      | m :: l => readLoop q fuel ⟨minTs, some pre.length, off⟩ pre.length = some (r', .ok m) ∧ keep minTs rem' = l := by
  intro fuel
  induction fuel with
  | zero => intro pre A B post _ h; omega
  | succ fuel ih =>
    intro pre A B post e hfu off hoff
    obtain ⟨f, i, g1, g2⟩ := hf.get e
    have hlen := hf.length.1
    have hsl : ss.length = pre.length + 1 + post.length := by rw [e]; simp; omega
    have hb := g2.body
    have hl := g2.long
    have hlen2 := congrArg List.length hb
    rw [List.length_drop, recs_append, List.length_append] at hlen2
    have ho : off.getD 32 = 32 + (recs A).length := by
      rcases hoff with rfl | ⟨rfl, rfl⟩
      · rfl
      · rfl
    rw [readLoop, g1]
    simp only [ho]
    cases B with
    | nil =>
      rw [if_pos (by simp [recs] at hlen2 ⊢; omega)]
      cases post with
      | nil =>
        rw [if_pos (by simp only [State.lastId, hlen]; simp at hsl; omega)]
        refine ⟨_, _, e ▸ @Pos.opened pre A [] [] minTs, rfl, by simp, ?_⟩
        simp
      | cons x post =>
        rw [if_neg (by simp only [State.lastId, hlen]; simp at hsl; omega)]
        have := ih (pre ++ [A]) [] x post (by rw [e]; simp) (by simp at hfu ⊢; omega) none (.inr ⟨rfl, rfl⟩)
        simpa using this
    | cons m B =>
      have hrl := record_length m.1 m.2
      rw [recs_cons, List.length_append, hrl] at hlen2
      rw [if_neg (by omega)]
      have hd : f.drop (32 + (recs A).length) = record m.1 m.2 ++ recs B := by
        rw [← List.drop_drop, hb, recs_append, List.drop_left, recs_cons]
      rw [readNext_record minTs (by omega) (by omega) hd (g2.ok m (by simp))]
      have e2 : ss = pre ++ ((A ++ [m]) ++ B) :: post := by rw [e]; simp
      have e3 : 32 + (recs A).length + (record m.1 m.2).length = 32 + (recs (A ++ [m])).length := by
        rw [recs_append, recs_single, List.length_append]; omega
      by_cases hc : (m.1 : Int) ≥ minTs
      · simp only [if_pos hc]
        refine ⟨_, _, e2 ▸ @Pos.opened pre (A ++ [m]) B post minTs, rfl, by simp, ?_⟩
        rw [e3]
        simp [hc]
      · simp only [if_neg hc]
        have hk : keep minTs (m :: B ++ post.flatten) = keep minTs (B ++ post.flatten) := by
          rw [keep, keep, List.cons_append, List.filter_cons_of_neg (by simpa using hc)]
        rw [hk, e3]
        exact ih pre (A ++ [m]) B post e2 (by simp at hfu ⊢; omega) _ (.inl rfl)

theorem Pos.read {q : State} {ss r rem} (h : Files 0 q.files ss) (hp : Pos ss r rem) :
    ∃ r' rem', Pos ss r' rem' ∧ r'.minTs = r.minTs ∧
      match keep r.minTs rem with
      | [] => r.read q = some (r', .error .infeasible) ∧ keep r.minTs rem' = []
      | m :: l => r.read q = some (r', .ok m) ∧ keep r.minTs rem' = l := by
  have ht := h.total
  have hl := h.length.1
  have fuel : ∀ pre A B post, ss = pre ++ (A ++ B) :: post → B.length + post.flatten.length + post.length < q.fuel := by
    intro pre A B post e
    subst e
    simp only [List.flatten_append, List.flatten_cons, List.length_append, List.length_cons] at ht hl
    simp only [State.fuel]
    omega
  cases hp with
  | start =>
    rename_i minTs
    obtain ⟨o, pre, post, e1, e2, e3, e4, e5⟩ := h.find minTs
    cases post with
    | nil => exact absurd rfl e3
    | cons x post =>
      have hid : o.getD q.lastId = pre.length := by rw [State.lastId]; simpa using e4
      have e2' : ss = pre ++ ([] ++ x) :: post := by simpa using e2
      have := readLoop_opened h minTs q.fuel pre [] x post e2' (fuel _ _ _ _ e2') none (.inr ⟨rfl, rfl⟩)
      have hk : keep minTs ss.flatten = keep minTs (x ++ post.flatten) := by
        rw [e2, List.flatten_append, keep, List.filter_append, List.flatten_cons]
        rw [List.filter_eq_nil_iff.mpr ?_, List.nil_append]
        intro m hm
        have := e5 m hm
        simp; omega
      simp only [hk, Reader.read, e1, hid]
      obtain ⟨r', rem', q1, q2, q3, q4⟩ := this
      exact ⟨r', rem', q1, q2, q4⟩
  | @closed pre post minTs hne =>
    cases post with
    | nil => exact absurd rfl hne
    | cons x post =>
      have e : pre ++ x :: post = pre ++ ([] ++ x) :: post := by simp
      obtain ⟨r', rem', q1, q2, q3, q4⟩ :=
        readLoop_opened h minTs q.fuel pre [] x post e (fuel _ _ _ _ e) none (.inr ⟨rfl, rfl⟩)
      exact ⟨r', rem', q1, q2, q4⟩
  | @opened pre A B post minTs =>
    obtain ⟨r', rem', q1, q2, q3, q4⟩ :=
      readLoop_opened h minTs q.fuel pre A B post rfl (fuel _ _ _ _ rfl) _ (.inl rfl)
    exact ⟨r', rem', q1, q2, q4⟩

end Verif.Mq
