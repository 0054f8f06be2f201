import Verif.Queue.MqInv
/-
Property theorems C26 (readers of a message queue) and C27 (messages).
-/
namespace Verif.Mq
open Verif Verif.Codec Verif.Checksum

/-- The queues that can be reached from a new one, with the messages written to them: by calls, and by closing (which
synchronizes) and opening again. The numbers of files and the sizes of files are below 2^48, as the metadata have 48
bits for them. -/
inductive Reach : State → Log → Prop
  | new (maxSize hard) : Reach (State.new maxSize hard) ⟨0, []⟩
  | op {q l} (o : Op) : Reach q l → o.Ok → q.files.length + 1 < 2 ^ 48 → Reach (q.step o).1 (l.step o).1
  | reopen {q l q'} (maxSize hard ignoreBroken) : Reach q l → q.files.length < 2 ^ 48 → (q.files.getLastD []).length < 2 ^ 48 →
      openQueue q.sync.files maxSize hard ignoreBroken = .ok q' → Reach q' l

theorem open_files {fs : List Bytes} {ss} (hf : Files 0 fs ss) {fs0 f i} (e : fs = fs0 ++ [f]) (hl : loadMeta f = .ok i)
    (hi : i.id = fs0.length) {c} (hc : i.cyclic = some c) (hs : i.size = f.length) (maxSize hard ib) :
    openQueue fs maxSize hard ib = .ok ⟨fs, i.ts, c, maxSize, hard⟩ := by
  subst e
  simp [openQueue, hl, hi, hc, hs]

theorem reopen_eq {q l ss} (h : Inv q l ss) (hn : q.files.length < 2 ^ 48) (hs : (q.files.getLastD []).length < 2 ^ 48)
    (maxSize hard ib) : openQueue q.sync.files maxSize hard ib = .ok { q.sync with maxSize := maxSize, hard := hard } := by
  obtain ⟨fs0, f, ss0, msgs, i, e1, e2, h1, h2, h3, h4⟩ := h.files.split
  have hl := congrArg List.length e1
  simp at hl
  have hsy := h.sync hn
  rw [e1, getLastD_append] at hs
  have sv := h1.save (c := q.cyclic % 255 + 1) (id := fs0.length) (t := q.ts) (by omega) (by omega) h.topLt
  rw [open_files hsy.files (by rw [sync_files e1]) sv.load (by simp) rfl ?_ maxSize hard ib, sync_files e1]
  simp only
  rw [Nat.mod_eq_of_lt hs, saveMeta, List.length_append, metaBlock_length, List.length_drop]
  have := h1.long
  omega

theorem Reach.inv {q l} (h : Reach q l) : ∃ ss, Inv q l ss := by
  induction h with
  | new m h => exact ⟨_, Inv.ofNew m h⟩
  | op o _ ho hn ih =>
    obtain ⟨ss, ih⟩ := ih
    obtain ⟨_, _, ss', h, _⟩ := ih.step o ho hn
    exact ⟨ss', h⟩
  | reopen m hd ib _ hn hs e ih =>
    obtain ⟨ss, ih⟩ := ih
    rw [reopen_eq ih hn hs] at e
    simp only [Except.ok.injEq] at e
    subst e
    have := ih.sync hn
    exact ⟨ss, this.files, this.flat, this.top, this.topLt, this.le, this.cyc⟩

theorem fifo_from {q l ss r rem} (h : Inv q l ss) (hp : Pos ss r rem) : ∀ es : List Ev,
    (∀ e ∈ es, ∀ o, e = .op o → o.Ok) → q.files.length + es.length < 2 ^ 48 →
    outs q r es = Spec.outs r.minTs ⟨l, keep r.minTs rem⟩ es := by
  intro es
  induction es generalizing q l ss r rem with
  | nil => intros; rfl
  | cons e es ih =>
    intro ho hn
    rw [List.length_cons] at hn
    cases e with
    | op o =>
      obtain ⟨h1, h2, ss', h3, h4⟩ := h.step o (ho _ (List.mem_cons_self ..) o rfl) (by omega)
      simp only [outs, Spec.outs, stepEv, Spec.step, h1]
      congr 1
      rcases h4 with ⟨rfl, h4⟩ | ⟨m, h4, h5⟩
      · rw [ih h3 hp (fun e he => ho e (List.mem_cons_of_mem _ he)) (by omega), h4]
        simp
      · rw [ih h3 (hp.grow h4) (fun e he => ho e (List.mem_cons_of_mem _ he)) (by omega), h5]
        simp [keep]
    | read =>
      obtain ⟨r', rem', h1, h2, h3⟩ := hp.read h.files
      have ih' := ih h h1 (fun e he => ho e (List.mem_cons_of_mem _ he)) (by omega)
      rw [h2] at ih'
      generalize hk : keep r.minTs rem = k at h3
      cases k with
      | nil =>
        simp only at h3
        rw [h3.2] at ih'
        simp only [outs, Spec.outs, stepEv, Spec.step, h3.1, ih']
      | cons m k =>
        simp only at h3
        rw [h3.2] at ih'
        simp only [outs, Spec.outs, stepEv, Spec.step, h3.1, ih']

/-- C26: a reader made at any time delivers exactly the messages with at least its minimum timestamp, in the order they
were written and each once, first those that were already there, then those written while it reads; when there is none
it says so (INFEASIBLE_ERROR). The writes return SUCCESS with a timestamp below 2^48-1 and refuse others. All this for
every interleaving of writes, timestamp updates, synchronizations and reads, and any file size limit (that is, any
rotation of files). -/
theorem C26_fifo {q : State} {l : Log} (h : Reach q l) (minTs : Int) (es : List Ev)
    (ho : ∀ e ∈ es, ∀ o, e = .op o → o.Ok) (hn : q.files.length + es.length < 2 ^ 48) :
    outs q (Reader.new minTs) es =
      Spec.outs minTs ⟨l, l.msgs.filter fun m => decide ((m.1 : Int) ≥ minTs)⟩ es := by
  obtain ⟨ss, h⟩ := h.inv
  have := fifo_from h (Pos.start (ss := ss) (m := minTs)) es ho hn
  rw [h.flat] at this
  exact this

/-- C26: a queue that was closed can be opened again, with the same messages. -/
theorem C26_reopen {q : State} {l : Log} (h : Reach q l) (hn : q.files.length < 2 ^ 48)
    (hs : (q.files.getLastD []).length < 2 ^ 48) (maxSize : Int) (hard ignoreBroken : Bool) :
    ∃ q', openQueue q.sync.files maxSize hard ignoreBroken = .ok q' ∧ Reach q' l ∧ q'.ts = q.ts := by
  obtain ⟨ss, hi⟩ := h.inv
  have e := reopen_eq hi hn hs maxSize hard ignoreBroken
  exact ⟨_, e, .reopen maxSize hard ignoreBroken h hn hs e, rfl⟩

/-- C26: the timestamps of the messages never decrease. -/
theorem C26_sorted {q : State} {l : Log} (h : Reach q l) : l.msgs.Pairwise (fun a b => a.1 ≤ b.1) ∧ ∀ m ∈ l.msgs, m.1 ≤ q.ts := by
  induction h with
  | new => simp
  | @op q l o hr ho hn ih =>
    obtain ⟨ss, hi⟩ := hr.inv
    obtain ⟨_, _, ss', h3, _⟩ := hi.step o ho hn
    refine ⟨?_, h3.le⟩
    cases o with
    | write ts now msg =>
      simp only [Log.step]
      split
      · exact ih.1
      · simp only [List.pairwise_append, List.pairwise_cons, List.Pairwise.nil, and_true, List.mem_singleton]
        refine ⟨ih.1, by simp, ?_⟩
        intro a ha b hb
        have := ih.2 a ha
        rw [hi.top] at this
        rw [hb]; simp only; omega
    | update ts now =>
      simp only [Log.step]
      split
      · exact ih.1
      · exact ih.1
    | sync => exact ih.1
  | @reopen q l q' m hd ib hr hn hs e ih =>
    obtain ⟨ss, hi⟩ := hr.inv
    rw [reopen_eq hi hn hs] at e
    simp only [Except.ok.injEq] at e
    subst e
    exact ih

/-- A case: two files, the reader passes from one to the other, and finds a message written after it had reached the
end. -/
def exq : State := (((State.new 50 false).step (.write 5 0 [1, 2, 3, 4, 5, 6, 7])).1.step (.write 7 0 [8])).1

example : Reach exq ⟨7, [(5, [1, 2, 3, 4, 5, 6, 7]), (7, [8])]⟩ ∧ exq.files.length = 2 := by
  refine ⟨?_, by decide +kernel⟩
  exact .op (.write 7 0 [8]) (.op (.write 5 0 [1, 2, 3, 4, 5, 6, 7]) (.new 50 false) (by simp [Op.Ok]) (by decide +kernel))
    (by simp [Op.Ok]) (by decide +kernel)

example : outs exq (Reader.new 6) [.read, .read, .op (.write (-1) 3 [9]), .read, .read] =
    [.message 7 [8], .failed .infeasible, .code .success, .message 7 [9], .failed .infeasible] := by decide +kernel

/-! ### Files left by a crash -/

theorem scan_records {f : Bytes} {A B tail} (hl : 32 ≤ f.length) (hd : f.drop 32 = recs A ++ (recs B ++ tail)) (hok : ∀ m ∈ B, MsgOk m) :
    ∀ fuel, B.length ≤ fuel → scanEnd f fuel (32 + (recs A).length) = scanEnd f (fuel - B.length) (32 + (recs (A ++ B)).length) := by
  induction B generalizing A with
  | nil => intro fuel _; simp
  | cons m B ih =>
    intro fuel hfu
    cases fuel with
    | zero => simp at hfu
    | succ fuel =>
      have hlen := congrArg List.length hd
      simp only [List.length_drop, List.length_append, recs_cons] at hlen
      have hd' : f.drop (32 + (recs A).length) = record m.1 m.2 ++ (recs B ++ tail) := by
        rw [← List.drop_drop, hd, List.drop_left, recs_cons, List.append_assoc]
      rw [scanEnd, readNext_record _ (by omega) (by omega) hd' (hok m (by simp))]
      simp only
      have := ih (A := A ++ [m]) (by rw [hd, recs_append, recs_cons, recs_single]; simp) (fun x hx => hok x (List.mem_cons_of_mem _ hx)) fuel
        (by simp at hfu; omega)
      rw [recs_append, recs_single, List.length_append, ← Nat.add_assoc] at this
      rw [this]
      simp [recs_append, recs_cons, recs_single]

theorem scan_end {f : Bytes} (hl : f.length ≤ n) (h32 : 32 ≤ n) (fuel) : scanEnd f fuel n = n := by
  cases fuel with
  | zero => rfl
  | succ fuel =>
    have e1 : (if n ≤ 32 then 32 else n) = n := by split <;> omega
    have : Flat.readAt f n 11 = none := by rw [Flat.readAt, if_neg (by omega)]
    rw [scanEnd, readNext]
    simp only [e1, this]

/-- The messages that reading attempts deliver from the files alone. -/
theorem drain {q : State} {ss r rem} (h : Files 0 q.files ss) (hp : Pos ss r rem) : ∀ n l,
    outs q r (List.replicate n .read) = Spec.outs r.minTs ⟨l, keep r.minTs rem⟩ (List.replicate n .read) := by
  intro n
  induction n generalizing r rem with
  | zero => intro l; rfl
  | succ n ih =>
    intro l
    obtain ⟨r', rem', h1, h2, h3⟩ := hp.read h
    have ih' := ih h1 l
    rw [h2] at ih'
    generalize hk : keep r.minTs rem = k at h3
    cases k with
    | nil =>
      simp only at h3
      rw [h3.2] at ih'
      simp only [List.replicate_succ, outs, Spec.outs, stepEv, Spec.step, h3.1, ih']
    | cons m k =>
      simp only at h3
      rw [h3.2] at ih'
      simp only [List.replicate_succ, outs, Spec.outs, stepEv, Spec.step, h3.1, ih']

/-- C26 (crash): if the process dies at a moment between two calls, so that the files hold all the records but the
metadata of the last file are old, then the queue can be opened, its files are unchanged, and a reader gets every message
with at least its minimum timestamp, in order. What is missing: this is for a reader that reads before anything more is
written; afterwards it can fail, see `C26_violated`. -/
theorem C26_crash_partial {q : State} {l : Log} (h : Reach q l) (maxSize : Int) (hard ignoreBroken : Bool) :
    ∃ q', openQueue q.files maxSize hard ignoreBroken = .ok q' ∧ q'.files = q.files ∧
      ∀ minTs n, outs q' (Reader.new minTs) (List.replicate n .read) =
        Spec.outs minTs ⟨l, l.msgs.filter fun m => decide ((m.1 : Int) ≥ minTs)⟩ (List.replicate n .read) := by
  obtain ⟨ss, hi⟩ := h.inv
  obtain ⟨fs0, f, ss0, msgs, i, e1, e2, h1, h2, h3, h4⟩ := hi.files.split
  obtain ⟨c, hc⟩ := h1.cyc
  have hl := h1.long
  have hid : i.id = q.files.length - 1 := by rw [e1]; simp [h2]
  have fin : ∀ q' : State, q'.files = q.files → ∀ minTs n, outs q' (Reader.new minTs) (List.replicate n .read) =
        Spec.outs minTs ⟨l, l.msgs.filter fun m => decide ((m.1 : Int) ≥ minTs)⟩ (List.replicate n .read) := by
    intro q' e minTs n
    have hf := hi.files
    rw [← e] at hf
    have := drain hf (Pos.start (ss := ss) (m := minTs)) n l
    rw [hi.flat] at this
    exact this
  have eL : q.files.getLastD [] = f := by rw [e1]; simp
  have eD : q.files.dropLast ++ [f] = q.files := by rw [e1]; simp
  simp only [openQueue, eL, h1.load, hc, hid]
  by_cases hs : i.size = f.length
  · simp only [hs]
    refine ⟨⟨q.files.dropLast ++ [f], i.ts, c, maxSize, hard⟩, by simp, eD, fin _ eD⟩
  · have sc : scanEnd f f.length 32 = f.length := by
      have hb := congrArg List.length h1.body
      rw [List.length_drop] at hb
      have hge := recs_length_ge msgs
      have := scan_records (A := []) (B := msgs) (tail := []) hl (by simp [h1.body, recs]) h1.ok f.length (by omega)
      rw [show 32 + (recs []).length = 32 from rfl, List.nil_append, show 32 + (recs msgs).length = f.length by omega] at this
      rw [this]
      exact scan_end (Nat.le_refl _) hl _
    have tr : truncate f f.length = f := by simp [truncate]
    refine ⟨⟨q.files.dropLast ++ [f], i.ts, c, maxSize, hard⟩, ?_, eD, fin _ eD⟩
    simp [hs, sc, tr]

instance {α : Type} [DecidableEq α] : DecidableEq (Except Code α)
  | .ok a, .ok b => if h : a = b then .isTrue (h ▸ rfl) else .isFalse (by simp [h])
  | .error a, .error b => if h : a = b then .isTrue (h ▸ rfl) else .isFalse (by simp [h])
  | .ok _, .error _ => .isFalse (by simp)
  | .error _, .ok _ => .isFalse (by simp)

/-- The state after a crash in `C26_violated`: a message with timestamp 100 was written, but no metadata since. -/
def crashed : State := ((State.new 50 false).step (.write 100 0 [1])).1

/-- C26 is violated after a crash: the largest timestamp is restored from the metadata, which may be older than the
messages in the file. Then timestamps can decrease, and when the file is finished, its metadata tell a timestamp that is
too low, so that readers pass over the file: the message with timestamp 100, whose write had succeeded, is not delivered
to a reader that wants timestamps from 60 on. -/
theorem C26_violated : Reach crashed ⟨100, [(100, [1])]⟩ ∧
    ∃ q, openQueue crashed.files 50 false false = .ok q ∧
      outs q (Reader.new 60) [.read] = [.message 100 [1]] ∧
      outs ((q.step (.write 50 0 [2])).1.step (.write 51 0 [3])).1 (Reader.new 60) [.read] = [.failed .infeasible] ∧
      outs ((q.step (.write 50 0 [2])).1.step (.write 51 0 [3])).1 (Reader.new 0) [.read, .read, .read] =
        [.message 100 [1], .message 50 [2], .message 51 [3]] := by
  constructor
  · exact .op (.write 100 0 [1]) (.new 50 false) (by simp [Op.Ok]) (by decide +kernel)
  · exact ⟨⟨crashed.files, 0, 1, 50, false⟩, by decide +kernel⟩

/-- C26 (crash): if the crash leaves only a part of the last record, opening the queue reports BROKEN_DATA_ERROR (it does
not deliver a wrong message); with OPEN_IGNORE_BROKEN, and if the cut is within the header of the record, the complete
messages are recovered. -/
theorem C26_torn {q : State} {l : Log} (h : Reach q l) (t : Nat) (msg : Bytes) (hm : MsgOk (t, msg)) (k : Nat)
    (hk : 0 < k) (hk2 : k < (record t msg).length) (maxSize : Int) (hard : Bool) :
    openQueue (q.files.dropLast ++ [q.files.getLastD [] ++ (record t msg).take k]) maxSize hard false = .error .brokenData ∧
    (k < 11 → ∃ q', openQueue (q.files.dropLast ++ [q.files.getLastD [] ++ (record t msg).take k]) maxSize hard true = .ok q' ∧
      q'.files = q.files) := by
  obtain ⟨ss, hi⟩ := h.inv
  obtain ⟨fs0, f, ss0, msgs, i, e1, e2, h1, h2, h3, h4⟩ := hi.files.split
  obtain ⟨c, hc⟩ := h1.cyc
  have hl := h1.long
  have hsz := h1.size
  have eL : q.files.getLastD [] = f := by rw [e1]; simp
  have eD : q.files.dropLast = fs0 := by rw [e1]; simp
  rw [eL, eD]
  obtain ⟨tl, hr⟩ : ∃ tl, record t msg = 0xFF :: tl := ⟨_, rfl⟩
  obtain ⟨k', rfl⟩ : ∃ k', k = k' + 1 := ⟨k - 1, by omega⟩
  have hlen : (f ++ (record t msg).take (k' + 1)).length = f.length + (k' + 1) := by
    rw [List.length_append, List.length_take]; omega
  have hload : loadMeta (f ++ (record t msg).take (k' + 1)) = .ok i := by rw [loadMeta_prefix hl]; exact h1.load
  have hb := congrArg List.length h1.body
  rw [List.length_drop] at hb
  have hge := recs_length_ge msgs
  have hdr : (f ++ (record t msg).take (k' + 1)).drop f.length = (record t msg).take (k' + 1) := List.drop_left
  have sc : scanEnd (f ++ (record t msg).take (k' + 1)) (f ++ (record t msg).take (k' + 1)).length 32 =
      scanEnd (f ++ (record t msg).take (k' + 1)) (f.length + (k' + 1) - msgs.length) f.length := by
    have := scan_records (f := f ++ (record t msg).take (k' + 1)) (A := []) (B := msgs) (tail := (record t msg).take (k' + 1)) (by omega)
      (by rw [List.drop_append_of_le_length hl, h1.body]; simp [recs]) h1.ok (f.length + (k' + 1)) (by omega)
    rw [show 32 + (recs []).length = 32 from rfl, List.nil_append, show 32 + (recs msgs).length = f.length by omega] at this
    rw [hlen, this]
  obtain ⟨fuel, hfu⟩ : ∃ fuel, f.length + (k' + 1) - msgs.length = fuel + 1 := ⟨f.length + (k' + 1) - msgs.length - 1, by omega⟩
  have e32 : (if f.length ≤ 32 then 32 else f.length) = f.length := by split <;> omega
  rw [hfu] at sc
  by_cases h11 : k' + 1 < 11
  · have sc2 : scanEnd (f ++ (record t msg).take (k' + 1)) (f ++ (record t msg).take (k' + 1)).length 32 = f.length := by
      rw [sc, scanEnd, readNext]
      have : Flat.readAt (f ++ (record t msg).take (k' + 1)) f.length 11 = none := by
        rw [Flat.readAt, if_neg (by omega)]
      simp only [e32, this]
    have hz : zeroRegion (f ++ (record t msg).take (k' + 1)) f.length (f ++ (record t msg).take (k' + 1)).length = false := by
      rw [zeroRegion, hdr, hlen, hr, List.take_succ_cons]
      obtain ⟨n, hn⟩ : ∃ n, min (f.length + 128 * 1024) (f.length + (k' + 1)) - f.length = n + 1 := ⟨min (f.length + 128 * 1024) (f.length + (k' + 1)) - f.length - 1, by omega⟩
      rw [hn]
      simp
    constructor
    · simp only [openQueue, getLastD_append, hload, hc, List.dropLast_concat, h2]
      rw [if_neg (by simp), if_neg (by rw [hlen]; omega), sc2, if_neg]
      rw [hz, hlen]
      simp
    · intro _
      refine ⟨⟨fs0 ++ [truncate (f ++ (record t msg).take (k' + 1)) f.length], i.ts, c, maxSize, hard⟩, ?_, ?_⟩
      · simp only [openQueue, getLastD_append, hload, hc, List.dropLast_concat, h2]
        rw [if_neg (by simp), if_neg (by rw [hlen]; omega), sc2, if_pos (by simp)]
        simp
      · simp only [truncate, List.take_left, hlen]
        rw [e1, show f.length - (f.length + (k' + 1)) = 0 by omega]
        simp
  · refine ⟨?_, fun h => absurd h h11⟩
    have hrl := record_length t msg
    have hrd : Flat.readAt (f ++ (record t msg).take (k' + 1)) f.length 11 = some (header t msg) := by
      rw [Flat.readAt, if_pos (by omega), hdr, List.take_take, show min 11 (k' + 1) = 11 by omega, record, List.append_assoc,
        List.take_left' (header_length t msg)]
    have hd : (header t msg).head? = some 0xFF := rfl
    have hm1 := hm.1
    have hm2 := hm.2
    simp only at hm1 hm2
    have sc2 : scanEnd (f ++ (record t msg).take (k' + 1)) (f ++ (record t msg).take (k' + 1)).length 32 = f.length + (record t msg).length := by
      rw [sc, scanEnd, readNext]
      simp only [e32, hrd, hd, ne_eq, not_true, if_false, header_ts msg hm1, header_size t (by omega : msg.length < 2 ^ 32)]
      rw [if_neg (by omega), if_neg (by omega)]
      simp only
      rw [scan_end (by omega) (by omega), hrl]
      omega
    simp only [openQueue, getLastD_append, hload, hc, List.dropLast_concat, h2]
    rw [if_neg (by simp), if_neg (by rw [hlen]; omega), sc2, if_neg]
    rw [hlen]
    simp only [Bool.false_eq_true, false_or, not_or]
    exact ⟨by omega, fun h => by omega⟩

example : openQueue [crashed.files.getLastD [] ++ (record 100 [1]).take 12] 50 false false = .error .brokenData ∧
    openQueue [crashed.files.getLastD [] ++ (record 100 [1]).take 10] 50 false true = .ok ⟨crashed.files, 0, 1, 50, false⟩ := by
  decide +kernel

/-! ### C27: the bytes of a message -/

/-- C27: a message is read back from where it was written, with its timestamp and its contents, whatever surrounds it;
with a minimum timestamp above its own it is passed over. The next offset is that behind the message. -/
theorem C27_roundtrip (before after : Bytes) (ts : Nat) (msg : Bytes) (minTs : Int) (hb : 32 ≤ before.length)
    (ht : ts < 2 ^ 48) (hm : msg.length < 2 ^ 32 - 1) :
    readNext (before ++ record ts msg ++ after) before.length minTs =
      (before.length + 12 + msg.length, .ok (ts, if (ts : Int) ≥ minTs then some msg else none)) := by
  rw [readNext_record (m := (ts, msg)) (rest := after) minTs hb (by simp) (by simp) ⟨ht, hm⟩, record_length]
  simp only [Nat.add_assoc]

/-- C27: a file that ends within a message is not read as having it: INFEASIBLE_ERROR. -/
theorem C27_truncated (before : Bytes) (ts : Nat) (msg : Bytes) (k : Nat) (hb : 32 ≤ before.length)
    (ht : ts < 2 ^ 48) (hm : msg.length < 2 ^ 32 - 1) (hk : k < (record ts msg).length) :
    (readNext (before ++ (record ts msg).take k) before.length 0).2 = .error .infeasible := by
  have e1 : (if before.length ≤ 32 then 32 else before.length) = before.length := by split <;> omega
  have hrl := record_length ts msg
  have hlen : (before ++ (record ts msg).take k).length = before.length + k := by
    rw [List.length_append, List.length_take]; omega
  rw [readNext]
  by_cases h : k < 11
  · have : Flat.readAt (before ++ (record ts msg).take k) before.length 11 = none := by
      rw [Flat.readAt, if_neg (by omega)]
    simp only [e1, this]
  · have hrd : Flat.readAt (before ++ (record ts msg).take k) before.length 11 = some (header ts msg) := by
      rw [Flat.readAt, if_pos (by omega), List.drop_left, List.take_take, show min 11 k = 11 by omega, record, List.append_assoc,
        List.take_left' (header_length ts msg)]
    have hd : (header ts msg).head? = some 0xFF := rfl
    have hrn : Flat.readAt (before ++ (record ts msg).take k) (before.length + 11) (msg.length + 1) = none := by
      rw [Flat.readAt, if_neg (by omega)]
    simp only [e1, hrd, hd, ne_eq, not_true, if_false, header_ts msg ht, header_size ts (by omega : msg.length < 2 ^ 32), hrn]
    rw [if_neg (by omega), if_pos (by omega)]

/-- Reading bytes of the form of a record: the first byte and the checksum decide. -/
theorem readNext_shape {file rest T S msg : Bytes} {off : Nat} {m c : UInt8} (ho : 32 ≤ off) (ho2 : off ≤ file.length)
    (hT : T.length = 6) (hS : S.length = 4)
    (h : file.drop off = m :: (T ++ S) ++ (msg ++ [c]) ++ rest) (hsize : readFixNum S 4 = msg.length) (hsz : msg.length < 2 ^ 32 - 1)
    (hc : c ≠ 0) (hbad : m ≠ 0xFF ∨ c.toNat ≠ (m.toNat + total T + total S + total msg) % 251 + 1) :
    (readNext file off 0).2 = .error .brokenData := by
  have e1 : (if off ≤ 32 then 32 else off) = off := by split <;> omega
  have hl := congrArg List.length h
  simp only [List.length_drop, List.length_append, List.length_cons, List.length_nil, hT, hS] at hl
  have hh : Flat.readAt file off 11 = some (m :: (T ++ S)) := by
    have : (m :: (T ++ S)).length = 11 := by simp [hT, hS]
    rw [← this]
    exact readAt_of_drop (rest := msg ++ [c] ++ rest) ho2 (by rw [h]; simp)
  rw [readNext]
  simp only [e1, hh, List.head?_cons]
  by_cases hm : m = 0xFF
  · subst hm
    have hbad := hbad.resolve_left (by simp)
    have d1 : List.drop 1 (0xFF :: (T ++ S)) = T ++ S := rfl
    have d7 : List.drop 7 (0xFF :: (T ++ S)) = S := by rw [List.drop_succ_cons, List.drop_left' hT]
    have hb : Flat.readAt file (off + 11) (msg.length + 1) = some (msg ++ [c]) := by
      have hx : (msg ++ [c]).length = msg.length + 1 := by simp
      rw [← hx]
      refine readAt_of_drop (rest := rest) (by omega) ?_
      rw [← List.drop_drop, h, List.append_assoc]
      exact List.drop_left' (by simp [hT, hS])
    simp only [ne_eq, not_true, if_false, d7, hsize, hb]
    rw [if_neg (by omega), if_pos (by omega), if_pos]
    rw [List.take_left, List.drop_left]
    have hp := (C47_checksum (0xFF :: (T ++ S) ++ msg) (0xFF :: (T ++ S)) msg true 0 (by decide)).2.2.2
    rw [hp]
    simp only [List.map_cons, List.map_nil, List.cons.injEq, and_true, List.cons_append, total_cons, total_append]
    intro e
    apply hbad
    rw [e]
    congr 2
    simp only [UInt8.reduceToNat]
    omega
  · rw [if_pos (by simp [hm])]
    by_cases hz : (m :: (T ++ S)).all (· = 0) = true
    · rw [if_pos hz, if_pos]
      refine ⟨by omega, ?_⟩
      have hS0 : S = [0, 0, 0, 0] := by
        have : S = List.replicate 4 0 := by
          refine List.eq_replicate_iff.mpr ⟨hS, ?_⟩
          intro b hb
          rw [List.all_eq_true] at hz
          simpa using hz b (by simp [hb])
        exact this
      have hmsg : msg = [] := by
        rw [hS0] at hsize
        have : readFixNum [0, 0, 0, 0] 4 = 0 := by decide
        rw [this] at hsize
        exact List.length_eq_zero_iff.mp hsize.symm
      subst hmsg
      rw [zeroRegion, h]
      rw [List.all_eq_false]
      refine ⟨c, ?_, by simpa using hc⟩
      rw [List.nil_append]
      have : ∃ n, min (off + 128 * 1024) file.length - off = n + 12 := ⟨min (off + 128 * 1024) file.length - off - 12, by
        simp at hl; omega⟩
      obtain ⟨n, hn⟩ := this
      rw [hn]
      have e : (m :: (T ++ S) ++ [c]).length = 12 := by simp [hT, hS]
      rw [List.take_append, List.mem_append]
      left
      rw [List.take_of_length_le (by omega)]
      simp
    · rw [if_neg hz]

theorem check_ne_zero (n : Nat) : byte (n % 251 + 1) ≠ 0 := by
  have : n % 251 < 251 := Nat.mod_lt _ (by decide)
  intro h
  have := congrArg UInt8.toNat h
  simp [byte] at this
  omega

theorem check_toNat (n : Nat) : (byte (n % 251 + 1)).toNat = n % 251 + 1 := by
  have : n % 251 < 251 := Nat.mod_lt _ (by decide)
  simp only [byte, UInt8.toNat_ofNat']
  exact Nat.mod_eq_of_lt (by omega)

theorem record_shape (ts : Nat) (msg : Bytes) : record ts msg =
    0xFF :: (writeFixNum ts 6 ++ writeFixNum msg.length 4) ++ (msg ++ [byte ((255 + total (writeFixNum ts 6) + total (writeFixNum msg.length 4) + total msg) % 251 + 1)]) := by
  have hp := (C47_checksum (header ts msg ++ msg) (header ts msg) msg true 0 (by decide)).2.1
  rw [record, hp, if_neg (by simp [header])]
  simp only [header, List.cons_append, total_cons, total_append, List.append_assoc]
  congr 7
  simp only [UInt8.reduceToNat]
  omega

theorem mod_ne {x y r : Nat} (h : x % 251 ≠ y % 251) : (x + r) % 251 ≠ (y + r) % 251 := by omega

/-- C27: if one byte of a stored message is changed, reading it reports BROKEN_DATA_ERROR. What is missing: changes in
the four bytes of the size field, and changes by a multiple of 251 (that is, of one of 0..4 to the byte 251 higher or
back); both can go unseen, see `C27_violated`. The first byte and the checksum byte are exempt from the latter
restriction. -/
theorem C27_detects_partial (before after A B : Bytes) (x y : UInt8) (ts : Nat) (msg : Bytes) (hb : 32 ≤ before.length)
    (ht : ts < 2 ^ 48) (hm : msg.length < 2 ^ 32 - 1) (hr : record ts msg = A ++ x :: B)
    (hA : A.length < 7 ∨ 11 ≤ A.length)
    (hxy : if A = [] then x ≠ y else if B = [] then x ≠ y ∧ y ≠ 0 else x.toNat % 251 ≠ y.toNat % 251) :
    (readNext (before ++ (A ++ y :: B) ++ after) before.length 0).2 = .error .brokenData := by
  have hT := writeFixNum_length (w := 6) ts (by omega)
  have hS := writeFixNum_length (w := 4) msg.length (by omega)
  have hsize := fix_read msg.length 4 (by omega) (by omega : msg.length < 2 ^ 32) []
  rw [List.append_nil] at hsize
  have hsh := record_shape ts msg
  generalize hcc : 255 + total (writeFixNum ts 6) + total (writeFixNum msg.length 4) + total msg = N at hsh
  have hcz := check_ne_zero N
  have hct := check_toNat N
  generalize byte (N % 251 + 1) = c at *
  generalize writeFixNum ts 6 = T at *
  generalize writeFixNum msg.length 4 = S at *
  rw [hr] at hsh
  have go : ∀ (T' msg' : Bytes) (m' c' : UInt8), T'.length = 6 → msg'.length = msg.length → c' ≠ 0 →
      (m' ≠ 0xFF ∨ c'.toNat ≠ (m'.toNat + total T' + total S + total msg') % 251 + 1) →
      A ++ y :: B = m' :: (T' ++ S) ++ (msg' ++ [c']) →
      (readNext (before ++ (A ++ y :: B) ++ after) before.length 0).2 = .error .brokenData := by
    intro T' msg' m' c' h1 h2 h3 h4 h5
    rw [h5]
    refine readNext_shape (rest := after) (m := m') (c := c') hb (by simp) h1 hS ?_ (by rw [hsize, h2]) (by omega) h3 h4
    simp
  cases A with
  | nil =>
    simp only [List.nil_append, List.cons_append, List.cons.injEq] at hsh
    obtain ⟨rfl, rfl⟩ := hsh
    simp only [if_true] at hxy
    exact go T msg y c hT rfl hcz (.inl (Ne.symm hxy)) (by simp)
  | cons a A =>
    simp only [List.cons_append, List.cons.injEq] at hsh
    obtain ⟨rfl, hsh⟩ := hsh
    rw [if_neg (by simp)] at hxy
    simp only [List.length_cons] at hA
    by_cases h7 : A.length < 6
    · -- in the timestamp
      have e1 : A = T.take A.length := by
        have := congrArg (List.take A.length) hsh
        rw [List.take_left, List.append_assoc, List.take_append_of_le_length (by omega)] at this
        exact this
      have e2 : x :: B = T.drop A.length ++ (S ++ (msg ++ [c])) := by
        have := congrArg (List.drop A.length) hsh
        rw [List.drop_left, List.append_assoc, List.drop_append_of_le_length (by omega)] at this
        exact this
      generalize hD : T.drop A.length = D at e2
      cases D with
      | nil =>
        have := congrArg List.length hD
        rw [List.length_drop] at this
        simp at this; omega
      | cons d D =>
        simp only [List.cons_append, List.cons.injEq] at e2
        obtain ⟨rfl, rfl⟩ := e2
        have hTe : T = A ++ x :: D := by rw [← hD, e1, List.length_take, show min A.length T.length = A.length by omega]; exact (List.take_append_drop _ _).symm
        rw [if_neg (by simp)] at hxy
        refine go (A ++ y :: D) msg 0xFF c ?_ rfl hcz (.inr ?_) (by simp)
        · rw [hTe] at hT; simpa using hT
        · rw [hct, ← hcc, hTe]
          simp only [total_append, total_cons, UInt8.reduceToNat]
          omega
    · -- in the message or the checksum
      have hA2 : 10 ≤ A.length := by omega
      have e0 : (T ++ S).length = 10 := by simp [hT, hS]
      have e1 : A = (T ++ S) ++ A.drop 10 := by
        have := congrArg (List.take 10) hsh
        rw [List.take_left' e0, List.take_append_of_le_length hA2] at this
        rw [← this, List.take_append_drop]
      generalize A.drop 10 = A' at e1
      subst e1
      simp only [List.append_assoc] at hsh
      have hsh := List.append_cancel_left (List.append_cancel_left hsh)
      rcases List.eq_nil_or_concat B with hB | ⟨B', c', hB⟩
      · subst hB
        obtain ⟨rfl, hx⟩ := List.append_inj' hsh rfl
        simp at hx; subst hx
        rw [if_pos rfl] at hxy
        refine go T A' 0xFF y hT rfl hxy.2 (.inr ?_) (by simp)
        intro e
        apply hxy.1
        apply UInt8.toNat_inj.mp
        rw [hct, e, ← hcc]
        rfl
      · rw [List.concat_eq_append] at hB
        subst hB
        have hsh' : (A' ++ x :: B') ++ [c'] = msg ++ [c] := by rw [← hsh]; simp
        obtain ⟨rfl, hx⟩ := List.append_inj' hsh' rfl
        simp at hx; subst hx
        rw [if_neg (by simp)] at hxy
        refine go T (A' ++ y :: B') 0xFF c' hT (by simp) hcz (.inr ?_) (by simp)
        rw [hct, ← hcc]
        simp only [total_append, total_cons, UInt8.reduceToNat]
        omega

example : (readNext (List.replicate 32 0 ++ (record 7 [1, 2, 3]).set 12 9) 32 0).2 = .error .brokenData ∧
    record 7 [1, 2, 3] = (record 7 [1, 2, 3]).take 12 ++ 2 :: (record 7 [1, 2, 3]).drop 13 := by decide +kernel

/-- C27 is violated: a zero byte that becomes 251 is not detected; nor is a timestamp changed in this way; and a changed
size can make the reader take a part of the message as a message. -/
theorem C27_violated :
    readNext (List.replicate 32 0 ++ (record 7 [0]).set 11 251) 32 0 = (45, .ok (7, some [251])) ∧
    readNext (List.replicate 32 0 ++ (record 0 [5]).set 6 251) 32 0 = (45, .ok (251, some [5])) ∧
    readNext (List.replicate 32 0 ++ (record 7 [9, 22]).set 10 1) 32 0 = (45, .ok (7, some [9])) := by
  decide +kernel

end Verif.Mq
