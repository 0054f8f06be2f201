import Verif.Queue.MqProps
import Verif.Queue.UlogProps
/-
The files of a message queue: removal of old ones (C26), and replay of an update log from them (C25).
-/
namespace Verif.Mq
open Verif Verif.Codec

/-- SPECIFICATION: the messages in a file, from the offset on, as far as they can be read. -/
def msgsFrom (f : Bytes) : Nat → Nat → List (Nat × Bytes)
  | 0, _ => []
  | fuel + 1, off =>
    match readNext f off 0 with
    | (off, .ok (ts, some msg)) => (ts, msg) :: msgsFrom f fuel off
    | _ => []

/-- SPECIFICATION: the messages in a file. -/
def fileMsgs (f : Bytes) : List (Nat × Bytes) := msgsFrom f f.length 32

theorem msgsFrom_eq {f : Bytes} {A B} (hl : 32 ≤ f.length) (hd : f.drop 32 = recs (A ++ B)) (hok : ∀ m ∈ B, MsgOk m) :
    ∀ fuel, B.length < fuel → msgsFrom f fuel (32 + (recs A).length) = B := by
  induction B generalizing A with
  | nil =>
    intro fuel hfu
    obtain ⟨fuel, rfl⟩ : ∃ k, fuel = k + 1 := ⟨fuel - 1, by omega⟩
    have hlen := congrArg List.length hd
    simp only [List.length_drop, List.append_nil] at hlen
    have e1 : (if 32 + (recs A).length ≤ 32 then 32 else 32 + (recs A).length) = 32 + (recs A).length := by split <;> omega
    have : Flat.readAt f (32 + (recs A).length) 11 = none := by rw [Flat.readAt, if_neg (by omega)]
    rw [msgsFrom, readNext]
    simp only [e1, this]
  | cons m B ih =>
    intro fuel hfu
    obtain ⟨fuel, rfl⟩ : ∃ k, fuel = k + 1 := ⟨fuel - 1, by omega⟩
    have hlen := congrArg List.length hd
    simp only [List.length_drop, List.length_append, recs_append, recs_cons] at hlen
    have hd' : f.drop (32 + (recs A).length) = record m.1 m.2 ++ recs B := by
      rw [← List.drop_drop, hd, recs_append, List.drop_left, recs_cons]
    rw [msgsFrom, readNext_record _ (by omega) (by omega) hd' (hok m (by simp))]
    rw [if_pos (by omega)]
    simp only
    have := ih (A := A ++ [m]) (by rw [hd]; simp) (fun x hx => hok x (List.mem_cons_of_mem _ hx)) fuel (by simp at hfu; omega)
    rw [recs_append, recs_single, List.length_append, ← Nat.add_assoc] at this
    rw [this]

theorem FileIs.msgs {f i msgs} (h : FileIs f i msgs) : fileMsgs f = msgs := by
  have hb := congrArg List.length h.body
  rw [List.length_drop] at hb
  have hge := recs_length_ge msgs
  have hl := h.long
  have := msgsFrom_eq (A := []) (B := msgs) hl h.body h.ok f.length (by omega)
  exact this

theorem Files.msgs {n fs ss} (h : Files n fs ss) : fs.flatMap fileMsgs = ss.flatten := by
  induction h with
  | last h _ => simp [h.msgs]
  | cons h _ _ _ ih => simp [h.msgs, ih]

/-- C26: the files hold exactly the messages of the log, in order. -/
theorem C26_files {q : State} {l : Log} (h : Reach q l) : q.files.flatMap fileMsgs = l.msgs := by
  obtain ⟨ss, hi⟩ := h.inv
  rw [hi.files.msgs, hi.flat]

theorem keep_append (t a b) : keep t (a ++ b) = keep t a ++ keep t b := List.filter_append ..

theorem removeOld_spec {n fs ss} (h : Files n fs ss) (thr : Int) (ex : Bool)
    (hlast : ex = true ∨ ∀ f i, fs.getLast? = some f → loadMeta f = .ok i → ∀ m ∈ fileMsgs f, m.1 ≤ i.ts) :
    ∃ fs', removeOld thr ex fs = .ok fs' ∧ fs'.Sublist fs ∧ (ex = true → fs'.getLast? = fs.getLast?) ∧
      (∀ f ∈ fs', (ex = true ∧ fs.getLast? = some f) ∨ ∃ i, loadMeta f = .ok i ∧ (i.ts : Int) ≥ thr) ∧
      keep thr (fs'.flatMap fileMsgs) = keep thr (fs.flatMap fileMsgs) := by
  have drop : ∀ (f : Bytes) (i : Info), (∀ m ∈ fileMsgs f, m.1 ≤ i.ts) → (i.ts : Int) < thr → keep thr (fileMsgs f) = [] := by
    intro f i h1 h2
    rw [keep, List.filter_eq_nil_iff]
    intro m hm
    have := h1 m hm
    simp; omega
  induction h with
  | @last n f i msgs h hn =>
    rw [removeOld]
    by_cases hex : ex = true
    · rw [if_pos ⟨hex, rfl⟩]
      exact ⟨_, rfl, List.Sublist.refl _, fun _ => rfl, fun g hg => .inl ⟨hex, by simpa using (List.mem_singleton.mp hg).symm⟩, rfl⟩
    · rw [if_neg (by simp [hex])]
      simp only [h.load, removeOld]
      by_cases ht : (i.ts : Int) < thr
      · rw [if_pos ht]
        refine ⟨_, rfl, by simp, fun h => absurd h hex, by simp, ?_⟩
        have := drop f i (hlast.resolve_left hex f i rfl h.load) ht
        simp [this, keep]
      · rw [if_neg ht]
        exact ⟨_, rfl, List.Sublist.refl _, fun _ => rfl, fun g hg => .inr ⟨i, by rw [List.mem_singleton.mp hg]; exact h.load, by omega⟩, rfl⟩
  | @cons n f i msgs fs ss h hn hb hf ih =>
    have hne := hf.length.2
    have hgl : (f :: fs).getLast? = fs.getLast? := by
      cases fs with
      | nil => exact absurd rfl hne
      | cons a b => simp
    rw [hgl] at hlast ⊢
    obtain ⟨fs', h1, h2, h3, h4, h5⟩ := ih hlast
    rw [removeOld, if_neg (by simp [hne])]
    simp only [h.load, h1]
    by_cases ht : (i.ts : Int) < thr
    · rw [if_pos ht]
      refine ⟨fs', rfl, h2.cons f, h3, h4, ?_⟩
      rw [List.flatMap_cons, keep_append, drop f i (by rw [h.msgs]; exact hb.1) ht, List.nil_append]
      exact h5
    · rw [if_neg ht]
      refine ⟨f :: fs', rfl, h2.cons_cons f, ?_, ?_, ?_⟩
      · intro he
        have h3 := h3 he
        cases fs' with
        | nil =>
          obtain ⟨x, hx⟩ : ∃ x, fs.getLast? = some x := by
            cases h : fs.getLast? with
            | none => exact absurd (List.getLast?_eq_none_iff.mp h) hne
            | some x => exact ⟨x, rfl⟩
          rw [hx] at h3; simp at h3
        | cons a b => simpa using h3
      · intro g hg
        rcases List.mem_cons.mp hg with rfl | hg
        · exact .inr ⟨i, h.load, by omega⟩
        · exact h4 g hg
      · rw [List.flatMap_cons, List.flatMap_cons, keep_append, keep_append, h5]

/-- C26: removing old files of a closed queue, or of any queue if the latest file is exempt, removes no message that is
as new as the threshold or newer: what remains are whole files in their order, and the messages with at least the
threshold are all still there. No file remains that has metadata with a lower timestamp (except the exempt one). -/
theorem C26_remove_old {q : State} {l : Log} (h : Reach q l) (hn : q.files.length < 2 ^ 48) (threshold : Int) :
    (∃ fs', removeOld threshold true q.files = .ok fs' ∧ fs'.Sublist q.files ∧ fs'.getLast? = q.files.getLast? ∧
      (fs'.flatMap fileMsgs).filter (fun m => decide ((m.1 : Int) ≥ threshold)) =
        l.msgs.filter (fun m => decide ((m.1 : Int) ≥ threshold))) ∧
    (∃ fs', removeOld threshold false q.sync.files = .ok fs' ∧ fs'.Sublist q.sync.files ∧
      (∀ f ∈ fs', ∃ i, loadMeta f = .ok i ∧ (i.ts : Int) ≥ threshold) ∧
      (fs'.flatMap fileMsgs).filter (fun m => decide ((m.1 : Int) ≥ threshold)) =
        l.msgs.filter (fun m => decide ((m.1 : Int) ≥ threshold))) := by
  have h26 := C26_files h
  obtain ⟨ss, hi⟩ := h.inv
  constructor
  · obtain ⟨fs', h1, h2, h3, h4, h5⟩ := removeOld_spec hi.files threshold true (.inl rfl)
    exact ⟨fs', h1, h2, h3 rfl, by rw [h26] at h5; exact h5⟩
  · have hs := hi.sync hn
    have hlast : ∀ f i, q.sync.files.getLast? = some f → loadMeta f = .ok i → ∀ m ∈ fileMsgs f, m.1 ≤ i.ts := by
      intro f i hf hl m hm
      obtain ⟨fs0, f0, ss0, msgs, i0, e1, e2, h1, h2, h3, h4⟩ := hi.files.split
      have hlen := congrArg List.length e1
      simp at hlen
      have sv := h1.save (c := q.cyclic % 255 + 1) (id := fs0.length) (t := q.ts) (by omega) (by omega) hi.topLt
      rw [sync_files e1] at hf
      simp at hf
      subst hf
      rw [sv.load] at hl
      simp only [Except.ok.injEq] at hl
      subst hl
      rw [sv.msgs] at hm
      refine hi.le m ?_
      rw [← hi.flat, e2]; simp [hm]
    obtain ⟨fs', h1, h2, h3, h4, h5⟩ := removeOld_spec hs.files threshold false (.inr hlast)
    refine ⟨fs', h1, h2, fun f hf => ?_, ?_⟩
    · rcases h4 f hf with ⟨h, _⟩ | h
      · simp at h
      · exact h
    · rw [hs.files.msgs, hs.flat] at h5; exact h5

example : ∃ fs', removeOld 6 false exq.sync.files = .ok fs' ∧ fs'.flatMap fileMsgs = [(7, [8])] := by
  exact ⟨exq.sync.files.drop 1, by decide +kernel⟩

/-- Without the exemption the latest file of a queue that is in use can be removed although it has newer messages: its
metadata are old. -/
theorem C26_remove_old_violated : removeOld 50 false crashed.files = .ok [] ∧ crashed.files.flatMap fileMsgs = [(100, [1])] := by
  decide +kernel

end Verif.Mq

namespace Verif.Ulog
open Verif Verif.Codec Verif.Mq

/-- The inner loop of `ApplyUpdateLogFromFiles` (tkrzw_dbm_ulog.cc 355-377). `none`: the loop does not end (which is the
case when CANCELED_ERROR is returned: the offset does not advance), or undefined behaviour in the parser.
Simplification: `min_timestamp` is an integer (in the code a `double`). -/
def applyFile {σ : Type} (D : DbmImpl σ) (clear : σ → σ) (server dbm minTs : Int) (f : Bytes) (size : Nat) :
    Nat → Nat → σ → Option (σ × Code)
  | 0, _, _ => none
  | fuel + 1, off, s =>
    if off < size then
      match readNext f off 0 with
      | (_, .error .canceled) => none
      | (_, .error c) => some (s, c)
      | (off, .ok (ts, msg)) =>
        if (ts : Int) < minTs then applyFile D clear server dbm minTs f size fuel off s
        else
          match apply D clear s (msg.getD []) server dbm with
          | none => none
          | some (s, c) =>
            if c ≠ .success ∧ c ≠ .infeasible then some (s, c) else applyFile D clear server dbm minTs f size fuel off s
    else some (s, .success)

/-- `ApplyUpdateLogFromFiles` (tkrzw_dbm_ulog.cc 329-385). -/
def applyFiles {σ : Type} (D : DbmImpl σ) (clear : σ → σ) (server dbm minTs : Int) : List Bytes → σ → Option (σ × Code)
  | [], s => some (s, .success)
  | f :: fs, s =>
    match loadMeta f with
    | .error c => some (s, c)
    | .ok i =>
      if (i.ts : Int) < minTs then applyFiles D clear server dbm minTs fs s
      else
        match applyFile D clear server dbm minTs f (min i.size f.length) (f.length + 1) 0 s with
        | none => none
        | some (s, c) => if c ≠ .success then some (s, c) else applyFiles D clear server dbm minTs fs s

theorem applyAll_append {σ : Type} (D : DbmImpl σ) (clear server dbm) : ∀ (a b : List Bytes) (s : σ),
    applyAll D clear server dbm (a ++ b) s =
      match applyAll D clear server dbm a s with
      | none => none
      | some (s, c) => if c ≠ .success then some (s, c) else applyAll D clear server dbm b s
  | [], b, s => by simp [applyAll]
  | m :: a, b, s => by
    simp only [List.cons_append, applyAll]
    cases apply D clear s m server dbm with
    | none => rfl
    | some x =>
      obtain ⟨s1, c⟩ := x
      simp only
      by_cases h : c ≠ .success ∧ c ≠ .infeasible
      · rw [if_pos h, if_pos h]
        simp only
        rw [if_pos h.1]
      · rw [if_neg h, if_neg h]
        exact applyAll_append D clear server dbm a b s1

theorem applyFile_eq {σ : Type} (D : DbmImpl σ) (clear server dbm minTs) {f : Bytes} {A B} (hl : 32 ≤ f.length)
    (hd : f.drop 32 = recs (A ++ B)) (hok : ∀ m ∈ B, MsgOk m) : ∀ fuel, B.length < fuel → ∀ off s,
    (off = 32 + (recs A).length ∨ (off = 0 ∧ A = [] ∧ B ≠ [])) →
    applyFile D clear server dbm minTs f f.length fuel off s =
      applyAll D clear server dbm ((keep minTs B).map (·.2)) s := by
  induction B generalizing A with
  | nil =>
    intro fuel hfu off s hoff
    obtain ⟨fuel, rfl⟩ : ∃ k, fuel = k + 1 := ⟨fuel - 1, by omega⟩
    have hlen := congrArg List.length hd
    simp only [List.length_drop, List.append_nil] at hlen
    rcases hoff with rfl | ⟨_, _, h⟩
    · rw [applyFile, if_neg (by omega)]; rfl
    · exact absurd rfl h
  | cons m B ih =>
    intro fuel hfu off s hoff
    obtain ⟨fuel, rfl⟩ : ∃ k, fuel = k + 1 := ⟨fuel - 1, by omega⟩
    have hlen := congrArg List.length hd
    simp only [List.length_drop, List.length_append, recs_append, recs_cons, record_length] at hlen
    have hd' : f.drop (32 + (recs A).length) = record m.1 m.2 ++ recs B := by
      rw [← List.drop_drop, hd, recs_append, List.drop_left, recs_cons]
    have hrn : readNext f off 0 = readNext f (32 + (recs A).length) 0 ∧ off < f.length := by
      rcases hoff with rfl | ⟨rfl, rfl, _⟩
      · exact ⟨rfl, by omega⟩
      · exact ⟨rfl, by omega⟩
    rw [applyFile, if_pos hrn.2, hrn.1, readNext_record _ (by omega) (by omega) hd' (hok m (by simp))]
    rw [if_pos (by omega)]
    simp only [Option.getD_some]
    have ih := fun s => ih (A := A ++ [m]) (by rw [hd]; simp) (fun x hx => hok x (List.mem_cons_of_mem _ hx)) fuel (by simp at hfu; omega)
      _ s (.inl rfl)
    rw [recs_append, recs_single, List.length_append, ← Nat.add_assoc] at ih
    by_cases hts : (m.1 : Int) < minTs
    · rw [if_pos hts, ih, keep, keep, List.filter_cons_of_neg (by simp; omega)]
    · rw [if_neg hts, keep, List.filter_cons_of_pos (by simp; omega), List.map_cons, applyAll]
      cases apply D clear s m.2 server dbm with
      | none => rfl
      | some x =>
        simp only
        split
        · rfl
        · exact ih x.1

theorem applyFiles_eq {σ : Type} (D : DbmImpl σ) (clear server dbm minTs) {n fs ss} (h : Files n fs ss)
    (hall : ∀ f ∈ fs, ∀ i, loadMeta f = .ok i → i.size = f.length ∧ ∀ m ∈ fileMsgs f, m.1 ≤ i.ts)
    (hne : ∀ f ∈ fs, fileMsgs f ≠ []) (s : σ) :
    applyFiles D clear server dbm minTs fs s = applyAll D clear server dbm ((keep minTs ss.flatten).map (·.2)) s := by
  have one : ∀ {f i msgs}, FileIs f i msgs → i.size = f.length → msgs ≠ [] → ∀ s,
      applyFile D clear server dbm minTs f (min i.size f.length) (f.length + 1) 0 s =
        applyAll D clear server dbm ((keep minTs msgs).map (·.2)) s := by
    intro f i msgs h1 h2 h3 s
    have hb := congrArg List.length h1.body
    rw [List.length_drop] at hb
    have hge := recs_length_ge msgs
    have hl := h1.long
    rw [h2, Nat.min_self]
    exact applyFile_eq D clear server dbm minTs (A := []) h1.long h1.body h1.ok _ (by omega) 0 s (.inr ⟨rfl, rfl, h3⟩)
  have none_ : ∀ {i : Info} {msgs : List (Nat × Bytes)}, (i.ts : Int) < minTs → (∀ m ∈ msgs, m.1 ≤ i.ts) → keep minTs msgs = [] := by
    intro i msgs h1 h2
    rw [keep, List.filter_eq_nil_iff]
    intro m hm
    have := h2 m hm
    simp; omega
  induction h generalizing s with
  | @last n f i msgs h hn =>
    obtain ⟨a1, a2⟩ := hall f (by simp) i h.load
    have a3 := hne f (by simp)
    rw [h.msgs] at a2 a3
    simp only [applyFiles, h.load, List.flatten_cons, List.flatten_nil, List.append_nil]
    by_cases ht : (i.ts : Int) < minTs
    · rw [if_pos ht, none_ ht a2]; rfl
    · rw [if_neg ht, one h a1 a3]
      cases applyAll D clear server dbm ((keep minTs msgs).map (·.2)) s with
      | none => rfl
      | some x =>
        simp only
        split
        · rfl
        · rename_i hx
          have : x.2 = .success := by simpa using hx
          rw [← this]
  | @cons n f i msgs fs ss h hn hb hf ih =>
    obtain ⟨a1, a2⟩ := hall f (by simp) i h.load
    have a3 := hne f (by simp)
    rw [h.msgs] at a2 a3
    have ih := ih (fun f hf => hall f (List.mem_cons_of_mem _ hf)) (fun f hf => hne f (List.mem_cons_of_mem _ hf))
    simp only [applyFiles, h.load, List.flatten_cons]
    rw [keep_append, List.map_append, applyAll_append]
    by_cases ht : (i.ts : Int) < minTs
    · rw [if_pos ht, none_ ht a2, ih]
      simp [applyAll]
    · rw [if_neg ht, one h a1 a3]
      cases applyAll D clear server dbm ((keep minTs msgs).map (·.2)) s with
      | none => rfl
      | some x =>
        simp only
        split
        · rfl
        · exact ih x.1

theorem Files.all {n fs ss} (h : Files n fs ss) (hs : ∀ f ∈ fs, f.length < 2 ^ 48)
    (hlast : ∀ f i, fs.getLast? = some f → loadMeta f = .ok i → i.size = f.length ∧ ∀ m ∈ fileMsgs f, m.1 ≤ i.ts) :
    ∀ f ∈ fs, ∀ i, loadMeta f = .ok i → i.size = f.length ∧ ∀ m ∈ fileMsgs f, m.1 ≤ i.ts := by
  induction h with
  | last h hn => intro f hf i hi; exact hlast f i (by simpa using (List.mem_singleton.mp hf).symm) hi
  | @cons n g j msgs fs ss h hn hb hf ih =>
    have hne := hf.length.2
    have hgl : (g :: fs).getLast? = fs.getLast? := by
      cases fs with
      | nil => exact absurd rfl hne
      | cons a b => simp
    rw [hgl] at hlast
    intro f hf i hi
    rcases List.mem_cons.mp hf with rfl | hf
    · rw [h.load] at hi
      simp only [Except.ok.injEq] at hi
      subst hi
      rw [h.msgs, hb.2, Nat.mod_eq_of_lt (hs f (by simp))]
      exact ⟨rfl, hb.1⟩
    · exact ih (fun f hf => hs f (List.mem_cons_of_mem _ hf)) hlast f hf i hi

/-- C25: an update log kept in the files of a message queue, closed after any history of writes (with any rotation of
files), is applied from the files with the result that exactly the operations with at least the minimum timestamp and
with a selected server id and database index are done, in order. What is missing: every file must hold a message (see
`C25_empty_violated`), and the last file must be synchronized. -/
theorem C25_files_partial {σ : Type} {D : DbmImpl σ} {inv : σ → Prop} {view : σ → Dict} {fits : Bytes → Bytes → Prop}
    (L : Lawful D inv view fits) (clear : σ → σ)
    (hc : ∀ s, inv s → inv (clear s) ∧ view (clear s) = Dict.empty) (server dbm minTs : Int)
    {q : State} {l : Mq.Log} (hr : Reach q l) (hn : q.files.length < 2 ^ 48) (hsz : ∀ f ∈ q.files, f.length < 2 ^ 48)
    (hne : ∀ f ∈ q.files, fileMsgs f ≠ [])
    (ops : List (Nat × Nat × Nat × LogOp)) (hl : l.msgs = ops.map fun m => (m.1, encode m.2.1 m.2.2.1 m.2.2.2))
    (hm : ∀ m ∈ ops, m.2.1 < 2 ^ 31 ∧ m.2.2.1 < 2 ^ 31 ∧ (encode m.2.1 m.2.2.1 m.2.2.2).length < 2 ^ 31 ∧ OpsFit fits m.2.2.2)
    (s : σ) (hi : inv s) :
    ∃ s', applyFiles D clear server dbm minTs q.sync.files s = some (s', .success) ∧ inv s' ∧
      view s' = (view s).replay
        ((ops.filter fun m => decide ((m.1 : Int) ≥ minTs) && decide (Selected server m.2.1 ∧ Selected dbm m.2.2.1)).map (·.2.2.2)) := by
  obtain ⟨ss, hv⟩ := hr.inv
  have hs := hv.sync hn
  obtain ⟨fs0, f0, ss0, msgs, i0, e1, e2, h1, h2, h3, h4⟩ := hv.files.split
  have hlen := congrArg List.length e1
  simp at hlen
  have sv := h1.save (c := q.cyclic % 255 + 1) (id := fs0.length) (t := q.ts) (by omega) (by omega) hv.topLt
  have hlong := h1.long
  have svl : (saveMeta f0 (q.cyclic % 255 + 1) fs0.length q.ts).length = f0.length := by
    rw [saveMeta, List.length_append, metaBlock_length, List.length_drop]; omega
  have hf0 : f0.length < 2 ^ 48 := hsz f0 (by rw [e1]; simp)
  have eS := sync_files e1
  have hsf : ∀ f ∈ q.sync.files, f.length < 2 ^ 48 := by
    intro f hf
    rw [eS] at hf
    rcases List.mem_append.mp hf with hf | hf
    · exact hsz f (by rw [e1]; simp [hf])
    · rw [List.mem_singleton.mp hf, svl]; exact hf0
  have hsn : ∀ f ∈ q.sync.files, fileMsgs f ≠ [] := by
    intro f hf
    rw [eS] at hf
    rcases List.mem_append.mp hf with hf | hf
    · exact hne f (by rw [e1]; simp [hf])
    · rw [List.mem_singleton.mp hf, sv.msgs, ← h1.msgs]; exact hne f0 (by rw [e1]; simp)
  have hall := Files.all hs.files hsf (by
    intro f i hf hl
    rw [eS] at hf
    simp at hf
    subst hf
    rw [sv.load] at hl
    simp only [Except.ok.injEq] at hl
    subst hl
    rw [sv.msgs]
    refine ⟨by simp only [svl]; exact Nat.mod_eq_of_lt hf0, fun m hm => hv.le m ?_⟩
    rw [← hv.flat, e2]; simp [hm])
  rw [applyFiles_eq D clear server dbm minTs hs.files hall hsn, hs.flat, hl]
  have e : (keep minTs (ops.map fun m => (m.1, encode m.2.1 m.2.2.1 m.2.2.2))).map (·.2) =
      ((ops.filter fun m => decide ((m.1 : Int) ≥ minTs)).map (·.2)).map fun m => encode m.1 m.2.1 m.2.2 := by
    rw [keep, List.filter_map, List.map_map, List.map_map]; rfl
  rw [e]
  obtain ⟨s', r1, r2, r3⟩ := C25_apply_messages L clear hc server dbm ((ops.filter fun m => decide ((m.1 : Int) ≥ minTs)).map (·.2))
    (by
      intro m hmm
      obtain ⟨m', hm', rfl⟩ := List.mem_map.mp hmm
      exact hm m' ((List.mem_filter.mp hm').1)) s hi
  refine ⟨s', r1, r2, ?_⟩
  rw [r3, List.filter_map, List.map_map, List.filter_filter]
  congr 2
  refine List.filter_congr ?_
  intro m _
  simp [Bool.and_comm]

/-- C25 is violated by an empty log: a queue without messages is applied with INFEASIBLE_ERROR; and so is a log whose first
file has none (possible with a file size limit of 32 bytes or less), though it has messages. -/
theorem C25_empty_violated :
    (applyFiles Dict.impl (fun _ => Dict.empty) 0 0 0 (State.new 1000 false).sync.files Dict.empty).map (·.2) = some .infeasible ∧
    (applyFiles Dict.impl (fun _ => Dict.empty) 0 0 0 ((State.new 10 false).step (.write 5 0 (encode 0 0 (.set [1] [2])))).1.sync.files
      Dict.empty).map (fun x => (x.2, x.1 [1])) = some (.infeasible, none) := by
  decide +kernel

example : (applyFiles Dict.impl (fun _ => Dict.empty) 0 0 6
    (((State.new 60 false).step (.write 5 0 (encode 0 0 (.set [1] [2])))).1.step (.write 6 0 (encode 0 0 (.set [1] [3])))).1.sync.files
      Dict.empty).map (fun x => (x.2, x.1 [1])) = some (.success, some [3]) := by
  decide +kernel

end Verif.Ulog
