import Verif.Hash.ConcProps
import Verif.Hash.Examples
/-
Threads on a concrete HashDBM, for C73.
-/
namespace Verif.Hash.Conc.Examples
open Verif TwoPhase Hash.Examples

def setProc (x : Bytes) : ProcS (Option Bytes) := fun _ o => (.set x, o)
def delProc : ProcS (Option Bytes) := fun _ o => (.remove, o)
def getProc : ProcS (Option Bytes) := fun _ o => (.noop, o)

def call (k : Bytes) (p : ProcS (Option Bytes)) : Act (Option Bytes) Unit := .call ⟨[(k, p)], true, false, none⟩

/-- Thread `t` goes on `n` times. -/
def goes (t n : Nat) : List (Nat × Act (Option Bytes) Unit) := List.replicate n (t, .go ())

/-- The keys 1 and 4 share a bucket. The thread 1 overwrites a key by a longer value while the thread 0 removes another one of another
bucket and the thread 2 waits for the slot of the first; then a call for two keys. -/
def events : List (Nat × Act (Option Bytes) Unit) :=
  [(0, call [2] delProc), (1, call [1] (setProc [1, 2, 3, 4, 5, 6, 7, 8, 9])), (2, call [4] (setProc [7]))] ++ goes 0 3 ++ goes 1 4 ++ goes 2 3 ++
  goes 0 3 ++ goes 1 5 ++ goes 2 5 ++ goes 0 9 ++ goes 1 20 ++ goes 2 20 ++
  [(0, .call ⟨[([1], getProc), ([2], setProc [20])], true, true, none⟩)] ++ goes 0 30

/-- The history before. -/
def before : List SOp := [.call (.set [1] [10, 11] true), .call (.set [2] [20] true)]

def rets (s : CState (Option Bytes)) : List (Nat × Option Bytes) := s.hist.filterMap fun
  | .ret id r => some (id, r)
  | .inv _ _ => none

def begun (ip : Bool) : Db := (Verif.run (step env fun _ => tune) (db ip) before).1

theorem room_before (ip : Bool) : RunRoom env (fun _ => tune) (db ip) before := by cases ip <;> decide +kernel

theorem fits_before : SRunFits Dict.empty before := by
  refine ⟨?_, ?_, trivial⟩ <;> simp only [SFits, OpFits] <;> decide +kernel

theorem goes_call {t n : Nat} {x : Nat} {c : Call (Option Bytes)} : (x, Act.call c) ∉ goes t n := by
  intro h
  have := List.eq_of_mem_replicate h
  cases this

theorem fits_set {k x : Bytes} {w m : Bool} {i : Option Bytes} (h : hashFits k x) : CallFits ⟨[(k, setProc x)], w, m, i⟩ := by
  intro kp hk r o v hv
  simp at hk
  subst hk
  simp only [setProc] at hv
  injection hv with hv
  rw [← hv]; exact h

theorem fits_events : EventsFit events := by
  intro t c h
  simp only [events, List.mem_append, goes_call, or_false, List.mem_cons, List.not_mem_nil, call] at h
  rcases h with (h | h | h) | h
  · cases h
    intro kp hk r o v hv
    simp at hk
    subst hk
    cases hv
  · cases h; exact fits_set (by decide +kernel)
  · cases h; exact fits_set (by decide +kernel)
  · cases h
    intro kp hk r o v hv
    simp at hk
    rcases hk with rfl | rfl
    · cases hv
    · simp only [setProc] at hv
      injection hv with hv
      rw [← hv]; decide +kernel

def roomB (s : State) : Bool := decide (s.file.length ≤ 2 ^ (8 * s.cfg.ow + s.cfg.ap)) && decide (s.file.length < 2 ^ 63)

/-- All calls return, with the old values, and the room is enough. -/
def good (ip : Bool) : Bool :=
  let s := Conc.run env 4 (begun ip).st 3 events
  rets s == [(0, some [20]), (1, some [10, 11]), (2, none), (3, none)] && roomB (after (begun ip) s).st &&
    s.threads.all (fun th => match th.pc with | .idle => true | _ => false) && s.mem.num == 3 && s.mem.eff == 14

theorem good_both : good true = true ∧ good false = true := by decide +kernel

theorem events_room (ip : Bool) : (after (begun ip) (Conc.run env 4 (begun ip).st 3 events)).st.Room := by
  have h : good ip = true := by cases ip; exacts [good_both.2, good_both.1]
  simp only [good, roomB, Bool.and_eq_true, decide_eq_true_eq] at h
  exact h.1.1.1.2

theorem events_quiet (ip : Bool) : Quiet (Conc.run env 4 (begun ip).st 3 events) := by
  have h : good ip = true := by cases ip; exacts [good_both.2, good_both.1]
  simp only [good, Bool.and_eq_true] at h
  intro th hth
  have := List.all_eq_true.1 h.1.1.2 th hth
  cases e : th.pc <;> simp [e] at this <;> rfl

/-- The hypotheses of C73 hold for this run in both modes, and after it no call is under way. -/
example (ip : Bool) := C73_hash_linearizable env_ok (fun _ => tune_ok) (cfg_ok ip) extra_ok (open_db ip) before (room_before ip) fits_before rfl
  (show 0 < 4 by decide) 3 events fits_events (events_room ip)

end Verif.Hash.Conc.Examples
