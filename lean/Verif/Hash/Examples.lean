import Verif.Hash.Props
/-
Concrete databases that meet the hypotheses of the theorems on HashDBM.
-/
namespace Verif.Hash.Examples
open Verif.Codec

/-- A small environment: keys are hashed by their first byte. -/
def env : Env := ⟨fun k n => (k.headD 0).toNat % n, fun k _ => 3 + k.length % 61, fun w _ _ => 255 % 256 ^ w⟩

theorem env_ok : EnvOk env := by
  refine ⟨fun k n h => Nat.mod_lt _ h, fun k v => ?_, fun w k v => Nat.mod_lt _ (Nat.pow_pos (by omega))⟩
  have := Nat.mod_lt k.length (show 61 > 0 by omega)
  show 3 ≤ 3 + k.length % 61 ∧ 3 + k.length % 61 < 64
  omega

/-- Three buckets, offsets of four bytes, alignment to eight bytes, one byte of CRC. -/
def cfg (ip : Bool) : Cfg := { ow := 4, ap := 3, cw := 1, nb := 3, inPlace := ip, fbpCap := 4 }

theorem cfg_ok (ip : Bool) : CfgOk (cfg ip) := by cases ip <;> exact ⟨by decide, by decide, by decide, by decide, by decide⟩

def extra : Extra := { cyc := 0, major := 1, minor := 0, stamp := 0, dbType := 0, opaq := [] }

theorem extra_ok : extra.Ok := ⟨by decide, by decide, by decide, by decide, by decide, by decide, by decide⟩

def tune : Tune := ⟨extra, cfg true, 7⟩

theorem tune_ok : tune.Ok := ⟨extra_ok, cfg_ok true, by decide⟩

def ops : List SOp := [.call (.set [1] [10, 11] true), .call (.set [4] [20] true), .call (.set [1] [30, 31, 32, 33, 34, 35, 36] true),
  .call (.remove [4]), .call (.set [7] [1, 2] false), .reopen 5 3, .sync 6, .call (.rebuild 0), .call (.append [7] [3] [0])]

instance optForall {α : Type} (o : Option α) (P : α → Prop) [DecidablePred P] : Decidable (∀ x, o = some x → P x) :=
  match o with
  | none => isTrue (by intro x h; cases h)
  | some a => if h : P a then isTrue (by intro x hx; cases hx; exact h) else isFalse fun hh => h (hh a rfl)

instance (e : Env) (tn : Tune) (ip : Bool) (mid : Nat) (d : Db) : Decidable (RebuildRoom e tn ip mid d) := by
  unfold RebuildRoom; infer_instance

instance (e : Env) (tunes : Int → Tune) (d : Db) (op : SOp) : Decidable (StepRoom e tunes d op) := by
  unfold StepRoom; split <;> infer_instance

instance decRunRoom (e : Env) (tunes : Int → Tune) : (ops : List SOp) → (d : Db) → Decidable (RunRoom e tunes d ops)
  | [], d => inferInstanceAs (Decidable d.st.Room)
  | op :: ops, d =>
    have := decRunRoom e tunes ops (step e tunes d op).1
    inferInstanceAs (Decidable (d.st.Room ∧ StepRoom e tunes d op ∧ RunRoom e tunes (step e tunes d op).1 ops))

def db (ip : Bool) : Db := ((openImpl extra (cfg ip) []).map (·.1)).getD ⟨⟨cfg ip, [], ⟨[], 0, 0, []⟩, true⟩, extra⟩

theorem room_inplace : RunRoom env (fun _ => tune) (db true) ops := by decide +kernel

theorem room_appending : RunRoom env (fun _ => tune) (db false) ops := by decide +kernel

theorem fits_ops : SRunFits Dict.empty ops := by
  refine ⟨?_, ?_, ?_, trivial, ?_, ?_, ?_, trivial, ?_, trivial⟩ <;> simp only [SFits, OpFits] <;> decide +kernel

theorem open_db (ip : Bool) : openImpl extra (cfg ip) [] = some (db ip, true) := by
  obtain ⟨d, hd⟩ := C03_open_new (cfg_ok ip) extra_ok
  simp only [db, hd, Option.map_some, Option.getD_some]

theorem some_getD {α : Type} {o : Option α} {a : α} (h : o.isSome = true) : o = some (o.getD a) := by
  cases o with
  | none => cases h
  | some x => rfl

/-- The hypotheses of C03 are met by a history with all kinds of calls on a file of three buckets. -/
example : (run (step env (fun _ => tune)) (db true) ops).1.st.bad = false :=
  (C03_hash_inplace_dictionary env_ok (fun _ => tune_ok) (cfg_ok true) rfl extra_ok (open_db true) ops room_inplace fits_ops).2.1

/-- The same for C04. -/
example : (run (step env (fun _ => tune)) (db false) ops).1.st.bad = false :=
  (C04_hash_appending_dictionary env_ok (fun _ => tune_ok) (cfg_ok false) rfl extra_ok (open_db false) ops room_appending fits_ops).2.1

/-- What that history leaves behind on the bytes of the file. -/
example : (Api.get (dbImpl env) (run (step env (fun _ => tune)) (db true) ops).1 [7]).2 = (.success, some [1, 2, 0, 3]) ∧
    (Api.get (dbImpl env) (run (step env (fun _ => tune)) (db true) ops).1 [4]).2 = (.notFound, none) ∧
    (run (step env (fun _ => tune)) (db true) ops).1.st.mem.num = 2 := by decide +kernel

/-- Before the rebuild the pool of free blocks is not empty, so that C06 speaks about something. -/
example : (run (step env (fun _ => tune)) (db true) (ops.take 5)).1.st.mem.fbp.length = 1 := by decide +kernel

end Verif.Hash.Examples
