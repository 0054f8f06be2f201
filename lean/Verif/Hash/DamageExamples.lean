import Verif.Hash.CrashExamples
import Verif.Hash.DamageProps
/-
Damaged files that meet the hypotheses of the theorems of C75, and the loss of a record that is not damaged.
-/
namespace Verif.Hash.Examples
open Verif.Codec

/-- Three records of 16 bytes each. -/
def dmgOps : List SOp := [.call (.set [1] [10, 11] true), .call (.set [4] [20] true), .call (.set [7] [1] true)]

def dmgDb (ip : Bool) : Db := (run (step env (fun _ => tune)) (db ip) dmgOps).1

/-- The records of the file. -/
def dmgRecs : List Rec := [setData (cfg true) .add 0 [1] [10, 11] 0, setData (cfg true) .add 0 [4] [20] 4096, setData (cfg true) .add 0 [7] [1] 4112]

/-- The bytes of the first record with another magic byte. -/
def flipped : Bytes := [4, 0, 0, 0, 0, 1, 2, 4, 255, 1, 10, 11, 221, 0, 0, 0].set 0 5

theorem dmg_room : RunRoom env (fun _ => tune) (db true) dmgOps ∧ RunRoom env (fun _ => tune) (db false) dmgOps := by
  constructor <;> decide +kernel

theorem dmg_fits : SRunFits Dict.empty dmgOps := by
  refine ⟨?_, ?_, ?_, trivial⟩ <;> simp only [SFits, OpFits] <;> decide +kernel

theorem dmg_file : (dmgDb true).st.file.drop (recordBase (cfg true)) = recsBytes env (cfg true) dmgRecs ∧
    (dmgDb false).st.file.drop (recordBase (cfg false)) = recsBytes env (cfg true) dmgRecs ∧ (dmgRecs.map fun r => r.size (cfg true)) = [16, 16, 16] := by
  refine ⟨?_, ?_, ?_⟩ <;> decide +kernel

/-- The first record overwritten with zeros, or with a wrong magic byte, with two records behind it: the conditions of
`C75_hash_damage_partial` are met in both modes, and the records behind are restored. -/
example : (∀ ip, Unreadable env (cfg ip) (List.replicate 16 0) (recsBytes env (cfg true) (dmgRecs.drop 1) ++ List.replicate 0 0)) ∧
    Unreadable env (cfg true) flipped (recsBytes env (cfg true) (dmgRecs.drop 1) ++ List.replicate 0 0) ∧
    ¬ TooLarge (cfg true) (List.replicate 16 0) ∧
    RestoreRoom env extra .default (overwritten (dmgDb true).st.file 4096 (List.replicate 16 0) 0) ∧
    (restoreDatabase env extra 9 .default (overwritten (dmgDb true).st.file 4096 (List.replicate 16 0) 0)).bind (fun g => (openOld 4 g).map fun d =>
      ((Api.get (dbImpl env) d.1 [1]).2, (Api.get (dbImpl env) d.1 [4]).2, (Api.get (dbImpl env) d.1 [7]).2)) =
      some ((.notFound, none), (.success, some [20]), (.success, some [1])) := by
  refine ⟨?_, ?_, ?_, ?_, ?_⟩
  · intro ip; cases ip <;> decide +kernel
  · decide +kernel
  · simp only [TooLarge]; decide +kernel
  · decide +kernel
  · decide +kernel

/-- A condition of `C75_hash_damage_few_behind`: nothing inside of the last record looks like a record. -/
example : ∀ i, 0 < i → i < 16 → i % 8 = 0 → readSound env (cfg true) (recsBytes env (cfg true) (dmgRecs.drop 2) ++ List.replicate 0 0) 48 i = none := by
  intro i h1 h2 h3
  have : i = 8 := by omega
  subst this
  decide +kernel

theorem readMeta_zeros (c : Cfg) (n : Nat) (tail : Bytes) (mr o : Nat) (ho : o < n) : readMeta c (List.replicate n 0 ++ tail) o mr = none := by
  unfold readMeta
  split
  · rfl
  · obtain ⟨k, hk⟩ : ∃ k, n - o = k + 1 := ⟨n - o - 1, by omega⟩
    have e1 : (List.replicate n (0 : UInt8) ++ tail).drop o = 0 :: (List.replicate k 0 ++ tail) := by
      rw [List.drop_append_of_le_length (by simp; omega), List.drop_replicate, hk]; rfl
    simp only [e1]
    generalize min _ mr = q
    cases q with
    | zero => rfl
    | succ q => simp

/-- Zeros do not look like records, whatever is behind them: the hypothesis about the damaged bytes can be met for records of every size and
in both modes. -/
theorem unreadable_zeros (e : Env) (c : Cfg) {n : Nat} (hn : 0 < n) (tail : Bytes) : Unreadable e c (List.replicate n 0) tail := by
  refine ⟨fun o h _ => ?_, fun _ => readMeta_zeros c n tail _ 0 hn⟩
  rw [List.length_replicate] at h
  simp only [readSound, readMeta_zeros c n tail _ o h]

/-- The size that `C75_hash_damage_large` asks for, with the alignment of eight bytes. -/
example : TooLarge (cfg true) (List.replicate 8016 0) := by
  simp only [TooLarge, List.length_replicate]; decide +kernel

end Verif.Hash.Examples
