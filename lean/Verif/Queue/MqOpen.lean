import Verif.Queue.MqProps
/-
C26: opening files whose last header is damaged.
-/
namespace Verif.Mq
open Verif Verif.Codec

/-- C26: if the two copies of the cyclic number in the header of the last file differ (a header written only in part), or the
file does not begin with the magic bytes, the queue is not opened: BROKEN_DATA_ERROR. -/
theorem C26_torn_header (files : List Bytes) (f : Bytes) (maxSize : Int) (hard : Bool) (h32 : 32 ≤ f.length)
    (h : f[9]? ≠ f[31]? ∨ f.take 9 ≠ [0x54, 0x6B, 0x72, 0x7A, 0x77, 0x4D, 0x51, 0x58, 0x0A]) :
    openQueue (files ++ [f]) maxSize hard false = .error .brokenData := by
  unfold openQueue
  have hr : Flat.readAt f 0 32 = some (f.take 32) := by rw [Flat.readAt, if_pos (by omega)]; rfl
  have hl : (files ++ [f]).getLastD [] = f := by simp
  by_cases hm : (f.take 32).take 9 ≠ [0x54, 0x6B, 0x72, 0x7A, 0x77, 0x4D, 0x51, 0x58, 0x0A]
  · simp only [hl, loadMeta, hr, if_pos hm]
  · have hne : f[9]? ≠ f[31]? := by
      rcases h with h | h
      · exact h
      · rw [List.take_take] at hm; simp at hm; exact absurd hm h
    have hc : readFixNum ((f.take 32).drop 9) 1 ≠ readFixNum ((f.take 32).drop 31) 1 := by
      intro e
      apply hne
      have key : ∀ i, i < 32 → ∃ b, f[i]? = some b ∧ readFixNum ((f.take 32).drop i) 1 = b.toNat := by
        intro i hi
        have hi' : i < f.length := by omega
        refine ⟨f[i], List.getElem?_eq_getElem hi', ?_⟩
        have : (f.take 32).drop i = f[i] :: (f.take 32).drop (i + 1) := by
          rw [List.drop_eq_getElem_cons (by simp; omega)]
          simp
        rw [this]
        have hlt := f[i].toNat_lt
        simp [readFixNum, fromBe64, Nat.shiftRight_eq_div_pow]
        try omega
      obtain ⟨b, h1, h2⟩ := key 9 (by omega)
      obtain ⟨c, h3, h4⟩ := key 31 (by omega)
      rw [h2, h4] at e
      rw [h1, h3, UInt8.toNat_inj.1 e]
    simp only [hl, loadMeta, hr, if_neg hm, if_pos hc]
    simp

/-- A header whose first copy of the cyclic number was overwritten. -/
example : openQueue [((State.new 1000 false).sync.files.headD []).set 9 77] 1000 false false = .error .brokenData ∧
    (openQueue [(State.new 1000 false).sync.files.headD []] 1000 false false).isOk = true := by decide +kernel

end Verif.Mq
