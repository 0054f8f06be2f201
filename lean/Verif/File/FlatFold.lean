import Verif.File.FlatProps
/-
Importing a saved file with a storing call that always succeeds: the calls made are exactly the pairs of the file, in order.
-/
namespace Verif.Flat
open Verif

theorem importLoop_fold {σ : Type} {setf : σ → Bytes → Bytes → σ × Code} (hset : ∀ s k v, (setf s k v).2 = .success) {file : Bytes} (l : List (Bytes × Bytes))
    (hs : Small l) (hlast : ∀ x, l.getLast? = some x → x.2 ≠ []) :
    ∀ (r : Reader) (s : σ) (fuel : Nat), At file r (exportFile l) → l.length < fuel →
      ∃ r', importLoop file setf fuel r s = importLoop file setf (fuel - l.length) r' (l.foldl (fun s x => (setf s x.1 x.2).1) s) ∧ At file r' [] := by
  induction l with
  | nil => intro r s fuel h _; exact ⟨r, rfl, h⟩
  | cons x l ih =>
    obtain ⟨k, v⟩ := x
    intro r s fuel h hfu
    obtain ⟨f, rfl⟩ : ∃ f, fuel = f + 1 := ⟨fuel - 1, by omega⟩
    simp only [List.length_cons] at hfu
    have hk := hs (k, v) (by simp)
    have e : exportFile ((k, v) :: l) = record .normal k ++ (record .normal v ++ exportFile l) := by
      simp [exportFile]
    rw [e] at h
    have hv2 := record_length_ge .normal v
    have hk2 := record_length_ge .normal k
    obtain ⟨r1, e1, h1⟩ := read_ok h hk.1 (by simp only [List.length_append]; omega)
    obtain ⟨r2, e2, h2⟩ := read_ok h1 hk.2 (by
      simp only [List.length_append]
      by_cases hv : v = []
      · cases l with
        | nil => exact absurd hv (hlast (k, v) rfl)
        | cons y l =>
          have := record_length_ge .normal y.1
          simp only [exportFile, List.flatMap_cons, List.length_append]; omega
      · have := record_nonempty_length (k := .normal) hv; omega)
    have hc := hset s k v
    rcases he : setf s k v with ⟨s1, c⟩
    rw [he] at hc
    dsimp only at hc
    subst hc
    obtain ⟨r', e', ha⟩ := ih (fun y hy => hs y (by simp [hy]))
      (fun y hy => hlast y (by
        cases l with
        | nil => simp at hy
        | cons z l => rw [List.getLast?_cons_cons]; exact hy)) r2 s1 f h2 (by omega)
    refine ⟨r', ?_, ha⟩
    rw [importLoop]
    simp only [e1, e2, he, List.foldl_cons]
    rw [e']
    congr 1
    simp only [List.length_cons]; omega

theorem importFile_fold {σ : Type} {setf : σ → Bytes → Bytes → σ × Code} (hset : ∀ s k v, (setf s k v).2 = .success) (info : Bytes) (hinfo : info ≠ [])
    (hsz : info.length < 2 ^ 49) (l : List (Bytes × Bytes)) (hs : Small l) (hlast : ∀ x, l.getLast? = some x → x.2 ≠ []) (s : σ) :
    importFile (saveFile info l) setf s = some (l.foldl (fun s x => (setf s x.1 x.2).1) s, .success) := by
  have hlen := exportFile_length_ge l
  have h3 := record_nonempty_length (k := .metadata) hinfo
  have hll : (saveFile info l).length = (record .metadata info).length + (exportFile l).length := by simp [saveFile]
  obtain ⟨r1, e1, h1⟩ := read_ok (At.new (saveFile info l) 0) hsz (by rw [List.length_append]; omega)
  obtain ⟨r', e, ha⟩ := importLoop_fold hset (file := saveFile info l) l hs hlast r1 s (saveFile info l).length h1 (by omega)
  obtain ⟨r2, e2⟩ := read_fin ha (by simp)
  rw [importFile, importLoop]
  simp only [e1]
  rw [e]
  obtain ⟨f, hf⟩ : ∃ f, (saveFile info l).length - l.length = f + 1 := ⟨(saveFile info l).length - l.length - 1, by omega⟩
  rw [hf, importLoop]
  simp only [e2]
  rfl

end Verif.Flat
