import Verif.Poly.Spec
namespace Verif.Poly
open Verif Verif.Codec
open Verif.Text (lowered lowerCase map_lower)
open Verif.Path (pathToBaseName pathToExtension rfind rfind_spec stripSize sep dot)

theorem lowerCase_eq (s : Bytes) : lowerCase s = lowered s := map_lower s

theorem rfind_none {c : UInt8} : ∀ {s : Bytes}, c ∉ s → rfind c s = none
  | [], _ => rfl
  | b :: s, h => by
    simp only [List.mem_cons, not_or] at h
    rw [rfind, rfind_none h.2]
    exact if_neg (Ne.symm h.1)

theorem rfind_last {c : UInt8} {t : Bytes} (ht : c ∉ t) : ∀ s : Bytes, rfind c (s ++ c :: t) = some s.length
  | [] => by
    rw [List.nil_append, rfind, rfind_none ht]; simp
  | b :: s => by
    rw [List.cons_append, rfind, rfind_last ht s]; simp

theorem strip_body (body : Bytes) (hb : body ≠ []) (hl : body.getLast? ≠ some sep) (n : Nat) :
    ∀ k, k ≤ n → stripSize (body ++ List.replicate n sep) (body.length + k) = body.length := by
  intro k
  induction k with
  | zero =>
    intro _
    cases hlen : body.length with
    | zero => exact absurd (List.length_eq_zero_iff.mp hlen) hb
    | succ m =>
      rw [Nat.add_zero, stripSize, if_neg]
      rw [List.getElem?_append_left (by omega)]
      rw [List.getLast?_eq_getElem?, hlen] at hl
      simp only [Nat.add_sub_cancel] at hl
      simp only [Bool.and_eq_true, beq_iff_eq, not_and]
      exact fun _ => hl
  | succ k ih =>
    intro hk
    have h0 : 0 < body.length := List.length_pos_iff.mpr hb
    rw [← Nat.add_assoc, stripSize, if_pos]
    · exact ih (by omega)
    · rw [List.getElem?_append_right (by omega), List.getElem?_replicate, if_pos (by omega)]
      simp; omega

theorem strip_exists (p : Bytes) : ∀ n, n ≤ p.length → ∃ k, p.take n = p.take (stripSize p n) ++ List.replicate k sep := by
  intro n
  induction n with
  | zero => intro _; exact ⟨0, by simp [stripSize]⟩
  | succ n ih =>
    intro hn
    rw [stripSize]
    by_cases hc : (n + 1 > 1 && p[n]? == some sep) = true
    · rw [if_pos hc]
      obtain ⟨k, hk⟩ := ih (by omega)
      refine ⟨k + 1, ?_⟩
      simp only [Bool.and_eq_true, beq_iff_eq] at hc
      rw [List.take_succ, hc.2, hk, List.append_assoc, List.replicate_succ']; rfl
    · rw [if_neg hc]; exact ⟨0, by simp⟩

/-- The base name of a path whose last component is not empty. -/
theorem base_of (pre b : Bytes) (n : Nat) (hb : b ≠ []) (hs : sep ∉ b) :
    ∃ x, pathToBaseName (pre ++ b ++ List.replicate n sep) = x ++ b ∧ sep ∉ x ∧ ∃ y, pre = y ++ x := by
  have hne : pre ++ b ≠ [] := by simp [hb]
  have hlast : (pre ++ b).getLast? ≠ some sep := by
    rw [List.getLast?_append]
    cases hbl : b.getLast? with
    | none => exact absurd (List.getLast?_eq_none_iff.mp hbl) hb
    | some z =>
      simp only [Option.some_or]
      intro e; cases e
      exact hs (List.mem_of_getLast? hbl)
  have hst := strip_body (pre ++ b) hne hlast n n (Nat.le_refl _)
  have htake : (pre ++ b ++ List.replicate n sep).take (stripSize (pre ++ b ++ List.replicate n sep) (pre ++ b ++ List.replicate n sep).length) = pre ++ b := by
    have : (pre ++ b ++ List.replicate n sep).length = (pre ++ b).length + n := by simp; omega
    rw [this, hst, List.take_left']; rfl
  unfold pathToBaseName
  simp only [htake]
  rw [if_neg (by intro e; rw [e] at hlast; simp at hlast)]
  cases hr : rfind sep (pre ++ b) with
  | none =>
    have := (rfind_spec sep (pre ++ b)).1 hr
    exact ⟨pre, rfl, fun h => this (by simp [h]), [], rfl⟩
  | some i =>
    obtain ⟨h1, h2⟩ := (rfind_spec sep (pre ++ b)).2 i hr
    have hi : i < pre.length := by
      by_cases hlt : i < pre.length
      · exact hlt
      · exfalso
        have hg : (pre ++ b)[i]? = some sep := by
          rw [h1]
          have hil : i < (pre ++ b).length := by
            by_cases h : i < (pre ++ b).length
            · exact h
            · have h3 : ((pre ++ b).take i).length = (pre ++ b).length := by rw [List.take_of_length_le (by omega)]
              have := congrArg List.length h1
              generalize pre ++ b = z at *
              rw [List.length_append, h3] at this
              simp at this
          rw [List.getElem?_append_right (by rw [List.length_take]; omega), List.length_take, Nat.min_eq_left (by omega), Nat.sub_self]
          rfl
        rw [List.getElem?_append_right (by omega)] at hg
        exact hs (List.mem_of_getElem? hg)
    refine ⟨pre.drop (i + 1), ?_, ?_, pre.take (i + 1), (List.take_append_drop _ _).symm⟩
    · show (pre ++ b).drop (i + 1) = _
      rw [List.drop_append_of_le_length (by omega)]
    · rw [List.drop_append_of_le_length (by omega)] at h2
      exact fun h => h2 (by simp [h])

theorem lower_eq_iff {x c : UInt8} (hc : c = ch '.' ∨ c = ch '-' ∨ c = ch '/') (h : lowered [x] = [c]) : x = c := by
  simp only [lowered, List.map_cons, List.map_nil, List.cons.injEq, and_true] at h
  split at h
  · rename_i hx
    exfalso
    have := congrArg UInt8.toNat h
    rw [UInt8.toNat_ofNat', Nat.mod_eq_of_lt (by omega)] at this
    rcases hc with rfl | rfl | rfl
    · have e : (ch '.').toNat = 46 := by decide
      omega
    · have e : (ch '-').toNat = 45 := by decide
      omega
    · have e : (ch '/').toNat = 47 := by decide
      omega
  · exact h

theorem lowered_cons (x : UInt8) (s : Bytes) : lowered (x :: s) = lowered [x] ++ lowered s := rfl
theorem lowered_append (s t : Bytes) : lowered (s ++ t) = lowered s ++ lowered t := List.map_append

theorem lowered_single (x : UInt8) : ∃ y, lowered [x] = [y] := ⟨_, rfl⟩

theorem mem_lowered {c : UInt8} (hc : c = ch '.' ∨ c = ch '-' ∨ c = ch '/') {s : Bytes} : c ∈ lowered s ↔ c ∈ s := by
  have hcc : lowered [c] = [c] := by rcases hc with rfl | rfl | rfl <;> decide
  constructor
  · intro h
    obtain ⟨x, hx, he⟩ := List.mem_map.mp h
    have : x = c := lower_eq_iff hc (by rw [← he]; rfl)
    rwa [← this]
  · intro h
    refine List.mem_map.mpr ⟨c, h, ?_⟩
    have := hcc
    simpa [lowered] using this

theorem lowered_ch {c : UInt8} (hc : c = ch '.' ∨ c = ch '-' ∨ c = ch '/') : lowered [c] = [c] := by
  rcases hc with rfl | rfl | rfl <;> decide

theorem takeWhile_lowered (s : Bytes) : (lowered s).takeWhile (· ≠ ch '-') = lowered (s.takeWhile (· ≠ ch '-')) := by
  induction s with
  | nil => rfl
  | cons x s ih =>
    obtain ⟨y, hy⟩ := lowered_single x
    rw [lowered_cons, hy, List.singleton_append, List.takeWhile_cons, List.takeWhile_cons]
    by_cases hx : x = ch '-'
    · subst hx
      rw [lowered_ch (by simp)] at hy
      cases hy; simp [lowered]
    · have : y ≠ ch '-' := fun e => hx (lower_eq_iff (by simp) (by rw [hy, e]))
      rw [if_pos (by simpa using this), if_pos (by simpa using hx), ih, lowered_cons x, hy]; rfl

/-- An extension that names a class. -/
def Plain (w : Bytes) : Prop := w ≠ [] ∧ ch '.' ∉ w ∧ ch '-' ∉ w ∧ ch '/' ∉ w

theorem guessExt_iff (path w : Bytes) (hw : Plain w) (hl : lowered w = w) : guessExt path = w ↔ HasExt path w := by
  obtain ⟨w0, w1, w2, w3⟩ := hw
  have hsep : sep = ch '/' := by decide
  have hdot : dot = ch '.' := by decide
  constructor
  · intro h
    unfold guessExt at h
    rw [lowerCase_eq] at h
    have hbase := (Path.C45_dir_base path).2.1
    have hns : sep ∉ pathToBaseName path := by
      rcases hbase with hb | ⟨hb, -, -⟩
      · exact hb
      · exfalso
        rw [hb] at h
        exact w0 (by rw [← h]; decide)
    have hbne : pathToBaseName path ≠ [] := by
      intro e; rw [e] at h; exact w0 (by rw [← h]; decide)
    generalize hB : pathToBaseName path = B at *
    have hns' : sep ∉ lowered B := by rw [hsep, mem_lowered (by simp), ← hsep]; exact hns
    have hBne' : lowered B ≠ [] := by simpa [lowered] using hbne
    have hbb : pathToBaseName (lowered B) = lowered B := by
      obtain ⟨x, hx, -, y, hy⟩ := base_of [] (lowered B) 0 hBne' hns'
      have : x = [] := by
        cases x with
        | nil => rfl
        | cons a x => simp at hy
      simpa [this] using hx
    unfold pathToExtension at h
    rw [hbb] at h
    cases hr : rfind dot (lowered B) with
    | none => rw [hr] at h; exact absurd h.symm w0
    | some i =>
      rw [hr] at h
      obtain ⟨h1, h2⟩ := (rfind_spec dot (lowered B)).2 i hr
      have hd : ∀ j, (lowered B).drop j = lowered (B.drop j) := fun j => by simp [lowered, List.map_drop]
      have ht : ∀ j, (lowered B).take j = lowered (B.take j) := fun j => by simp [lowered, List.map_take]
      dsimp only at h
      rw [hd] at h h1 h2
      rw [takeWhile_lowered] at h
      have hil : i < B.length := by
        have := congrArg List.length h1
        simp [lowered] at this
        omega
      have hBi : B = B.take i ++ ch '.' :: B.drop (i + 1) := by
        have e : B = B.take i ++ B[i] :: B.drop (i + 1) := by
          rw [List.getElem_cons_drop, List.take_append_drop]
        have : B[i] = ch '.' := by
          apply lower_eq_iff (by simp)
          rw [ht] at h1
          have h3 : lowered B = lowered (B.take i) ++ (lowered [B[i]] ++ lowered (B.drop (i + 1))) := by
            rw [← lowered_cons, ← lowered_append, ← e]
          have h4 := List.append_cancel_left (h3.symm.trans h1)
          obtain ⟨y, hy⟩ := lowered_single B[i]
          rw [hy] at h4 ⊢
          rw [List.singleton_append] at h4
          injection h4 with h5 _
          rw [h5, hdot]
        rw [this] at e; exact e
      -- the path
      have hpath : ∃ pre n, path = pre ++ B ++ List.replicate n sep := by
        obtain ⟨k, hk⟩ := strip_exists path path.length (Nat.le_refl _)
        rw [List.take_length] at hk
        unfold pathToBaseName at hB
        dsimp only at hB
        split at hB
        · rename_i htmp
          exact ⟨[], k, by rw [List.nil_append, ← hB]; exact hk⟩
        · split at hB
          · exact ⟨[], k, by rw [List.nil_append, ← hB]; exact hk⟩
          · rename_i pos _
            refine ⟨(path.take (stripSize path path.length)).take (pos + 1), k, ?_⟩
            rw [← hB, List.take_append_drop]; exact hk
      obtain ⟨pre, n, hpath⟩ := hpath
      refine ⟨pre ++ B.take i, (B.drop (i + 1)).takeWhile (· ≠ ch '-'), (B.drop (i + 1)).dropWhile (· ≠ ch '-'), n, ?_, ?_, ?_, ?_, ?_⟩
      · rw [List.takeWhile_append_dropWhile, List.append_assoc pre, ← hBi, hpath, hsep]
      · show lowered _ = lowered w
        rw [h, hl]
      · cases hdw : (B.drop (i + 1)).dropWhile (· ≠ ch '-') with
        | nil => exact Or.inl rfl
        | cons a t =>
          right
          have := List.head?_dropWhile_not (· ≠ ch '-') (B.drop (i + 1))
          rw [hdw] at this
          simpa using this
      · intro hm
        have := (List.dropWhile_sublist (· ≠ ch '-') (l := B.drop (i + 1))).subset hm
        rw [hdot, mem_lowered (by simp)] at h2
        exact h2 this
      · intro hm
        have := (List.dropWhile_sublist (· ≠ ch '-') (l := B.drop (i + 1))).subset hm
        rw [hsep] at hns
        exact hns (List.mem_of_mem_drop this)
  · rintro ⟨pre, ext, tail, n, rfl, hsame, htail, t1, t2⟩
    have hsame : lowered ext = w := by rw [← hl]; exact hsame
    have e1 : ch '.' ∉ ext := by rw [← mem_lowered (by simp), hsame]; exact w1
    have e2 : ch '-' ∉ ext := by rw [← mem_lowered (by simp), hsame]; exact w2
    have e3 : ch '/' ∉ ext := by rw [← mem_lowered (by simp), hsame]; exact w3
    obtain ⟨x, hx, hxs, -⟩ := base_of pre (ch '.' :: (ext ++ tail)) n (by simp) (by
      rw [hsep]; simp only [List.mem_cons, List.mem_append, not_or]
      exact ⟨by decide, e3, t2⟩)
    unfold guessExt
    rw [← hsep, hx, lowerCase_eq, lowered_append, lowered_cons, lowered_ch (by simp), List.singleton_append, lowered_append, hsame]
    unfold pathToExtension
    have hB : pathToBaseName (lowered x ++ ch '.' :: (w ++ lowered tail)) = lowered x ++ ch '.' :: (w ++ lowered tail) := by
      obtain ⟨z, hz, -, y, hy⟩ := base_of [] (lowered x ++ ch '.' :: (w ++ lowered tail)) 0 (by simp) (by
        rw [hsep] at hxs ⊢
        simp only [List.mem_cons, List.mem_append, not_or]
        refine ⟨?_, by decide, w3, ?_⟩
        · rw [mem_lowered (by simp)]; exact hxs
        · rw [mem_lowered (by simp)]; exact t2)
      have : z = [] := by
        cases z with
        | nil => rfl
        | cons a z => simp at hy
      simpa [this] using hz
    rw [hB, hdot, rfind_last (by
      simp only [List.mem_append, not_or]
      exact ⟨w1, by rw [mem_lowered (by simp)]; exact t1⟩)]
    dsimp only
    have hdrop : (lowered x ++ ch '.' :: (w ++ lowered tail)).drop ((lowered x).length + 1) = w ++ lowered tail := by
      rw [List.drop_append]; simp
    rw [hdrop, List.takeWhile_append_of_pos (by
      intro a ha; simp only [ne_eq, decide_not, Bool.not_eq_true', decide_eq_false_iff_not]; intro e; exact w2 (e ▸ ha))]
    rcases htail with rfl | ht
    · simp [lowered]
    · cases tail with
      | nil => simp at ht
      | cons a t =>
        simp only [List.head?_cons, Option.some.injEq] at ht
        subst ht
        rw [lowered_cons, lowered_ch (by simp)]; simp

end Verif.Poly
