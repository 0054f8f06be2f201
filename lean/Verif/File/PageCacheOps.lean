import Verif.File.PageCacheLemmas
/-
Lemmas for the operations of the page cache: the requests, the loops of reading and writing, and the flushing.
-/
namespace Verif.PageCache
open Verif

/-- Memory after bytes are stored at a position. -/
def putAt (v : Nat → UInt8) (off : Nat) (data : Bytes) : Nat → UInt8 :=
  fun pos => if off ≤ pos ∧ pos < off + data.length then (data[pos - off]?).getD 0 else v pos

/-- Positions, with those of a region. -/
def withRange (V : Nat → Prop) (off n : Nat) : Nat → Prop := fun pos => V pos ∨ (off ≤ pos ∧ pos < off + n)

theorem putAt_nil (v : Nat → UInt8) (off : Nat) : putAt v off [] = v := by
  funext pos
  unfold putAt
  rw [if_neg (by simp only [List.length_nil]; omega)]

theorem putAt_append (v : Nat → UInt8) (off : Nat) (a b : Bytes) : putAt (putAt v off a) (off + a.length) b = putAt v off (a ++ b) := by
  funext pos
  unfold putAt
  simp only [List.length_append]
  by_cases h1 : off + a.length ≤ pos ∧ pos < off + a.length + b.length
  · rw [if_pos h1, if_pos (by omega), List.getElem?_append_right (by omega)]
    congr 2; omega
  · rw [if_neg h1]
    by_cases h2 : off ≤ pos ∧ pos < off + a.length
    · rw [if_pos h2, if_pos (by omega), List.getElem?_append_left (by omega)]
    · rw [if_neg h2, if_neg (by omega)]

theorem overwrite_get {b data : Bytes} {pre : Nat} (h : pre + data.length ≤ b.length) (j : Nat) :
    (overwrite b pre data)[j]? = if pre ≤ j ∧ j < pre + data.length then data[j - pre]? else b[j]? := by
  unfold overwrite
  by_cases h1 : j < pre
  · rw [if_neg (by omega), List.append_assoc, List.getElem?_append_left (by rw [List.length_take]; omega), List.getElem?_take, if_pos h1]
  · rw [List.append_assoc, List.getElem?_append_right (by rw [List.length_take]; omega), List.length_take, Nat.min_eq_left (by omega)]
    by_cases h2 : j < pre + data.length
    · rw [if_pos ⟨by omega, h2⟩, List.getElem?_append_left (by omega)]
    · rw [if_neg (by omega), List.getElem?_append_right (by omega), List.getElem?_drop]
      congr 1; omega

theorem overwrite_length {b data : Bytes} {pre : Nat} (h : pre + data.length ≤ b.length) : (overwrite b pre data).length = b.length := by
  unfold overwrite
  simp only [List.length_append, List.length_take, List.length_drop]
  omega

/-- Storing bytes in a prepared page. -/
theorem put_spec {e : Env} (hP0 : 0 < e.page) {V : Nat → Prop} {i : Nat} {ps : Pages} {d : Disk} (h : SlotOk e V i ps d) {off pre : Nat} {data : Bytes}
    (hoff : off % e.page = 0) (hi : slotIndex e off = i) {ps' : Pages} {p' : Page} (hl : pre + data.length ≤ p'.buf.length)
    (hP : p'.buf.length ≤ e.page) (hget : ∀ x, x ≠ off → get ps' x = get ps x)
    (hin : ∀ j, j < p'.buf.length → V (off + j) → ¬ (pre ≤ j ∧ j < pre + data.length) → p'.buf[j]? = some (lv e ps d (off + j)))
    (hout : ∀ j, p'.buf.length ≤ j → j < e.page → lv e ps d (off + j) = d.data (off + j)) :
    SlotOk e (withRange V (off + pre) data.length) i (set ps' off ⟨overwrite p'.buf pre data, true⟩) d ∧
    ∀ pos, withRange V (off + pre) data.length pos → lv e (set ps' off ⟨overwrite p'.buf pre data, true⟩) d pos =
      putAt (lv e ps d) (off + pre) data pos := by
  have hrange : ∀ pos, pos / e.page * e.page ≠ off → ¬ (off + pre ≤ pos ∧ pos < off + pre + data.length) := by
    intro pos hne hc
    apply hne
    have := (div_base (j := pos - off) hoff (by omega)).1
    rwa [show off + (pos - off) = pos by omega] at this
  constructor
  · intro k p hk
    rw [get_set] at hk
    by_cases hx : k = off
    · rw [if_pos hx] at hk
      cases hk
      subst hx
      refine ⟨hoff, hi, ?_, fun hd => ?_⟩
      · simp only; rw [overwrite_length hl]; exact hP
      · simp at hd
    · rw [if_neg hx, hget k hx] at hk
      obtain ⟨h1, h2, h3, h4⟩ := h k p hk
      refine ⟨h1, h2, h3, fun hd j hj hV => ?_⟩
      rcases hV with hV | hV
      · exact h4 hd j hj hV
      · exact absurd hV (hrange _ (by rw [(div_base h1 (by omega)).1]; exact hx))
  · intro pos hV
    by_cases hx : pos / e.page * e.page = off
    · have hj := Nat.mod_lt pos hP0
      have hpos : off + pos % e.page = pos := by rw [← hx]; exact base_add _ _
      have hlv : lv e (set ps' off ⟨overwrite p'.buf pre data, true⟩) d pos =
          ((overwrite p'.buf pre data)[pos % e.page]?).getD (d.data pos) := by
        conv => lhs; rw [← hpos]
        unfold lv
        rw [atPos_add hoff hj, get_set, if_pos rfl, hpos]
        rfl
      rw [hlv, overwrite_get hl]
      unfold putAt
      by_cases hr : pre ≤ pos % e.page ∧ pos % e.page < pre + data.length
      · rw [if_pos hr, if_pos (by omega), show pos - (off + pre) = pos % e.page - pre by omega,
          List.getElem?_eq_getElem (show pos % e.page - pre < data.length by omega)]
        rfl
      · rw [if_neg hr, if_neg (by omega)]
        by_cases hlt : pos % e.page < p'.buf.length
        · have hV' : V (off + pos % e.page) := by
            rcases hV with hV | hV
            · rw [hpos]; exact hV
            · omega
          rw [hin _ hlt hV' hr, hpos]; rfl
        · have := hout _ (by omega) hj
          rw [hpos] at this
          rw [List.getElem?_eq_none (by omega), this]; rfl
    · unfold putAt
      rw [if_neg (hrange pos hx)]
      unfold lv atPos
      rw [get_set, if_neg hx, hget _ hx]

/-! ### The requests -/

/-- The requests cover the region from `pos` to `fin`, page by page. -/
def Tiles (P : Nat) : Nat → List Req → Nat → Prop
  | pos, [], fin => pos = fin
  | pos, r :: rs, fin => r.off = pos / P * P ∧ r.pre = pos % P ∧ r.pre + r.copy ≤ r.size ∧ r.size ≤ P ∧ (r.pre = 0 → 0 < r.copy) ∧
      (rs ≠ [] → r.pre + r.copy = P) ∧ Tiles P (pos + r.copy) rs fin

theorem pageRequests_tiles {e : Env} (hP0 : 0 < e.page) (region : Nat) : ∀ (fuel off size : Nat), size ≤ fuel → off % e.page = 0 →
    Tiles e.page off (pageRequests e region fuel off size) (off + size)
  | 0, off, size, hf, _ => by
    have : size = 0 := by omega
    subst this
    exact rfl
  | fuel + 1, off, size, hf, hoff => by
    unfold pageRequests
    by_cases h0 : size = 0
    · rw [if_pos h0, h0]; exact rfl
    · rw [if_neg h0]
      simp only
      have hbase : off / e.page * e.page = off := by have := base_add e.page off; omega
      refine ⟨hbase.symm, hoff.symm, ?_, ?_, ?_, ?_, ?_⟩
      · simp only; omega
      · simp only; omega
      · intro _; simp only; omega
      · intro hne
        simp only
        by_cases hle : size ≤ e.page
        · exfalso
          apply hne
          rw [Nat.min_eq_left hle, Nat.sub_self]
          cases fuel <;> simp [pageRequests]
        · omega
      · simp only
        by_cases hle : size ≤ e.page
        · rw [Nat.min_eq_left hle, Nat.sub_self]
          have : pageRequests e region fuel (off + size) 0 = [] := by cases fuel <;> simp [pageRequests]
          rw [this]
          exact rfl
        · rw [Nat.min_eq_right (by omega)]
          have := pageRequests_tiles hP0 region fuel (off + e.page) (size - e.page) (by omega) (by rw [Nat.add_mod_right]; exact hoff)
          rwa [show off + e.page + (size - e.page) = off + size by omega] at this

theorem makeRequests_tiles {e : Env} (hP0 : 0 < e.page) (region off size : Nat) :
    Tiles e.page off (makeRequests e region off size) (off + size) := by
  have hb := base_add e.page off
  have hlt := Nat.mod_lt off hP0
  unfold makeRequests
  simp only
  by_cases hr : off % e.page = 0
  · rw [if_neg (by simpa using hr)]
    exact pageRequests_tiles hP0 region size off size (Nat.le_refl _) hr
  · rw [if_pos hr]
    refine ⟨by simp only; omega, rfl, by simp only; omega, Nat.le_refl _, ?_, ?_, ?_⟩
    · intro h; exact absurd h hr
    · intro hne
      simp only
      by_cases hle : size ≤ e.page - off % e.page
      · exfalso
        apply hne
        rw [Nat.min_eq_left hle, Nat.sub_self]
        rfl
      · omega
    · simp only
      by_cases hle : size ≤ e.page - off % e.page
      · rw [Nat.min_eq_left hle, Nat.sub_self]
        exact rfl
      · rw [Nat.min_eq_right (by omega)]
        have hmod : (off + (e.page - off % e.page)) % e.page = 0 := by
          rw [show off + (e.page - off % e.page) = off / e.page * e.page + e.page by omega, Nat.add_mod_right]
          exact base_mod _ _
        have := pageRequests_tiles hP0 region (size - (e.page - off % e.page)) (off + (e.page - off % e.page))
          (size - (e.page - off % e.page)) (Nat.le_refl _) hmod
        rwa [show off + (e.page - off % e.page) + (size - (e.page - off % e.page)) = off + size by omega] at this

theorem Tiles.le {P : Nat} : ∀ {rs : List Req} {pos fin : Nat}, Tiles P pos rs fin → pos ≤ fin
  | [], _, _, h => Nat.le_of_eq h
  | r :: rs, pos, fin, ⟨_, _, _, _, _, _, h⟩ => by have := Tiles.le h; omega

/-- The place of a request. -/
theorem Tiles.head {P : Nat} (hP0 : 0 < P) {r : Req} {rs : List Req} {pos fin : Nat} (h : Tiles P pos (r :: rs) fin) :
    r.off % P = 0 ∧ r.off + r.pre = pos ∧ r.pre < P ∧ r.pre + r.copy ≤ r.size ∧ r.size ≤ P := by
  obtain ⟨h1, h2, h3, h4, _⟩ := h
  refine ⟨by rw [h1]; exact base_mod _ _, by rw [h1, h2]; exact base_add _ _, by rw [h2]; exact Nat.mod_lt _ hP0, h3, h4⟩

theorem Tiles.next {P : Nat} (hP0 : 0 < P) {r r' : Req} {rs : List Req} {pos fin : Nat} (h : Tiles P pos (r :: r' :: rs) fin) :
    r.size = P ∧ r'.off = r.off + r.size ∧ r'.pre = 0 ∧ r.pre + r.copy = P := by
  obtain ⟨a1, a2, a3, a4, a5⟩ := h.head hP0
  obtain ⟨_, _, _, _, _, hf, h'⟩ := h
  have hf := hf (by simp)
  obtain ⟨b1, b2, _⟩ := h'
  have hpos : pos + r.copy = r.off + P := by omega
  rw [hpos] at b1 b2
  have hm : (r.off + P) % P = 0 := by rw [Nat.add_mod_right]; exact a1
  have := base_add P (r.off + P)
  refine ⟨by omega, by omega, by omega, hf⟩

theorem le_align {P k f : Nat} (hP0 : 0 < P) (hk : k % P = 0) (h : k < f) : k + P ≤ align f P := by
  have hf := base_add P f
  have hkk := base_add P k
  have hlt := Nat.mod_lt f hP0
  unfold align
  by_cases hm : f % P > 0
  · rw [if_pos hm]
    have : k / P ≤ f / P := Nat.div_le_div_right (by omega)
    have := Nat.mul_le_mul_right P this
    omega
  · rw [if_neg hm]
    have h1 : k / P * P < f / P * P := by omega
    have h2 : k / P < f / P := Nat.lt_of_mul_lt_mul_right h1
    have := Nat.mul_le_mul_right P (show k / P + 1 ≤ f / P from h2)
    rw [Nat.add_mul] at this
    omega

def total (rs : List Req) : Nat := (rs.map (·.size)).sum

theorem Tiles.last {P : Nat} (hP0 : 0 < P) : ∀ {rs : List Req} {r : Req} {pos fin : Nat}, Tiles P pos (r :: rs) fin →
    ∃ l, (r :: rs).getLast? = some l ∧ l.off + l.size = r.off + total (r :: rs) ∧ l.off + P ≤ align fin P ∧ l.size ≤ P
  | [], r, pos, fin, h => by
    obtain ⟨a1, a2, a3, a4, a5⟩ := h.head hP0
    obtain ⟨_, _, _, _, hc, _, he⟩ := h
    refine ⟨r, rfl, by simp [total], le_align hP0 a1 ?_, a5⟩
    have : pos + r.copy = fin := he
    rcases Nat.eq_zero_or_pos r.pre with h0 | h0
    · have := hc h0; omega
    · omega
  | r' :: rs, r, pos, fin, h => by
    obtain ⟨b1, b2, b3, b4⟩ := h.next hP0
    obtain ⟨_, _, _, _, _, _, h'⟩ := h
    obtain ⟨l, hl, h1, h2, h3⟩ := Tiles.last hP0 h'
    refine ⟨l, by rw [List.getLast?_cons_cons]; exact hl, ?_, h2, h3⟩
    rw [h1, b2]
    simp [total]
    omega

theorem areaSize_eq {P : Nat} (hP0 : 0 < P) {rs : List Req} {r : Req} {pos fin : Nat} (h : Tiles P pos (r :: rs) fin) :
    areaSize (r :: rs) = total (r :: rs) ∧ r.off + total (r :: rs) ≤ align fin P := by
  obtain ⟨l, hl, h1, h2, h3⟩ := h.last hP0
  unfold areaSize
  rw [hl]
  simp only [List.head?_cons]
  omega

/-- An area of bytes from which the pages of the requests are made; a byte that is exempt may be anything. -/
def AreaOk (d : Disk) (X : Req → Nat → Prop) : List Req → Bytes → Prop
  | [], _ => True
  | r :: rs, area => r.size ≤ area.length ∧ (∀ j, j < r.size → X r j ∨ area[j]? = some (d.data (r.off + j))) ∧ AreaOk d X rs (area.drop r.size)

theorem areaOk_of {e : Env} (hP0 : 0 < e.page) {d : Disk} {X : Req → Nat → Prop} : ∀ {rs : List Req} {r : Req} {pos fin : Nat} {area : Bytes}
    {skip : Nat}, Tiles e.page pos (r :: rs) fin → area.length = total (r :: rs) →
    (∀ j, skip ≤ j → j < area.length → area[j]? = some (d.data (r.off + j))) → skip ≤ fullSize e (r :: rs) area.length →
    (0 < skip → ∀ r : Req, r.pre = 0 → r.copy = e.page → ∀ j, j < e.page → X r j) → AreaOk d X (r :: rs) area
  | rs, r, pos, fin, area, skip, ht, hl, hj, hs, hX => by
    obtain ⟨a1, a2, a3, a4, a5⟩ := ht.head hP0
    have htot : total (r :: rs) = r.size + total rs := by simp [total]
    have hpiece : ∀ j, j < r.size → X r j ∨ area[j]? = some (d.data (r.off + j)) := by
      intro j hjs
      by_cases hsj : skip ≤ j
      · exact .inr (hj j hsj (by omega))
      · left
        unfold fullSize at hs
        split at hs
        · rename_i hc
          exact hX (by omega) r (by omega) hc.1 j (by omega)
        · omega
    refine ⟨by omega, hpiece, ?_⟩
    cases rs with
    | nil => trivial
    | cons r' rs =>
      obtain ⟨b1, b2, b3, b4⟩ := ht.next hP0
      have ht' := ht
      obtain ⟨_, _, _, _, _, _, ht'⟩ := ht'
      refine areaOk_of (skip := skip - r.size) hP0 ht' (by rw [List.length_drop]; omega) ?_ ?_ ?_
      · intro j hsj hjl
        rw [List.length_drop] at hjl
        rw [List.getElem?_drop, hj (r.size + j) (by omega) (by omega), b2, Nat.add_assoc]
      · unfold fullSize at hs
        rw [List.length_drop, b1]
        split at hs
        · omega
        · omega
      · intro h0
        exact hX (by omega)

theorem fullSize_all {e : Env} (hP0 : 0 < e.page) : ∀ {rs : List Req} {pos fin : Nat}, Tiles e.page pos rs fin → pos % e.page = 0 →
    fin % e.page = 0 → fullSize e rs (total rs) = total rs
  | [], _, _, _, _, _ => by simp [fullSize, total]
  | r :: rs, pos, fin, ht, hp, hf => by
    obtain ⟨a1, a2, a3, a4, a5⟩ := ht.head hP0
    have htot : total (r :: rs) = r.size + total rs := by simp [total]
    have ht' := ht
    obtain ⟨_, hpre, _, _, hc, hn, ht'⟩ := ht'
    rw [hp] at hpre
    have hc := hc hpre
    have hcopy : r.copy = e.page := by
      cases rs with
      | nil =>
        have : pos + r.copy = fin := ht'
        have h1 := base_add e.page pos
        have h2 : (pos + r.copy) % e.page = 0 := by rw [this]; exact hf
        have h3 : r.copy % e.page = 0 := by
          have := Nat.add_mod pos r.copy e.page
          rw [h2, hp, Nat.zero_add, Nat.mod_mod] at this
          exact this.symm
        by_cases hlt : r.copy < e.page
        · rw [Nat.mod_eq_of_lt hlt] at h3; omega
        · omega
      | cons r' rs => have := hn (by simp); omega
    unfold fullSize
    rw [if_pos ⟨hcopy, by omega⟩, show total (r :: rs) - e.page = total rs by omega,
      fullSize_all hP0 ht' (by rw [hcopy, Nat.add_mod_right]; exact hp) hf]
    omega

end Verif.PageCache
