import Verif.File.PageCache
/-
Lemmas for the page cache: the bytes that a reader sees through it do not change when pages are loaded, moved, written or evicted.
-/
namespace Verif.PageCache
open Verif

/-! ### The map of a slot -/

theorem get_append (a b : Pages) (x : Nat) : get (a ++ b) x = (get a x).or (get b x) := by
  induction a with
  | nil => simp [get]
  | cons r a ih =>
    obtain ⟨k, p⟩ := r
    simp only [List.cons_append, get]
    split
    · rfl
    · exact ih

theorem get_del (ps : Pages) (k x : Nat) : get (del ps k) x = if x = k then none else get ps x := by
  induction ps with
  | nil => simp [del, get]
  | cons r ps ih =>
    obtain ⟨k', p⟩ := r
    unfold del at ih ⊢
    by_cases h : k' = k
    · subst h
      rw [List.filter_cons_of_neg (by simp), ih]
      by_cases hx : x = k'
      · simp [hx]
      · simp only [get, if_neg hx, if_neg (Ne.symm hx)]
    · rw [List.filter_cons_of_pos (by simpa using h)]
      simp only [get]
      by_cases hx : k' = x
      · subst hx
        simp [h]
      · simp only [if_neg hx, ih]

theorem get_moveLast (ps : Pages) (k x : Nat) : get (moveLast ps k) x = get ps x := by
  unfold moveLast
  split
  · rename_i p h
    rw [get_append, get_del]
    by_cases hx : x = k
    · subst hx
      simp [get, h]
    · simp [hx, get, Ne.symm hx]
  · rfl

theorem get_map_set (ps : Pages) (k x : Nat) (p : Page) : get (ps.map fun r => if r.1 = k then (k, p) else r) x =
    if x = k then (get ps k).map fun _ => p else get ps x := by
  induction ps with
  | nil => simp [get]
  | cons r ps ih =>
    obtain ⟨k', p'⟩ := r
    simp only [List.map_cons]
    by_cases h : k' = k
    · subst h
      rw [if_pos rfl]
      simp only [get]
      by_cases hx : x = k'
      · subst hx; simp
      · rw [if_neg (Ne.symm hx), ih, if_neg hx, if_neg hx, if_neg (Ne.symm hx)]
    · rw [if_neg h]
      simp only [get, if_neg h]
      by_cases hx : k' = x
      · subst hx; simp [h]
      · rw [if_neg hx, ih, if_neg hx]

theorem get_set (ps : Pages) (k x : Nat) (p : Page) : get (set ps k p) x = if x = k then some p else get ps x := by
  unfold set
  cases h : get ps k with
  | none =>
    rw [get_append]
    by_cases hx : x = k
    · subst hx; simp [h, get]
    · simp [hx, get, Ne.symm hx]
  | some q =>
    simp only
    rw [get_map_set, h]
    rfl

/-! ### What is seen -/

/-- The byte of a page of the slot at a position. -/
def atPos (e : Env) (ps : Pages) (pos : Nat) : Option UInt8 := (get ps (pos / e.page * e.page)).bind fun p => p.buf[pos % e.page]?

/-- The byte at a position, seen through a slot. -/
def lv (e : Env) (ps : Pages) (d : Disk) (pos : Nat) : UInt8 := (atPos e ps pos).getD (d.data pos)

/-- The byte at a position, seen through the cache. -/
def view (e : Env) (s : State) (pos : Nat) : UInt8 := lv e (s.slots (slotIndex e pos)) s.disk pos

/-- The pages of a slot are at multiples of the page size, belong to the slot, are not too long, and are as the file, at the positions of `V`, if they are clean. -/
def SlotOk (e : Env) (V : Nat → Prop) (i : Nat) (ps : Pages) (d : Disk) : Prop :=
  ∀ k p, get ps k = some p → k % e.page = 0 ∧ slotIndex e k = i ∧ p.buf.length ≤ e.page ∧
    (p.dirty = false → ∀ j, j < p.buf.length → V (k + j) → p.buf[j]? = some (d.data (k + j)))

theorem div_base {P k j : Nat} (hk : k % P = 0) (hj : j < P) : (k + j) / P * P = k ∧ (k + j) % P = j := by
  obtain ⟨m, rfl⟩ : ∃ m, k = P * m := ⟨k / P, by have := Nat.div_add_mod k P; omega⟩
  have hP : 0 < P := by omega
  rw [Nat.mul_add_div hP, Nat.div_eq_of_lt hj, Nat.add_zero, Nat.mul_add_mod, Nat.mod_eq_of_lt hj, Nat.mul_comm]
  exact ⟨rfl, rfl⟩

theorem base_mod (P pos : Nat) : (pos / P * P) % P = 0 := Nat.mul_mod_left _ _

theorem base_add (P pos : Nat) : pos / P * P + pos % P = pos := by
  rw [Nat.mul_comm]; exact Nat.div_add_mod pos P

theorem slotIndex_base (e : Env) (pos : Nat) : slotIndex e (pos / e.page * e.page) = slotIndex e pos := by
  unfold slotIndex
  by_cases h : e.page = 0
  · simp [h]
  · rw [Nat.mul_div_cancel _ (Nat.pos_of_ne_zero h)]

theorem slotIndex_add {e : Env} {k j : Nat} (hk : k % e.page = 0) (hj : j < e.page) : slotIndex e (k + j) = slotIndex e k := by
  rw [← slotIndex_base, (div_base hk hj).1]

theorem atPos_add {e : Env} {ps : Pages} {k j : Nat} (hk : k % e.page = 0) (hj : j < e.page) :
    atPos e ps (k + j) = (get ps k).bind fun p => p.buf[j]? := by
  unfold atPos
  rw [(div_base hk hj).1, (div_base hk hj).2]

/-! ### Steps of a slot -/

/-- A change of the pages of a slot and of the file that a reader does not see. -/
structure SlotStep (e : Env) (V : Nat → Prop) (i : Nat) (ps : Pages) (d : Disk) (ps' : Pages) (d' : Disk) : Prop where
  ok : SlotOk e V i ps' d'
  same : ∀ pos, V pos → lv e ps' d' pos = lv e ps d pos
  other : ∀ pos, slotIndex e pos ≠ i → d'.data pos = d.data pos
  len : d.len ≤ d'.len

theorem SlotStep.refl {e : Env} {V : Nat → Prop} {i : Nat} {ps : Pages} {d : Disk} (h : SlotOk e V i ps d) : SlotStep e V i ps d ps d :=
  ⟨h, fun _ _ => rfl, fun _ _ => rfl, Nat.le_refl _⟩

theorem SlotStep.trans {e : Env} {V : Nat → Prop} {i : Nat} {ps ps' ps'' : Pages} {d d' d'' : Disk} (h : SlotStep e V i ps d ps' d')
    (h' : SlotStep e V i ps' d' ps'' d'') : SlotStep e V i ps d ps'' d'' :=
  ⟨h'.ok, fun p hv => (h'.same p hv).trans (h.same p hv), fun p hp => (h'.other p hp).trans (h.other p hp), Nat.le_trans h.len h'.len⟩

theorem SlotStep.ofGet {e : Env} {V : Nat → Prop} {i : Nat} {ps ps' : Pages} {d : Disk} (h : SlotOk e V i ps d) (hg : ∀ x, get ps' x = get ps x) :
    SlotStep e V i ps d ps' d := by
  refine ⟨?_, ?_, fun _ _ => rfl, Nat.le_refl _⟩
  · intro k p hk
    rw [hg] at hk
    exact h k p hk
  · intro pos _
    unfold lv atPos
    rw [hg]

/-- Consecutive pages of the slot from `k` on, full but for the last one. -/
def RunOk (e : Env) (ps : Pages) : Nat → Pages → Prop
  | _, [] => True
  | k, (x, p) :: r => x = k ∧ get ps k = some p ∧ (r = [] ∨ p.buf.length = e.page) ∧ RunOk e ps (k + e.page) r

def flat (run : Pages) : Bytes := run.flatMap fun r => r.2.buf

theorem flat_at {e : Env} {ps : Pages} (hlen : ∀ k p, get ps k = some p → p.buf.length ≤ e.page) :
    ∀ (run : Pages) (k : Nat), k % e.page = 0 → RunOk e ps k run → ∀ j, j < (flat run).length →
      atPos e ps (k + j) = (flat run)[j]?
  | [], _, _, _, j, hj => by simp [flat] at hj
  | (x, p) :: r, k, hk, ⟨hx, hg, hf, hr⟩, j, hj => by
    have hl := hlen k p hg
    have hflat : flat ((x, p) :: r) = p.buf ++ flat r := by simp [flat]
    rw [hflat] at hj ⊢
    by_cases hjp : j < p.buf.length
    · rw [atPos_add hk (by omega), hg, List.getElem?_append_left hjp]
      rfl
    · rcases hf with rfl | hf
      · simp [flat] at hj; omega
      · have := flat_at hlen r (k + e.page) (by simp [hk]) hr (j - e.page) (by rw [List.length_append] at hj; omega)
        rw [List.getElem?_append_right (by omega), hf]
        rw [← this]
        congr 1
        omega

theorem run_mem {e : Env} {ps : Pages} : ∀ (run : Pages) (k : Nat), RunOk e ps k run → ∀ x p, (x, p) ∈ run →
    get ps x = some p ∧ k ≤ x ∧ x + p.buf.length ≤ k + (flat run).length
  | [], _, _, x, p, h => by simp at h
  | (y, q) :: r, k, ⟨hy, hg, hf, hr⟩, x, p, h => by
    have hflat : flat ((y, q) :: r) = q.buf ++ flat r := by simp [flat]
    rw [hflat, List.length_append]
    rw [List.mem_cons] at h
    rcases h with h | h
    · cases h
      subst hy
      exact ⟨hg, Nat.le_refl _, by omega⟩
    · obtain ⟨h1, h2, h3⟩ := run_mem r (k + e.page) hr x p h
      rcases hf with rfl | hf
      · simp at h
      · exact ⟨h1, by omega, by omega⟩

theorem prevRun_ok {e : Env} {ps : Pages} : ∀ (n off : Nat) (tail : Pages), RunOk e ps off tail →
    RunOk e ps (runStart off (prevRun e ps n off)) (prevRun e ps n off ++ tail) ∧
    runStart off (prevRun e ps n off) % e.page = off % e.page
  | 0, off, tail, h => ⟨h, rfl⟩
  | n + 1, off, tail, h => by
    unfold prevRun
    by_cases hlt : off < e.page
    · rw [if_pos hlt]; exact ⟨h, rfl⟩
    · rw [if_neg hlt]
      cases hg : get ps (off - e.page) with
      | none => exact ⟨h, rfl⟩
      | some p =>
        simp only
        by_cases hc : (p.dirty && p.buf.length == e.page) = true
        · rw [if_pos hc]
          rw [Bool.and_eq_true, beq_iff_eq] at hc
          have hmod : (off - e.page) % e.page = off % e.page := by
            conv => rhs; rw [show off = (off - e.page) + e.page by omega]
            rw [Nat.add_mod_right]
          have hr : RunOk e ps (off - e.page) ((off - e.page, p) :: tail) :=
            ⟨rfl, hg, .inr hc.2, by rw [show off - e.page + e.page = off by omega]; exact h⟩
          have := prevRun_ok n (off - e.page) _ hr
          rw [List.append_assoc]
          cases hp : prevRun e ps n (off - e.page) with
          | nil =>
            rw [hp] at this
            exact ⟨this.1, this.2.trans hmod⟩
          | cons a l =>
            rw [hp] at this
            exact ⟨this.1, this.2.trans hmod⟩
        · rw [if_neg hc]; exact ⟨h, rfl⟩

theorem nextRun_ok {e : Env} {ps : Pages} : ∀ (n off : Nat), RunOk e ps off (nextRun e ps n off)
  | 0, _ => trivial
  | n + 1, off => by
    unfold nextRun
    cases hg : get ps off with
    | none => trivial
    | some p =>
      simp only
      split
      · split
        · rename_i hl
          exact ⟨rfl, hg, .inr hl, nextRun_ok n _⟩
        · exact ⟨rfl, hg, .inl rfl, trivial⟩
      · trivial

theorem get_clean : ∀ (run ps : Pages), (∀ k p, (k, p) ∈ run → ∃ q, get ps k = some q ∧ q.buf = p.buf) → ∀ x,
    get (clean ps run) x = (get ps x).map fun q => ⟨q.buf, q.dirty && !(run.any fun r => r.1 == x)⟩
  | [], ps, _, x => by
    cases h : get ps x <;> simp [clean, h]
  | (k, p) :: run, ps, h, x => by
    obtain ⟨q, hq, hqb⟩ := h k p List.mem_cons_self
    unfold clean
    rw [get_clean run]
    · rw [get_set]
      by_cases hx : x = k
      · subst hx
        rw [if_pos rfl, hq]
        simp [hqb]
      · rw [if_neg hx]
        cases hgx : get ps x with
        | none => rfl
        | some q' =>
          have : (k == x) = false := by simp [Ne.symm hx]
          simp [this]
    · intro k' p' hm
      rw [get_set]
      by_cases hk : k' = k
      · subst hk
        obtain ⟨q', hq', hb'⟩ := h k' p' (List.mem_cons_of_mem _ hm)
        rw [hq] at hq'
        cases hq'
        rw [if_pos rfl]
        exact ⟨_, rfl, by simp only; rw [← hqb, hb']⟩
      · rw [if_neg hk]
        exact h k' p' (List.mem_cons_of_mem _ hm)

theorem keys_set {ps : Pages} {k : Nat} {p q : Page} (h : get ps k = some q) : (set ps k p).map (·.1) = ps.map (·.1) := by
  unfold set
  rw [h]
  simp only [List.map_map]
  apply List.map_congr_left
  intro r _
  simp only [Function.comp]
  split
  · rename_i hh; exact hh.symm
  · rfl

theorem keys_clean : ∀ (run ps : Pages), (∀ k p, (k, p) ∈ run → ∃ q, get ps k = some q) → (clean ps run).map (·.1) = ps.map (·.1)
  | [], _, _ => rfl
  | (k, p) :: run, ps, h => by
    obtain ⟨q, hq⟩ := h k p List.mem_cons_self
    unfold clean
    rw [keys_clean run, keys_set hq]
    intro k' p' hm
    rw [get_set]
    by_cases hk : k' = k
    · exact ⟨_, if_pos hk⟩
    · rw [if_neg hk]; exact h k' p' (List.mem_cons_of_mem _ hm)

/-- `WritePages`: the page becomes clean, and nothing else is seen of it. -/
theorem writePages_spec {e : Env} {V : Nat → Prop} {i : Nat} {ps : Pages} {d : Disk} (h : SlotOk e V i ps d) {k : Nat} {p : Page} (hg : get ps k = some p) :
    SlotStep e V i ps d (writePages e ps d k p).1 (writePages e ps d k p).2 ∧
    get (writePages e ps d k p).1 k = some ⟨p.buf, false⟩ ∧
    (∀ x q, get (writePages e ps d k p).1 x = some q → q.dirty = true → get ps x = some q) ∧
    (writePages e ps d k p).1.map (·.1) = ps.map (·.1) := by
  obtain ⟨hk0, hki, hkl, _⟩ := h k p hg
  unfold writePages
  simp only
  generalize hn : (if p.buf.length = e.page then nextRun e ps 16 (k + e.page) else []) = next
  have htail : RunOk e ps k ((k, p) :: next) := by
    refine ⟨rfl, hg, ?_, ?_⟩
    · by_cases hl : p.buf.length = e.page
      · exact .inr hl
      · rw [if_neg hl] at hn; exact .inl hn.symm
    · rw [← hn]
      split
      · exact nextRun_ok _ _
      · trivial
  have hrun := prevRun_ok 16 k _ htail
  generalize hb : runStart k (prevRun e ps 16 k) = b at hrun ⊢
  generalize hr : prevRun e ps 16 k ++ (k, p) :: next = run at hrun ⊢
  rw [hk0] at hrun
  obtain ⟨hrun, hb0⟩ := hrun
  have hmem : ∀ x q, (x, q) ∈ run → ∃ q', get ps x = some q' ∧ q'.buf = q.buf := fun x q hm => ⟨q, (run_mem run b hrun x q hm).1, rfl⟩
  have hgc := get_clean run ps hmem
  have hkin : (k, p) ∈ run := by rw [← hr]; simp
  have hany : (run.any fun r => r.1 == k) = true := by
    rw [List.any_eq_true]; exact ⟨_, hkin, by simp⟩
  have hat := flat_at (fun k p hg => (h k p hg).2.2.1) run b hb0 hrun
  have hw : ∀ pos, (b ≤ pos ∧ pos < b + (flat run).length → atPos e ps pos = some ((d.write b (flat run)).data pos)) ∧
      (¬ (b ≤ pos ∧ pos < b + (flat run).length) → (d.write b (flat run)).data pos = d.data pos) := by
    intro pos
    constructor
    · intro hp
      have := hat (pos - b) (by omega)
      rw [show b + (pos - b) = pos by omega] at this
      rw [this]
      unfold Disk.write
      simp only
      rw [if_pos hp, List.getElem?_eq_getElem (by omega)]
      rfl
    · intro hp
      unfold Disk.write
      simp only
      rw [if_neg hp]
  have hbuf : ∀ x, atPos e (clean ps run) x = atPos e ps x := by
    intro x
    unfold atPos
    rw [hgc]
    cases get ps (x / e.page * e.page) <;> rfl
  refine ⟨⟨?_, ?_, ?_, ?_⟩, ?_, ?_, ?_⟩
  · intro x q hx
    rw [hgc] at hx
    cases hgx : get ps x with
    | none => rw [hgx] at hx; cases hx
    | some q0 =>
      rw [hgx] at hx
      simp only [Option.map_some, Option.some.injEq] at hx
      subst hx
      obtain ⟨h1, h2, h3, h4⟩ := h x q0 hgx
      refine ⟨h1, h2, h3, ?_⟩
      intro hd j hj hV
      simp only at hd hj ⊢
      have hatx : atPos e ps (x + j) = q0.buf[j]? := by
        rw [atPos_add h1 (by omega), hgx]; rfl
      by_cases hin : b ≤ x + j ∧ x + j < b + (flat run).length
      · rw [← hatx]
        exact (hw (x + j)).1 hin
      · show q0.buf[j]? = some ((d.write b (flat run)).data (x + j))
        rw [(hw (x + j)).2 hin]
        apply h4 _ j hj hV
        rw [Bool.and_eq_false_iff] at hd
        rcases hd with hd | hd
        · exact hd
        · exfalso
          simp only [Bool.not_eq_false'] at hd
          rw [List.any_eq_true] at hd
          obtain ⟨⟨y, qy⟩, hym, hyx⟩ := hd
          simp only [beq_iff_eq] at hyx
          subst hyx
          obtain ⟨hy1, hy2, hy3⟩ := run_mem run b hrun y qy hym
          rw [hgx] at hy1
          cases hy1
          exact hin ⟨by omega, by omega⟩
  · intro pos _
    unfold lv
    rw [hbuf]
    cases ha : atPos e ps pos with
    | some v => rfl
    | none =>
      simp only [Option.getD_none]
      by_cases hin : b ≤ pos ∧ pos < b + (flat run).length
      · rw [(hw pos).1 hin] at ha; cases ha
      · exact (hw pos).2 hin
  · intro pos hne
    by_cases hin : b ≤ pos ∧ pos < b + (flat run).length
    · exfalso
      have ha := (hw pos).1 hin
      unfold atPos at ha
      cases hgx : get ps (pos / e.page * e.page) with
      | none => rw [hgx] at ha; cases ha
      | some q =>
        have := (h _ q hgx).2.1
        rw [slotIndex_base] at this
        exact hne this
    · exact (hw pos).2 hin
  · show d.len ≤ (if (flat run).length = 0 then d.len else max d.len (b + (flat run).length))
    split <;> omega
  · rw [hgc, hg]
    simp [hany]
  · intro x q hx hd
    rw [hgc] at hx
    cases hgx : get ps x with
    | none => rw [hgx] at hx; cases hx
    | some q0 =>
      rw [hgx] at hx
      simp only [Option.map_some, Option.some.injEq] at hx
      subst hx
      simp only [Bool.and_eq_true] at hd
      congr 1
      cases q0
      simp only at hd
      simp [hd]
  · exact keys_clean run ps fun x q hm => ⟨q, (run_mem run b hrun x q hm).1⟩

/-- Removing a clean page is not seen. -/
theorem del_spec {e : Env} {V : Nat → Prop} {i : Nat} {ps : Pages} {d : Disk} (h : SlotOk e V i ps d) {k : Nat} {p : Page} (hg : get ps k = some p)
    (hc : p.dirty = false) : SlotStep e V i ps d (del ps k) d := by
  refine ⟨?_, ?_, fun _ _ => rfl, Nat.le_refl _⟩
  · intro x q hx
    rw [get_del] at hx
    split at hx
    · cases hx
    · exact h x q hx
  · intro pos hV
    unfold lv
    by_cases hx : pos / e.page * e.page = k
    · obtain ⟨h1, h2, h3, h4⟩ := h k p hg
      have ha : atPos e (del ps k) pos = none := by
        unfold atPos
        rw [get_del, if_pos hx]
        rfl
      rw [ha]
      have hb : atPos e ps pos = p.buf[pos % e.page]? := by
        unfold atPos
        rw [hx, hg]; rfl
      rw [hb]
      by_cases hj : pos % e.page < p.buf.length
      · rw [h4 hc _ hj (by rw [← hx, base_add]; exact hV), ← hx, base_add]; rfl
      · rw [List.getElem?_eq_none (by omega)]
    · unfold atPos
      rw [get_del, if_neg hx]

theorem reduceN_spec {e : Env} {V : Nat → Prop} {i : Nat} : ∀ (n : Nat) (ps : Pages) (d : Disk), SlotOk e V i ps d →
    SlotStep e V i ps d (reduceN e n ps d).1 (reduceN e n ps d).2
  | 0, ps, d, h => SlotStep.refl h
  | n + 1, ps, d, h => by
    unfold reduceN
    cases ps with
    | nil => exact SlotStep.refl h
    | cons r rest =>
      obtain ⟨k, p⟩ := r
      have hg : get ((k, p) :: rest) k = some p := by simp [get]
      simp only
      by_cases hd : p.dirty = true
      · rw [if_pos hd]
        obtain ⟨h1, h2, _, _⟩ := writePages_spec h hg
        have h3 := del_spec h1.ok h2 rfl
        exact (h1.trans h3).trans (reduceN_spec n _ _ h3.ok)
      · rw [if_neg hd]
        have h3 := del_spec h hg (by simpa using hd)
        exact h3.trans (reduceN_spec n _ _ h3.ok)

/-! ### The whole cache -/

structure Ok (e : Env) (V : Nat → Prop) (s : State) : Prop where
  slot : ∀ i, SlotOk e V i (s.slots i) s.disk

/-- A change of one slot: what is seen changes as told, at the positions of the slot only. -/
theorem Ok.change {e : Env} {V V' : Nat → Prop} {s : State} (h : Ok e V s) {i : Nat} {ps : Pages} {d : Disk} (hok : SlotOk e V' i ps d)
    (hVV : ∀ pos, slotIndex e pos ≠ i → V' pos → V pos)
    (hother : ∀ pos, slotIndex e pos ≠ i → d.data pos = s.disk.data pos) (v : Nat → UInt8)
    (hv : ∀ pos, slotIndex e pos = i → V' pos → lv e ps d pos = v pos) (hv' : ∀ pos, slotIndex e pos ≠ i → V' pos → v pos = view e s pos) :
    Ok e V' { s.setSlot i ps with disk := d } ∧ ∀ pos, V' pos → view e { s.setSlot i ps with disk := d } pos = v pos := by
  refine ⟨⟨?_⟩, ?_⟩
  · intro j
    simp only [State.setSlot]
    by_cases hj : j = i
    · subst hj
      rw [if_pos rfl]
      exact hok
    · rw [if_neg hj]
      intro k p hg
      obtain ⟨h1, h2, h3, h4⟩ := h.slot j k p hg
      refine ⟨h1, h2, h3, fun hd m hm hV => ?_⟩
      have hne : slotIndex e (k + m) ≠ i := by rw [slotIndex_add h1 (by omega), h2]; exact hj
      rw [hother _ hne]
      exact h4 hd m hm (hVV _ hne hV)
  · intro pos hV
    unfold view
    simp only [State.setSlot]
    by_cases hj : slotIndex e pos = i
    · rw [if_pos hj]
      exact hv pos hj hV
    · rw [if_neg hj, hv' pos hj hV]
      unfold view lv
      rw [hother pos hj]

theorem Ok.step {e : Env} {V : Nat → Prop} {s : State} (h : Ok e V s) {i : Nat} {ps : Pages} {d : Disk}
    (hs : SlotStep e V i (s.slots i) s.disk ps d) :
    Ok e V { s.setSlot i ps with disk := d } ∧ ∀ pos, V pos → view e { s.setSlot i ps with disk := d } pos = view e s pos := by
  refine h.change hs.ok (fun _ _ hv => hv) hs.other (view e s) ?_ (fun _ _ _ => rfl)
  intro pos hp hV
  rw [hs.same _ hV]
  unfold view
  rw [hp]

theorem reduce_spec {e : Env} {V : Nat → Prop} {s : State} (h : Ok e V s) (i : Nat) : Ok e V (reduce e s i) ∧
    (∀ pos, V pos → view e (reduce e s i) pos = view e s pos) ∧
    s.disk.len ≤ (reduce e s i).disk.len ∧ (reduce e s i).region = s.region := by
  have hs := reduceN_spec ((s.slots i).length - e.cap) (s.slots i) s.disk (h.slot i)
  obtain ⟨h1, h2⟩ := h.step hs
  exact ⟨h1, h2, hs.len, rfl⟩

theorem reduce_all {e : Env} {V : Nat → Prop} : ∀ (is : List Nat) (s : State), Ok e V s → Ok e V (is.foldl (reduce e) s) ∧
    (∀ pos, V pos → view e (is.foldl (reduce e) s) pos = view e s pos) ∧ s.disk.len ≤ (is.foldl (reduce e) s).disk.len ∧
    (is.foldl (reduce e) s).region = s.region
  | [], s, h => ⟨h, fun _ _ => rfl, Nat.le_refl _, rfl⟩
  | i :: is, s, h => by
    obtain ⟨h1, h2, h3, h4⟩ := reduce_spec h i
    obtain ⟨h5, h6, h7, h8⟩ := reduce_all is _ h1
    exact ⟨h5, fun p hV => (h6 p hV).trans (h2 p hV), Nat.le_trans h3 h7, h8.trans h4⟩

/-! ### Preparing a page -/

theorem prepare_none {e : Env} {ps : Pages} {d : Disk} {off size : Nat} {load : Bool} {batch : Option Bytes}
    (h : prepare e ps d off size load batch = none) : fresh e d off size load batch = none := by
  unfold prepare at h
  cases hg : get ps off with
  | none => rw [hg] at h; simpa using h
  | some p =>
    rw [hg] at h
    simp only at h
    split at h
    · simpa using h
    · cases h

theorem prepare_spec {e : Env} {V : Nat → Prop} {i : Nat} {ps : Pages} {d : Disk} (h : SlotOk e V i ps d) {off size : Nat} {load : Bool}
    {batch : Option Bytes} (hsz : size ≤ e.page) {R : Nat → Prop} (hR : ∀ j, R j → j < size → V (off + j))
    (hb : ∀ b, fresh e d off size load batch = some b → b.length = size ∧ ∀ j, j < size → R j → b[j]? = some (d.data (off + j)))
    (hoff : off % e.page = 0) {ps' : Pages} {p' : Page} (hp : prepare e ps d off size load batch = some (ps', p')) :
    size ≤ p'.buf.length ∧ p'.buf.length ≤ e.page ∧ (∀ x, get ps' x = if x = off then some p' else get ps x) ∧
    (∀ j, j < p'.buf.length → R j ∨ size ≤ j → p'.buf[j]? = some (lv e ps d (off + j))) ∧
    (∀ j, p'.buf.length ≤ j → j < e.page → lv e ps d (off + j) = d.data (off + j)) ∧
    (p'.dirty = false → ∀ j, j < p'.buf.length → V (off + j) → R j ∨ size ≤ j → p'.buf[j]? = some (d.data (off + j))) := by
  have hlv : ∀ j, j < e.page → lv e ps d (off + j) = ((get ps off).bind fun p => p.buf[j]?).getD (d.data (off + j)) := by
    intro j hj
    unfold lv
    rw [atPos_add hoff hj]
  unfold prepare at hp
  cases hg : get ps off with
  | none =>
    rw [hg] at hp hlv
    simp only [Option.map_eq_some_iff, Prod.mk.injEq] at hp
    obtain ⟨b, hfb, rfl, rfl⟩ := hp
    obtain ⟨hbl, hbR⟩ := hb b hfb
    simp only
    refine ⟨by omega, by omega, fun x => get_set _ _ _ _, ?_, ?_, ?_⟩
    · intro j hj hr
      rw [hlv j (by omega)]
      exact hbR j (by omega) (by rcases hr with hr | hr; exact hr; omega)
    · intro j _ hj
      rw [hlv j hj]; rfl
    · intro _ j hj hV hr
      exact hbR j (by omega) (by rcases hr with hr | hr; exact hr; omega)
  | some p =>
    rw [hg] at hp hlv
    simp only at hp
    obtain ⟨h1, h2, h3, h4⟩ := h off p hg
    by_cases hlt : p.buf.length < size
    · rw [if_pos hlt] at hp
      simp only [Option.map_eq_some_iff, Prod.mk.injEq] at hp
      obtain ⟨b, hfb, rfl, rfl⟩ := hp
      obtain ⟨hbl, hbR⟩ := hb b hfb
      have hlen : (if p.dirty then p.buf ++ b.drop p.buf.length else b).length = size := by
        split
        · simp; omega
        · exact hbl
      simp only
      rw [hlen]
      have hbl' : ∀ j, p.buf.length ≤ j → p.buf[j]? = none := fun j hj => List.getElem?_eq_none hj
      refine ⟨Nat.le_refl _, hsz, ?_, ?_, ?_, ?_⟩
      · intro x
        rw [get_set, get_moveLast]
      · intro j hj hr
        have hr : R j := by rcases hr with hr | hr; exact hr; omega
        rw [hlv j (by omega)]
        simp only [Option.bind_some]
        split
        · by_cases hjp : j < p.buf.length
          · rw [List.getElem?_append_left hjp, List.getElem?_eq_getElem hjp]; rfl
          · rw [List.getElem?_append_right (by omega), List.getElem?_drop, hbl' j (by omega),
              show p.buf.length + (j - p.buf.length) = j by omega]
            exact hbR j (by omega) hr
        · rename_i hd
          rw [hbR j (by omega) hr]
          by_cases hjp : j < p.buf.length
          · rw [h4 (by simpa using hd) j hjp (hR j hr hj)]; rfl
          · rw [hbl' j (by omega)]; rfl
      · intro j hj hjP
        rw [hlv j hjP]
        simp only [Option.bind_some]
        rw [hbl' j (by omega)]; rfl
      · intro hd j hj hV hr
        rw [if_neg (by simp [hd])]
        exact hbR j (by omega) (by rcases hr with hr | hr; exact hr; omega)
    · rw [if_neg hlt] at hp
      simp only [Option.some.injEq, Prod.mk.injEq] at hp
      obtain ⟨rfl, rfl⟩ := hp
      refine ⟨by omega, h3, ?_, ?_, ?_, ?_⟩
      · intro x
        rw [get_moveLast]
        split
        · rename_i hx; rw [hx, hg]
        · rfl
      · intro j hj _
        rw [hlv j (by omega)]
        simp only [Option.bind_some]
        rw [List.getElem?_eq_getElem hj]; rfl
      · intro j hj hjP
        rw [hlv j hjP]
        simp only [Option.bind_some]
        rw [List.getElem?_eq_none hj]; rfl
      · intro hd j hj hV _
        exact h4 hd j hj hV

end Verif.PageCache
