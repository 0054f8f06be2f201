import Verif.File.PageCacheOps
/-
Lemmas for the page cache: reading, writing and flushing as a whole.
-/
namespace Verif.PageCache
open Verif

/-- Bytes that agree with memory at the positions of `V`. -/
def Seen (V : Nat → Prop) (v : Nat → UInt8) (pos : Nat) (got : Bytes) : Prop :=
  ∀ j, j < got.length → V (pos + j) → got[j]? = some (v (pos + j))

theorem Seen.append {V : Nat → Prop} {v : Nat → UInt8} {pos : Nat} {a b : Bytes} (h : Seen V v pos a) (h' : Seen V v (pos + a.length) b) :
    Seen V v pos (a ++ b) := by
  intro j hj hV
  rw [List.length_append] at hj
  by_cases hlt : j < a.length
  · rw [List.getElem?_append_left hlt]; exact h j hlt hV
  · have := h' (j - a.length) (by omega) (by rw [show pos + a.length + (j - a.length) = pos + j by omega]; exact hV)
    rw [List.getElem?_append_right (by omega), this]
    congr 2; omega

theorem slice_length {b : Bytes} {pre n : Nat} (h : pre + n ≤ b.length) : (slice b pre n).length = n := by
  unfold slice
  rw [List.length_take, List.length_drop]; omega

theorem slice_get {b : Bytes} {pre n j : Nat} (h : j < n) : (slice b pre n)[j]? = b[pre + j]? := by
  unfold slice
  rw [List.getElem?_take, if_pos h, List.getElem?_drop]

/-- Two states that a reader cannot tell apart. -/
structure Same (e : Env) (V : Nat → Prop) (s s' : State) : Prop where
  ok : Ok e V s'
  view : ∀ pos, V pos → view e s' pos = view e s pos
  len : s.disk.len ≤ s'.disk.len
  region : s'.region = s.region

theorem Same.refl {e : Env} {V : Nat → Prop} {s : State} (h : Ok e V s) : Same e V s s := ⟨h, fun _ _ => rfl, Nat.le_refl _, rfl⟩

theorem Same.trans {e : Env} {V : Nat → Prop} {s s' s'' : State} (h : Same e V s s') (h' : Same e V s' s'') : Same e V s s'' :=
  ⟨h'.ok, fun p hp => (h'.view p hp).trans (h.view p hp), Nat.le_trans h.len h'.len, h'.region.trans h.region⟩

theorem Same.slot {e : Env} {V : Nat → Prop} {s : State} (h : Ok e V s) {i : Nat} {ps : Pages}
    (hs : SlotStep e V i (s.slots i) s.disk ps s.disk) : Same e V s (s.setSlot i ps) := by
  obtain ⟨h1, h2⟩ := h.step hs
  exact ⟨h1, h2, Nat.le_refl _, rfl⟩

theorem same_reduce {e : Env} {V : Nat → Prop} {s : State} (h : Ok e V s) (is : List Nat) : Same e V s (is.foldl (reduce e) s) := by
  obtain ⟨h1, h2, h3, h4⟩ := reduce_all is s h
  exact ⟨h1, h2, h3, h4⟩

/-- Loading a page, and reading from it. -/
theorem fetch_spec {e : Env} (hP0 : 0 < e.page) {V : Nat → Prop} {s : State} (h : Ok e V s) {off size : Nat} {load : Bool} {batch : Option Bytes}
    (hoff : off % e.page = 0) (hsz : size ≤ e.page)
    (hb : ∀ b, fresh e s.disk off size load batch = some b → b.length = size ∧ ∀ j, j < size → b[j]? = some (s.disk.data (off + j)))
    {ps' : Pages} {p' : Page} (hp : prepare e (s.slots (slotIndex e off)) s.disk off size load batch = some (ps', p')) :
    Same e V s (s.setSlot (slotIndex e off) ps') ∧ size ≤ p'.buf.length ∧
    (∀ j, j < p'.buf.length → V (off + j) → p'.buf[j]? = some (view e s (off + j))) := by
  have hok := h.slot (slotIndex e off)
  obtain ⟨h1, h2, h3, h4, h5, h6⟩ := prepare_spec hok hsz (R := fun j => V (off + j)) (fun j hj _ => hj)
    (fun b hfb => ⟨(hb b hfb).1, fun j hj _ => (hb b hfb).2 j hj⟩) hoff hp
  have hstep : SlotStep e V (slotIndex e off) (s.slots (slotIndex e off)) s.disk ps' s.disk := by
    refine ⟨?_, ?_, fun _ _ => rfl, Nat.le_refl _⟩
    · intro k p hk
      rw [h3] at hk
      by_cases hx : k = off
      · rw [if_pos hx] at hk
        cases hk
        subst hx
        exact ⟨hoff, rfl, h2, fun hd j hj hV => h6 hd j hj hV (.inl hV)⟩
      · rw [if_neg hx] at hk
        exact hok k p hk
    · intro pos hV
      by_cases hx : pos / e.page * e.page = off
      · have hj := Nat.mod_lt pos hP0
        have hpos : off + pos % e.page = pos := by rw [← hx]; exact base_add _ _
        rw [← hpos] at hV ⊢
        by_cases hlt : pos % e.page < p'.buf.length
        · conv => lhs; unfold lv
          rw [atPos_add hoff hj, h3, if_pos rfl]
          simp only [Option.bind_some]
          rw [h4 _ hlt (.inl hV)]; rfl
        · rw [h5 _ (by omega) hj]
          unfold lv
          rw [atPos_add hoff hj, h3, if_pos rfl]
          simp only [Option.bind_some]
          rw [List.getElem?_eq_none (by omega)]; rfl
      · unfold lv atPos
        rw [h3, if_neg hx]
  refine ⟨Same.slot h hstep, h1, ?_⟩
  intro j hj hV
  rw [h4 j hj (.inl hV)]
  unfold view
  rw [slotIndex_add hoff (by omega)]

/-- The page of a slot shows what is seen. -/
theorem page_seen {e : Env} {V : Nat → Prop} {s : State} (h : Ok e V s) {off : Nat} {p : Page} (hg : get (s.slots (slotIndex e off)) off = some p)
    {j : Nat} (hj : j < p.buf.length) : p.buf[j]? = some (view e s (off + j)) := by
  obtain ⟨h1, h2, h3, _⟩ := h.slot _ off p hg
  unfold view lv
  rw [slotIndex_add h1 (by omega), atPos_add h1 (by omega), hg]
  simp only [Option.bind_some]
  rw [List.getElem?_eq_getElem hj]; rfl

theorem same_moveLast {e : Env} {V : Nat → Prop} {s : State} (h : Ok e V s) (i k : Nat) : Same e V s (s.setSlot i (moveLast (s.slots i) k)) :=
  Same.slot h (SlotStep.ofGet (h.slot i) fun x => get_moveLast _ _ _)

theorem readCached_spec {e : Env} (hP0 : 0 < e.page) {V : Nat → Prop} {fin : Nat} : ∀ {rs : List Req} {s : State} {pos : Nat} {acc : Bytes}, Ok e V s →
    Tiles e.page pos rs fin → ∃ got, (readCached e s rs acc).2.1 = acc ++ got ∧ Tiles e.page (pos + got.length) (readCached e s rs acc).2.2 fin ∧
      Seen V (view e s) pos got ∧ Same e V s (readCached e s rs acc).1 ∧ (readCached e s rs acc).1.disk = s.disk
  | [], s, pos, acc, h, ht => ⟨[], by simp [readCached], ht, (fun j hj => by simp at hj), Same.refl h, rfl⟩
  | r :: rs, s, pos, acc, h, ht => by
    obtain ⟨a1, a2, a3, a4, a5⟩ := ht.head hP0
    have hm := same_moveLast h (slotIndex e r.off) r.off
    unfold readCached
    simp only
    cases hg : get (s.slots (slotIndex e r.off)) r.off with
    | none => exact ⟨[], by simp, by simpa using ht, (fun j hj => by simp at hj), hm, rfl⟩
    | some p =>
      simp only
      by_cases hsz : r.size ≤ p.buf.length
      · rw [if_pos hsz]
        have hlen : (slice p.buf r.pre r.copy).length = r.copy := slice_length (by omega)
        have ht' := ht
        obtain ⟨_, _, _, _, _, _, ht'⟩ := ht'
        obtain ⟨got, h1, h2, h3, h4, h5⟩ := readCached_spec hP0 (acc := acc ++ slice p.buf r.pre r.copy) hm.ok ht'
        have hs1 : Seen V (view e s) pos (slice p.buf r.pre r.copy) := by
          intro j hj hV
          rw [hlen] at hj
          rw [slice_get hj, page_seen h hg (by omega), ← a2, Nat.add_assoc]
        refine ⟨slice p.buf r.pre r.copy ++ got, ?_, ?_, ?_, hm.trans h4, h5⟩
        · rw [h1, List.append_assoc]
        · rw [List.length_append, hlen, ← Nat.add_assoc]; exact h2
        · apply hs1.append
          intro j hj hV
          rw [hlen] at hV ⊢
          rw [h3 j hj hV, hm.view _ hV]
      · rw [if_neg hsz]
        exact ⟨[], by simp, by simpa using ht, (fun j hj => by simp at hj), hm, rfl⟩

theorem readBatch_spec {e : Env} (hP0 : 0 < e.page) {V : Nat → Prop} {fin : Nat} : ∀ {rs : List Req} {s : State} {pos : Nat} {area acc : Bytes},
    Ok e V s → Tiles e.page pos rs fin → AreaOk s.disk (fun _ _ => False) rs area →
    ∃ got, (readBatch e s rs area acc).2 = acc ++ got ∧ pos + got.length = fin ∧ Seen V (view e s) pos got ∧
      Same e V s (readBatch e s rs area acc).1
  | [], s, pos, area, acc, h, ht, _ => ⟨[], by simp [readBatch], ht, (fun j hj => by simp at hj), Same.refl h⟩
  | r :: rs, s, pos, area, acc, h, ht, ⟨ha1, ha2, ha3⟩ => by
    obtain ⟨a1, a2, a3, a4, a5⟩ := ht.head hP0
    have ht' := ht
    obtain ⟨_, _, _, _, _, _, ht'⟩ := ht'
    have hb : ∀ b, fresh e s.disk r.off r.size false (some area) = some b → b.length = r.size ∧
        ∀ j, j < r.size → b[j]? = some (s.disk.data (r.off + j)) := by
      intro b hb
      simp only [fresh, Option.some.injEq] at hb
      subst hb
      refine ⟨by rw [List.length_take]; omega, fun j hj => ?_⟩
      rw [List.getElem?_take, if_pos hj]
      rcases ha2 j hj with hf | hf
      · exact hf.elim
      · exact hf
    unfold readBatch
    simp only
    cases hp : prepare e (s.slots (slotIndex e r.off)) s.disk r.off r.size false (some area) with
    | none => exact absurd (prepare_none hp) (by simp [fresh])
    | some q =>
      obtain ⟨ps, p⟩ := q
      simp only
      obtain ⟨hs, hl, hseen⟩ := fetch_spec hP0 h a1 a5 hb hp
      have hlen : (slice p.buf r.pre r.copy).length = r.copy := slice_length (by omega)
      obtain ⟨got, h1, h2, h3, h4⟩ := readBatch_spec hP0 (acc := acc ++ slice p.buf r.pre r.copy) hs.ok ht' ha3
      refine ⟨slice p.buf r.pre r.copy ++ got, by rw [h1, List.append_assoc], ?_, ?_, hs.trans h4⟩
      · rw [List.length_append, hlen]; omega
      · apply Seen.append
        · intro j hj hV
          rw [hlen] at hj
          rw [slice_get hj, hseen _ (by omega) (by rw [← Nat.add_assoc, a2]; exact hV), ← a2, Nat.add_assoc]
        · intro j hj hV
          rw [hlen] at hV ⊢
          rw [h3 j hj hV, hs.view _ hV]

theorem bytes_length (f : Nat → UInt8) (off n : Nat) : (bytes f off n).length = n := by simp [bytes]

theorem bytes_get {f : Nat → UInt8} {off n j : Nat} (h : j < n) : (bytes f off n)[j]? = some (f (off + j)) := by
  unfold bytes
  rw [List.getElem?_map, List.getElem?_range h]
  rfl

theorem read_some {d : Disk} {off n : Nat} {b : Bytes} (h : d.read off n = some b) : b = bytes d.data off n := by
  unfold Disk.read at h
  split at h
  · cases h; rfl
  · cases h

theorem read_ok {d : Disk} {off n : Nat} (h : off + n ≤ d.len) : d.read off n = some (bytes d.data off n) := by
  unfold Disk.read
  rw [if_pos (.inr h)]

theorem read_spec {e : Env} (hP0 : 0 < e.page) {V : Nat → Prop} {s : State} (h : Ok e V s) (off size : Nat) :
    Same e V s (read e s off size).1 ∧
    (∀ b, (read e s off size).2 = some b → b.length = size ∧ Seen V (view e s) off b) ∧
    (align (off + size) e.page ≤ s.disk.len → (read e s off size).2 ≠ none) := by
  unfold read
  obtain ⟨got, h1, h2, h3, h4, h5⟩ := readCached_spec hP0 (acc := []) h (makeRequests_tiles hP0 s.region off size)
  generalize readCached e s (makeRequests e s.region off size) [] = r at h1 h2 h4 h5
  obtain ⟨s1, acc, rest⟩ := r
  simp only [List.nil_append] at h1 h2 h4 h5 ⊢
  subst h1
  match rest, h2 with
  | [], h2 =>
    simp only
    refine ⟨h4, ?_, by simp⟩
    intro b hb
    cases hb
    have : off + acc.length = off + size := h2
    exact ⟨by omega, h3⟩
  | [r], h2 =>
    obtain ⟨a1, a2, a3, a4, a5⟩ := h2.head hP0
    have hfin : off + acc.length + r.copy = off + size := by
      obtain ⟨_, _, _, _, _, _, h2⟩ := h2; exact h2
    simp only
    cases hp : prepare e (s1.slots (slotIndex e r.off)) s1.disk r.off r.size true none with
    | none =>
      refine ⟨h4, by simp, ?_⟩
      intro hal
      exfalso
      have hn := prepare_none hp
      simp only [fresh, if_true] at hn
      have := (areaSize_eq hP0 h2).2
      simp only [total, List.map_cons, List.map_nil, List.sum_cons, List.sum_nil] at this
      rw [read_ok (by rw [h5]; omega)] at hn
      cases hn
    | some q =>
      obtain ⟨ps, p⟩ := q
      simp only
      obtain ⟨hs, hl, hseen⟩ := fetch_spec hP0 h4.ok a1 a5 (by
        intro b hb
        simp only [fresh, if_true] at hb
        rw [read_some hb]
        exact ⟨bytes_length _ _ _, fun j hj => bytes_get hj⟩) hp
      have hlen : (slice p.buf r.pre r.copy).length = r.copy := slice_length (by omega)
      refine ⟨(h4.trans hs).trans (same_reduce hs.ok [slotIndex e r.off]), ?_, by simp⟩
      intro b hb
      cases hb
      refine ⟨by rw [List.length_append, hlen]; omega, h3.append ?_⟩
      intro j hj hV
      rw [hlen] at hj
      rw [slice_get hj, hseen _ (by omega) (by rw [← Nat.add_assoc, a2]; exact hV), ← Nat.add_assoc, a2, h4.view _ hV]
  | r :: r' :: rs, h2 =>
    simp only
    have hA := areaSize_eq hP0 h2
    cases hr : s1.disk.read r.off (areaSize (r :: r' :: rs)) with
    | none =>
      refine ⟨h4, by simp, ?_⟩
      intro hal
      exfalso
      rw [read_ok (by rw [h5]; omega)] at hr
      cases hr
    | some area =>
      simp only
      have harea := read_some hr
      have hal : area.length = total (r :: r' :: rs) := by rw [harea, bytes_length, hA.1]
      have hok : AreaOk s1.disk (fun _ _ => False) (r :: r' :: rs) area := by
        refine areaOk_of (skip := 0) hP0 h2 hal ?_ (Nat.zero_le _) (by simp)
        intro j _ hj
        rw [harea, bytes_length] at hj
        rw [harea, bytes_get hj]
      obtain ⟨got, g1, g2, g3, g4⟩ := readBatch_spec hP0 (acc := acc) h4.ok h2 hok
      refine ⟨(h4.trans g4).trans (same_reduce g4.ok _), ?_, by simp⟩
      intro b hb
      cases hb
      rw [g1]
      refine ⟨by rw [List.length_append]; omega, h3.append ?_⟩
      intro j hj hV
      rw [g3 j hj hV, h4.view _ hV]

/-! ### Writing -/

/-- A state that shows some bytes stored, to a reader of the positions of `V` and of those bytes. -/
structure Put (e : Env) (V : Nat → Prop) (s : State) (off : Nat) (data : Bytes) (s' : State) : Prop where
  ok : Ok e (withRange V off data.length) s'
  view : ∀ pos, withRange V off data.length pos → view e s' pos = putAt (view e s) off data pos
  len : s.disk.len ≤ s'.disk.len
  region : s'.region = s.region

theorem withRange_append (V : Nat → Prop) (off a b : Nat) : withRange (withRange V off a) (off + a) b = withRange V off (a + b) := by
  funext pos
  unfold withRange
  apply propext
  constructor
  · rintro ((h | h) | h)
    · exact .inl h
    · right; omega
    · right; omega
  · rintro (h | h)
    · exact .inl (.inl h)
    · by_cases hlt : pos < off + a
      · left; right; omega
      · right; omega

theorem withRange_zero (V : Nat → Prop) (off : Nat) : withRange V off 0 = V := by
  funext pos
  unfold withRange
  apply propext
  constructor
  · rintro (h | h)
    · exact h
    · omega
  · exact .inl

theorem Put.nil {e : Env} {V : Nat → Prop} {s s' : State} {off : Nat} (h : Same e V s s') : Put e V s off [] s' := by
  refine ⟨by rw [List.length_nil, withRange_zero]; exact h.ok, ?_, h.len, h.region⟩
  intro pos hp
  rw [List.length_nil, withRange_zero] at hp
  rw [putAt_nil, h.view _ hp]

theorem Put.append {e : Env} {V : Nat → Prop} {s s' s'' : State} {off : Nat} {a b : Bytes} (h : Put e V s off a s')
    (h' : Put e (withRange V off a.length) s' (off + a.length) b s'') : Put e V s off (a ++ b) s'' := by
  refine ⟨?_, ?_, Nat.le_trans h.len h'.len, h'.region.trans h.region⟩
  · have := h'.ok
    rwa [withRange_append, ← List.length_append] at this
  · intro pos hp
    rw [List.length_append, ← withRange_append] at hp
    rw [h'.view pos hp, ← putAt_append]
    unfold putAt
    by_cases hin : off + a.length ≤ pos ∧ pos < off + a.length + b.length
    · rw [if_pos hin, if_pos hin]
    · rw [if_neg hin, if_neg hin]
      rcases hp with hp | hp
      · exact h.view pos hp
      · exact absurd hp hin

theorem Put.same {e : Env} {V : Nat → Prop} {s s' s'' : State} {off : Nat} {a : Bytes} (h : Put e V s off a s')
    (h' : Same e (withRange V off a.length) s' s'') : Put e V s off a s'' :=
  ⟨h'.ok, fun pos hp => (h'.view pos hp).trans (h.view pos hp), Nat.le_trans h.len h'.len, h'.region.trans h.region⟩

theorem Same.put {e : Env} {V : Nat → Prop} {s s' s'' : State} {off : Nat} {a : Bytes} (h : Same e V s s')
    (h' : Put e V s' off a s'') : Put e V s off a s'' := by
  refine ⟨h'.ok, fun pos hp => ?_, Nat.le_trans h.len h'.len, h'.region.trans h.region⟩
  rw [h'.view pos hp]
  unfold putAt
  by_cases hin : off ≤ pos ∧ pos < off + a.length
  · rw [if_pos hin, if_pos hin]
  · rw [if_neg hin, if_neg hin]
    rcases hp with hp | hp
    · exact h.view pos hp
    · exact absurd hp hin

/-- Storing bytes in a prepared page of the cache. -/
theorem put_state {e : Env} (hP0 : 0 < e.page) {V : Nat → Prop} {s : State} (h : Ok e V s) {off pre : Nat} {data : Bytes}
    (hoff : off % e.page = 0) {ps' : Pages} {p' : Page} (hl : pre + data.length ≤ p'.buf.length)
    (hP : p'.buf.length ≤ e.page) (hget : ∀ x, x ≠ off → get ps' x = get (s.slots (slotIndex e off)) x)
    (hin : ∀ j, j < p'.buf.length → V (off + j) → ¬ (pre ≤ j ∧ j < pre + data.length) → p'.buf[j]? = some (view e s (off + j)))
    (hout : ∀ j, p'.buf.length ≤ j → j < e.page → view e s (off + j) = s.disk.data (off + j)) :
    Put e V s (off + pre) data (s.setSlot (slotIndex e off) (set ps' off ⟨overwrite p'.buf pre data, true⟩)) := by
  have hview : ∀ j, j < e.page → view e s (off + j) = lv e (s.slots (slotIndex e off)) s.disk (off + j) := by
    intro j hj
    unfold view
    rw [slotIndex_add hoff hj]
  obtain ⟨h1, h2⟩ := put_spec hP0 (h.slot (slotIndex e off)) hoff rfl hl hP hget
    (fun j hj hV hn => by rw [hin j hj hV hn, hview j (by omega)]) (fun j hj hjP => by rw [← hview j hjP]; exact hout j hj hjP)
  have hnr : ∀ pos, slotIndex e pos ≠ slotIndex e off → ¬ (off + pre ≤ pos ∧ pos < off + pre + data.length) := by
    intro pos hne hc
    apply hne
    have := slotIndex_add (e := e) (j := pos - off) hoff (by omega)
    rwa [show off + (pos - off) = pos by omega] at this
  obtain ⟨h3, h4⟩ := h.change (d := s.disk) h1 (fun pos hne hV => by
      rcases hV with hV | hV
      · exact hV
      · exact absurd hV (hnr pos hne)) (fun _ _ => rfl) (putAt (view e s) (off + pre) data)
    (fun pos hs hV => by
      rw [h2 pos hV]
      unfold putAt view
      rw [hs])
    (fun pos hne hV => by
      unfold putAt
      rw [if_neg (hnr pos hne)])
  exact ⟨h3, h4, Nat.le_refl _, rfl⟩

theorem view_out {e : Env} {s : State} {off : Nat} {p : Page} (hoff : off % e.page = 0) (hg : get (s.slots (slotIndex e off)) off = some p) {j : Nat}
    (hj : p.buf.length ≤ j) (hjP : j < e.page) : view e s (off + j) = s.disk.data (off + j) := by
  unfold view lv
  rw [slotIndex_add hoff hjP, atPos_add hoff hjP, hg]
  simp only [Option.bind_some]
  rw [List.getElem?_eq_none hj]; rfl

theorem writeCached_spec {e : Env} (hP0 : 0 < e.page) {fin : Nat} : ∀ {rs : List Req} {V : Nat → Prop} {s : State} {pos : Nat} {data : Bytes}, Ok e V s →
    Tiles e.page pos rs fin → pos + data.length = fin → ∃ m, m ≤ data.length ∧ (writeCached e s rs data).2.1 = data.drop m ∧
      Tiles e.page (pos + m) (writeCached e s rs data).2.2 fin ∧ Put e V s pos (data.take m) (writeCached e s rs data).1 ∧
      (writeCached e s rs data).1.disk = s.disk
  | [], V, s, pos, data, h, ht, hd => ⟨0, by omega, rfl, ht, Put.nil (Same.refl h), rfl⟩
  | r :: rs, V, s, pos, data, h, ht, hd => by
    obtain ⟨a1, a2, a3, a4, a5⟩ := ht.head hP0
    have hm := same_moveLast h (slotIndex e r.off) r.off
    have ht' := ht
    obtain ⟨_, _, _, _, _, _, ht'⟩ := ht'
    have hle := ht'.le
    unfold writeCached
    simp only
    cases hg : get (s.slots (slotIndex e r.off)) r.off with
    | none => exact ⟨0, by omega, rfl, ht, Put.nil hm, rfl⟩
    | some p =>
      simp only
      by_cases hsz : r.size ≤ p.buf.length
      · rw [if_pos hsz]
        have hlen : (data.take r.copy).length = r.copy := by rw [List.length_take]; omega
        have hput := put_state hP0 h (pre := r.pre) (data := data.take r.copy) a1 (ps' := moveLast (s.slots (slotIndex e r.off)) r.off) (p' := p)
          (by rw [hlen]; omega) (h.slot _ _ _ hg).2.2.1 (fun x _ => get_moveLast _ _ _)
          (fun j hj _ _ => page_seen h hg hj) (fun j hj hjP => view_out a1 hg hj hjP)
        rw [a2] at hput
        have hok := hput.ok
        rw [hlen] at hok
        obtain ⟨m, h1, h2, h3, h4, h5⟩ := writeCached_spec hP0 (data := data.drop r.copy) hok ht' (by rw [List.length_drop]; omega)
        rw [List.length_drop] at h1
        refine ⟨r.copy + m, by omega, by rw [h2, List.drop_drop], by rw [← Nat.add_assoc]; exact h3, ?_, h5⟩
        rw [List.take_add]
        apply hput.append
        rw [hlen]
        exact h4
      · rw [if_neg hsz]
        exact ⟨0, by omega, rfl, ht, Put.nil hm, rfl⟩

/-- The bytes of a request that will be overwritten. -/
def Covered (r : Req) (j : Nat) : Prop := r.pre ≤ j ∧ j < r.pre + r.copy

/-- Preparing a page and storing bytes in it. -/
theorem store_spec {e : Env} (hP0 : 0 < e.page) {V : Nat → Prop} {s : State} (h : Ok e V s) {r : Req} {load : Bool} {batch : Option Bytes} {data : Bytes}
    (hoff : r.off % e.page = 0) (hsz : r.size ≤ e.page) (hcp : r.pre + r.copy ≤ r.size) (hlen : data.length = r.copy)
    (hb : ∀ b, fresh e s.disk r.off r.size load batch = some b → b.length = r.size ∧
      ∀ j, j < r.size → Covered r j ∨ b[j]? = some (s.disk.data (r.off + j)))
    {ps' : Pages} {p' : Page} (hp : prepare e (s.slots (slotIndex e r.off)) s.disk r.off r.size load batch = some (ps', p')) :
    Put e V s (r.off + r.pre) data (s.setSlot (slotIndex e r.off) (set ps' r.off ⟨overwrite p'.buf r.pre data, true⟩)) := by
  have hview : ∀ j, j < e.page → view e s (r.off + j) = lv e (s.slots (slotIndex e r.off)) s.disk (r.off + j) := by
    intro j hj
    unfold view
    rw [slotIndex_add hoff hj]
  obtain ⟨h1, h2, h3, h4, h5, h6⟩ := prepare_spec (h.slot _) hsz (R := fun j => V (r.off + j) ∧ ¬ Covered r j) (fun j hj _ => hj.1)
    (fun b hfb => ⟨(hb b hfb).1, fun j hj hR => by
      rcases (hb b hfb).2 j hj with hc | hc
      · exact absurd hc hR.2
      · exact hc⟩) hoff hp
  refine put_state hP0 h hoff (by omega) h2 (fun x hx => by rw [h3, if_neg hx]) ?_ ?_
  · intro j hj hV hn
    rw [hview j (by omega)]
    exact h4 j hj (.inl ⟨hV, by unfold Covered; omega⟩)
  · intro j hj hjP
    rw [hview j hjP]
    exact h5 j hj hjP

theorem writeBatch_spec {e : Env} (hP0 : 0 < e.page) {fin : Nat} : ∀ {rs : List Req} {V : Nat → Prop} {s : State} {pos : Nat} {area data : Bytes},
    Ok e V s → Tiles e.page pos rs fin → AreaOk s.disk Covered rs area → pos + data.length = fin →
    Put e V s pos data (writeBatch e s rs area data)
  | [], V, s, pos, area, data, h, ht, _, hd => by
    have : pos = fin := ht
    have : data = [] := List.length_eq_zero_iff.1 (by omega)
    subst this
    exact Put.nil (Same.refl h)
  | r :: rs, V, s, pos, area, data, h, ht, ⟨ha1, ha2, ha3⟩, hd => by
    obtain ⟨a1, a2, a3, a4, a5⟩ := ht.head hP0
    have ht' := ht
    obtain ⟨_, _, _, _, _, _, ht'⟩ := ht'
    have hle := ht'.le
    have hlen : (data.take r.copy).length = r.copy := by rw [List.length_take]; omega
    have hb : ∀ b, fresh e s.disk r.off r.size false (some area) = some b → b.length = r.size ∧
        ∀ j, j < r.size → Covered r j ∨ b[j]? = some (s.disk.data (r.off + j)) := by
      intro b hb
      simp only [fresh, Option.some.injEq] at hb
      subst hb
      refine ⟨by rw [List.length_take]; omega, fun j hj => ?_⟩
      rw [List.getElem?_take, if_pos hj]
      exact ha2 j hj
    unfold writeBatch
    simp only
    cases hp : prepare e (s.slots (slotIndex e r.off)) s.disk r.off r.size false (some area) with
    | none => exact absurd (prepare_none hp) (by simp [fresh])
    | some q =>
      obtain ⟨ps, p⟩ := q
      simp only
      have hput := store_spec hP0 h a1 a5 a4 hlen hb hp
      rw [a2] at hput
      have hok := hput.ok
      rw [hlen] at hok
      have hrec := writeBatch_spec hP0 (data := data.drop r.copy) hok ht' ha3 (by rw [List.length_drop]; omega)
      have := hput.append (b := data.drop r.copy) (by rw [hlen]; exact hrec)
      rwa [List.take_append_drop] at this

theorem loadArea_spec {e : Env} (hP0 : 0 < e.page) {d : Disk} {r : Req} {rs : List Req} {pos n : Nat} (ht : Tiles e.page pos (r :: rs) (pos + n)) :
    (∀ area, loadArea e d (r :: rs) pos n = some area → AreaOk d Covered (r :: rs) area) ∧
    (align (pos + n) e.page ≤ d.len → loadArea e d (r :: rs) pos n ≠ none) := by
  have hA := areaSize_eq hP0 ht
  have hX : ∀ r : Req, r.pre = 0 → r.copy = e.page → ∀ j, j < e.page → Covered r j := by
    intro r h0 hc j hj
    unfold Covered
    omega
  have hjunk : areaSize (r :: rs) ≤ fullSize e (r :: rs) (areaSize (r :: rs)) → AreaOk d Covered (r :: rs) (bytes e.junk 0 (areaSize (r :: rs))) := by
    intro hle
    refine areaOk_of (skip := areaSize (r :: rs)) hP0 ht (by rw [bytes_length, hA.1]) ?_ (by rw [bytes_length]; exact hle) (fun _ => hX)
    intro j hs hj
    rw [bytes_length] at hj
    omega
  unfold loadArea
  simp only
  by_cases hc : pos % e.page ≠ 0 ∨ n % e.page ≠ 0
  · rw [if_pos hc]
    by_cases hgt : areaSize (r :: rs) - fullSize e (r :: rs) (areaSize (r :: rs)) > 0
    · rw [if_pos hgt]
      generalize hsk : fullSize e (r :: rs) (areaSize (r :: rs)) = skip at hgt hjunk ⊢
      constructor
      · intro area ha
        simp only [Option.map_eq_some_iff] at ha
        obtain ⟨b, hb, rfl⟩ := ha
        have hb' := read_some hb
        have hlen : (bytes e.junk 0 skip ++ b).length = areaSize (r :: rs) := by
          rw [List.length_append, hb', bytes_length, bytes_length]; omega
        refine areaOk_of (skip := skip) hP0 ht (by rw [hlen, hA.1]) ?_ (by rw [hlen, hsk]; exact Nat.le_refl _) (fun _ => hX)
        intro j hs hj
        rw [hlen] at hj
        rw [List.getElem?_append_right (by rw [bytes_length]; exact hs), bytes_length, hb', bytes_get (by omega)]
        congr 2; omega
      · intro hal
        rw [read_ok (by omega)]
        simp
    · rw [if_neg hgt]
      exact ⟨fun area ha => by cases ha; exact hjunk (by omega), by simp⟩
  · rw [if_neg hc]
    have hc1 : pos % e.page = 0 := by
      rcases Nat.eq_zero_or_pos (pos % e.page) with h | h
      · exact h
      · exact absurd (.inl (by omega)) hc
    have hc2 : n % e.page = 0 := by
      rcases Nat.eq_zero_or_pos (n % e.page) with h | h
      · exact h
      · exact absurd (.inr (by omega)) hc
    have hall := fullSize_all hP0 ht hc1 (by rw [Nat.add_mod, hc1, hc2]; simp)
    exact ⟨fun area ha => by cases ha; exact hjunk (by rw [hA.1, hall]; exact Nat.le_refl _), by simp⟩

theorem Put.setRegion {e : Env} {V : Nat → Prop} {s s' : State} {off : Nat} {a : Bytes} (h : Put e V s off a s') (n : Nat) :
    Ok e (withRange V off a.length) { s' with region := n } ∧
    (∀ pos, withRange V off a.length pos → PageCache.view e { s' with region := n } pos = putAt (PageCache.view e s) off a pos) ∧
    s.disk.len ≤ ({ s' with region := n } : State).disk.len := ⟨⟨h.ok.slot⟩, h.view, h.len⟩

/-- `Write`: on success the bytes are stored; on failure a front part of them is. -/
theorem write_spec {e : Env} (hP0 : 0 < e.page) {V : Nat → Prop} {s : State} (h : Ok e V s) (off : Nat) (data : Bytes) :
    (∃ m, m ≤ data.length ∧ ((write e s off data).2 = true → m = data.length) ∧
      (Ok e (withRange V off m) (write e s off data).1 ∧
       (∀ pos, withRange V off m pos → view e (write e s off data).1 pos = putAt (view e s) off (data.take m) pos) ∧
       s.disk.len ≤ (write e s off data).1.disk.len) ∧
      (write e s off data).1.region = max s.region (off + m)) ∧
    (align (off + data.length) e.page ≤ s.disk.len → (write e s off data).2 = true) := by
  have hmax : ∀ (m : Nat), (if off + m ≤ s.region then s.region else off + m) = max s.region (off + m) := by
    intro m
    split <;> omega
  unfold write
  obtain ⟨m, h1, h2, h3, h4, h5⟩ := writeCached_spec hP0 h (makeRequests_tiles hP0 s.region off data.length) rfl
  generalize writeCached e s (makeRequests e s.region off data.length) data = r at h2 h3 h4 h5
  obtain ⟨s1, rdata, rest⟩ := r
  simp only at h2 h3 h4 h5 ⊢
  subst h2
  have htl : (data.take m).length = m := by rw [List.length_take]; omega
  have hdl : (data.drop m).length = data.length - m := List.length_drop
  have hdone : data.length - (data.drop m).length = m := by omega
  rw [hdone]
  have hfail : ∃ m', m' ≤ data.length ∧ (false = true → m' = data.length) ∧
      (Ok e (withRange V off m') { s1 with region := if off + m ≤ s1.region then s1.region else off + m } ∧
       (∀ pos, withRange V off m' pos → view e { s1 with region := if off + m ≤ s1.region then s1.region else off + m } pos =
          putAt (view e s) off (data.take m') pos) ∧
       s.disk.len ≤ ({ s1 with region := if off + m ≤ s1.region then s1.region else off + m } : State).disk.len) ∧
      (if off + m ≤ s1.region then s1.region else off + m) = max s.region (off + m') := by
    refine ⟨m, h1, by simp, ?_, by rw [h4.region]; exact hmax m⟩
    have := h4.setRegion (if off + m ≤ s1.region then s1.region else off + m)
    rwa [htl] at this
  have hfull : ∀ (s2 : State), Put e V s off data s2 → ∀ k, k = data.length →
      ∃ m', m' ≤ data.length ∧ (true = true → m' = data.length) ∧
      (Ok e (withRange V off m') { s2 with region := if off + k ≤ s2.region then s2.region else off + k } ∧
       (∀ pos, withRange V off m' pos → view e { s2 with region := if off + k ≤ s2.region then s2.region else off + k } pos =
          putAt (view e s) off (data.take m') pos) ∧
       s.disk.len ≤ ({ s2 with region := if off + k ≤ s2.region then s2.region else off + k } : State).disk.len) ∧
      (if off + k ≤ s2.region then s2.region else off + k) = max s.region (off + m') := by
    intro s2 hp k hk
    subst hk
    refine ⟨data.length, Nat.le_refl _, fun _ => rfl, ?_, by rw [hp.region]; exact hmax _⟩
    have := hp.setRegion (if off + data.length ≤ s2.region then s2.region else off + data.length)
    rwa [List.take_length]
  match rest, h3 with
  | [], h3 =>
    dsimp only
    have hm : off + m = off + data.length := h3
    refine ⟨?_, by simp⟩
    apply hfull _ _ _ (by omega)
    rwa [List.take_of_length_le (by omega)] at h4
  | [r], h3 =>
    obtain ⟨a1, a2, a3, a4, a5⟩ := h3.head hP0
    have hfin : off + m + r.copy = off + data.length := by
      obtain ⟨_, _, _, _, _, _, h3⟩ := h3; exact h3
    dsimp only
    cases hp : prepare e (s1.slots (slotIndex e r.off)) s1.disk r.off r.size (r.copy ≠ r.size) none with
    | none =>
      refine ⟨hfail, ?_⟩
      intro hal
      exfalso
      have hn := prepare_none hp
      have := (areaSize_eq hP0 h3).2
      simp only [total, List.map_cons, List.map_nil, List.sum_cons, List.sum_nil] at this
      unfold fresh at hn
      rw [read_ok (by rw [h5]; omega)] at hn
      simp only at hn
      split at hn <;> cases hn
    | some q =>
      obtain ⟨ps, p⟩ := q
      dsimp only
      refine ⟨?_, by simp⟩
      apply hfull _ _ _ (by omega)
      have htake : (data.drop m).take r.copy = data.drop m := List.take_of_length_le (by omega)
      rw [htake]
      have hput := store_spec hP0 h4.ok a1 a5 a4 (data := data.drop m) (by omega) (by
        intro b hb
        unfold fresh at hb
        simp only at hb
        split at hb
        · rw [read_some hb]
          exact ⟨bytes_length _ _ _, fun j hj => .inr (bytes_get hj)⟩
        · rename_i hc
          simp only [ne_eq, decide_not, Bool.not_eq_true', decide_eq_false_iff_not, Decidable.not_not] at hc
          cases hb
          refine ⟨bytes_length _ _ _, fun j hj => .inl ?_⟩
          unfold Covered
          omega) hp
      rw [a2] at hput
      have hall := h4.append (b := data.drop m) (by rw [htl]; rw [htl] at hput; exact hput)
      rw [List.take_append_drop] at hall
      exact hall.same (same_reduce hall.ok [slotIndex e r.off])
  | r :: r' :: rs, h3 =>
    dsimp only
    have h3' : Tiles e.page (off + m) (r :: r' :: rs) (off + m + (data.drop m).length) := by
      rw [hdl, show off + m + (data.length - m) = off + data.length by omega]; exact h3
    obtain ⟨hl1, hl2⟩ := loadArea_spec (d := s1.disk) hP0 h3'
    cases hr : loadArea e s1.disk (r :: r' :: rs) (off + m) (data.drop m).length with
    | none =>
      refine ⟨hfail, ?_⟩
      intro hal
      exfalso
      apply hl2 _ hr
      rw [hdl, show off + m + (data.length - m) = off + data.length by omega, h5]; exact hal
    | some area =>
      dsimp only
      refine ⟨?_, by simp⟩
      apply hfull _ _ _ rfl
      have hput := writeBatch_spec hP0 (data := data.drop m) h4.ok h3 (hl1 area hr) (by omega)
      have hall := h4.append (b := data.drop m) (by rw [htl]; rw [htl] at hput; exact hput)
      rw [List.take_append_drop] at hall
      exact hall.same (same_reduce hall.ok _)

/-! ### Flushing -/

theorem flushKeys_spec {e : Env} {V : Nat → Prop} {i : Nat} {sel : Nat → Bool} : ∀ (ks : List Nat) (ps : Pages) (d : Disk), SlotOk e V i ps d →
    SlotStep e V i ps d (flushKeys e sel ks ps d).1 (flushKeys e sel ks ps d).2 ∧
    (∀ x q, get (flushKeys e sel ks ps d).1 x = some q → q.dirty = true → get ps x = some q ∧ ¬ (x ∈ ks ∧ sel x = true))
  | [], ps, d, h => ⟨SlotStep.refl h, fun x q hx _ => ⟨hx, by simp⟩⟩
  | k :: ks, ps, d, h => by
    unfold flushKeys
    cases hg : get ps k with
    | none =>
      obtain ⟨h1, h2⟩ := flushKeys_spec ks ps d h
      refine ⟨h1, fun x q hx hd => ?_⟩
      obtain ⟨h3, h4⟩ := h2 x q hx hd
      refine ⟨h3, fun hc => ?_⟩
      rcases List.mem_cons.1 hc.1 with rfl | hm
      · rw [hg] at h3; cases h3
      · exact h4 ⟨hm, hc.2⟩
    | some p =>
      simp only
      by_cases hc : (p.dirty && sel k) = true
      · rw [if_pos hc]
        obtain ⟨w1, w2, w3, _⟩ := writePages_spec h hg
        obtain ⟨h1, h2⟩ := flushKeys_spec ks _ _ w1.ok
        refine ⟨w1.trans h1, fun x q hx hd => ?_⟩
        obtain ⟨h3, h4⟩ := h2 x q hx hd
        refine ⟨w3 x q h3 hd, fun hc' => ?_⟩
        rcases List.mem_cons.1 hc'.1 with rfl | hm
        · rw [w2] at h3
          cases h3
          cases hd
        · exact h4 ⟨hm, hc'.2⟩
      · rw [if_neg hc]
        obtain ⟨h1, h2⟩ := flushKeys_spec ks ps d h
        refine ⟨h1, fun x q hx hd => ?_⟩
        obtain ⟨h3, h4⟩ := h2 x q hx hd
        refine ⟨h3, fun hc' => ?_⟩
        rcases List.mem_cons.1 hc'.1 with rfl | hm
        · rw [hg] at h3
          cases h3
          rw [hd, hc'.2] at hc
          exact hc rfl
        · exact h4 ⟨hm, hc'.2⟩

theorem get_mem_keys : ∀ {ps : Pages} {x : Nat} {q : Page}, get ps x = some q → x ∈ ps.map (·.1)
  | [], _, _, h => by cases h
  | (k, p) :: r, x, q, h => by
    unfold get at h
    split at h
    · rename_i hk; simp [hk]
    · simp only [List.map_cons, List.mem_cons]
      exact .inr (get_mem_keys h)

theorem flushSlot_spec {e : Env} {V : Nat → Prop} {sel : Nat → Bool} {s : State} (h : Ok e V s) (i : Nat) :
    Same e V s (flushSlot e sel s i) ∧
    (∀ j x q, get ((flushSlot e sel s i).slots j) x = some q → q.dirty = true →
      get (s.slots j) x = some q ∧ ¬ (j = i ∧ sel x = true)) := by
  obtain ⟨h1, h2⟩ := flushKeys_spec (sel := sel) ((s.slots i).map (·.1)) (s.slots i) s.disk (h.slot i)
  obtain ⟨h3, h4⟩ := h.step h1
  refine ⟨⟨h3, h4, h1.len, rfl⟩, ?_⟩
  intro j x q hx hd
  simp only [flushSlot, State.setSlot] at hx
  by_cases hj : j = i
  · rw [if_pos hj] at hx
    subst hj
    obtain ⟨h5, h6⟩ := h2 x q hx hd
    exact ⟨h5, fun hc => h6 ⟨get_mem_keys h5, hc.2⟩⟩
  · rw [if_neg hj] at hx
    exact ⟨hx, fun hc => hj hc.1⟩

theorem flushSlots_spec {e : Env} {V : Nat → Prop} {sel : Nat → Bool} : ∀ (is : List Nat) (s : State), Ok e V s →
    Same e V s (is.foldl (flushSlot e sel) s) ∧
    (∀ j x q, get ((is.foldl (flushSlot e sel) s).slots j) x = some q → q.dirty = true →
      get (s.slots j) x = some q ∧ ¬ (j ∈ is ∧ sel x = true))
  | [], s, h => ⟨Same.refl h, fun j x q hx _ => ⟨hx, by simp⟩⟩
  | i :: is, s, h => by
    obtain ⟨h1, h2⟩ := flushSlot_spec (sel := sel) h i
    obtain ⟨h3, h4⟩ := flushSlots_spec is _ h1.ok
    refine ⟨h1.trans h3, ?_⟩
    intro j x q hx hd
    obtain ⟨h5, h6⟩ := h4 j x q hx hd
    obtain ⟨h7, h8⟩ := h2 j x q h5 hd
    refine ⟨h7, fun hc => ?_⟩
    rcases List.mem_cons.1 hc.1 with hji | hm
    · exact h8 ⟨hji, hc.2⟩
    · exact h6 ⟨hm, hc.2⟩

theorem slotIndex_lt (e : Env) (pos : Nat) : slotIndex e pos < 16 := Nat.mod_lt _ (by decide)

/-- Writing all the slots: what is seen stays, and the file has what is seen at the selected pages. -/
theorem flushAll_spec {e : Env} (hP0 : 0 < e.page) {V : Nat → Prop} {sel : Nat → Bool} {s : State} (h : Ok e V s) :
    Same e V s ((List.range 16).foldl (flushSlot e sel) s) ∧
    ∀ pos, V pos → sel (pos / e.page * e.page) = true → ((List.range 16).foldl (flushSlot e sel) s).disk.data pos = view e s pos := by
  obtain ⟨h1, h2⟩ := flushSlots_spec (sel := sel) (List.range 16) s h
  refine ⟨h1, fun pos hV hs => ?_⟩
  rw [← h1.view pos hV]
  generalize (List.range 16).foldl (flushSlot e sel) s = s' at h1 h2
  unfold view lv atPos
  cases hg : get (s'.slots (slotIndex e pos)) (pos / e.page * e.page) with
  | none => rfl
  | some q =>
    simp only [Option.bind_some]
    have hclean : q.dirty = false := by
      cases hd : q.dirty with
      | false => rfl
      | true =>
        obtain ⟨_, h4⟩ := h2 _ _ q hg hd
        exact absurd ⟨List.mem_range.2 (slotIndex_lt e pos), hs⟩ h4
    obtain ⟨_, _, _, h5⟩ := h1.ok.slot _ _ _ hg
    by_cases hlt : pos % e.page < q.buf.length
    · have := h5 hclean _ hlt (by rw [base_add]; exact hV)
      rw [this, base_add]; rfl
    · rw [List.getElem?_eq_none (by omega)]; rfl

end Verif.PageCache
