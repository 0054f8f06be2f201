import Verif.File.PageCacheRuns
/-
C44: the page cache is transparent.
-/
namespace Verif.PageCache
open Verif

/-- An operation on the cache. `grow` is what `AllocateSpace` does: the file is extended and the region size set
(tkrzw_file_pos.cc 534-558). -/
inductive Op where
  | read (off size : Nat)
  | write (off : Nat) (data : Bytes)
  | flush (off size : Nat)
  | grow (size : Nat)

/-- What an operation gives to its caller: whether it succeeded, and the bytes read. -/
inductive Out where
  | got (bytes : Bytes)
  | done
  | failed
  deriving DecidableEq

/-- `TruncateFile` to a larger size (tkrzw_file_pos.cc 549). -/
def Disk.grow (d : Disk) (size : Nat) : Disk := ⟨max d.len size, d.data⟩

/-- An operation on the cache and its file. -/
def step (e : Env) (s : State) : Op → State × Out
  | .read off size => let r := read e s off size; (r.1, match r.2 with | some b => .got b | none => .failed)
  | .write off data => let r := write e s off data; (r.1, if r.2 then .done else .failed)
  | .flush off size => (flush e s off size, .done)
  | .grow size => (setRegion { s with disk := s.disk.grow size } size, .done)

def run (e : Env) : State → List Op → State × List Out
  | s, [] => (s, [])
  | s, o :: os => let r := step e s o; let r' := run e r.1 os; (r'.1, r.2 :: r'.2)

/-! ### SPECIFICATION: a plain file -/

/-- A file without a cache: its size and its bytes. -/
structure Plain where
  len : Nat
  data : Nat → UInt8

/-- What an operation on a plain file may do. A read gives the bytes of the file or fails; a write stores the bytes, or fails after having
stored some of them from the beginning. -/
inductive Plain.Does : Plain → Op → Out → Plain → Prop
  | read (m : Plain) (off size : Nat) : Does m (.read off size) (.got ((List.range size).map fun i => m.data (off + i))) m
  | readFails (m : Plain) (off size : Nat) : Does m (.read off size) .failed m
  | write (m m' : Plain) (off : Nat) (data : Bytes) (hlen : m'.len = m.len)
      (hin : ∀ i, i < data.length → some (m'.data (off + i)) = data[i]?)
      (hout : ∀ pos, pos < off ∨ off + data.length ≤ pos → m'.data pos = m.data pos) : Does m (.write off data) .done m'
  | writeFails (m m' : Plain) (off k : Nat) (data : Bytes) (hlen : m'.len = m.len) (hk : k ≤ data.length)
      (hin : ∀ i, i < k → some (m'.data (off + i)) = data[i]?)
      (hout : ∀ pos, pos < off ∨ off + k ≤ pos → m'.data pos = m.data pos) : Does m (.write off data) .failed m'
  | flush (m : Plain) (off size : Nat) : Does m (.flush off size) .done m
  | grow (m : Plain) (size : Nat) : Does m (.grow size) .done ⟨max m.len size, m.data⟩

inductive Plain.DoesAll : Plain → List Op → List Out → Plain → Prop
  | nil (m : Plain) : DoesAll m [] [] m
  | cons {m m' m'' : Plain} {o : Op} {out : Out} {os : List Op} {outs : List Out} (h : Plain.Does m o out m') (h' : DoesAll m' os outs m'') :
      DoesAll m (o :: os) (out :: outs) m''

/-- The end of the region of an operation, rounded up to a whole page, is within the file. -/
def HasRoom (page len : Nat) : Op → Prop
  | .read off size => (off + size + page - 1) / page * page ≤ len
  | .write off data => (off + data.length + page - 1) / page * page ≤ len
  | _ => True

/-- All operations have room, given the growing of the file. -/
def AllRoom (page : Nat) : Nat → List Op → Prop
  | _, [] => True
  | len, o :: os => HasRoom page len o ∧ AllRoom page (match o with | .grow n => max len n | _ => len) os

/-! ### Proofs -/

theorem align_eq {P n : Nat} (hP0 : 0 < P) : align n P = (n + P - 1) / P * P := by
  have hb := base_add P n
  have hlt := Nat.mod_lt n hP0
  unfold align
  by_cases h : n % P > 0
  · rw [if_pos h, show n + P - 1 = (n % P - 1) + P * (n / P + 1) by rw [Nat.mul_add, Nat.mul_one, Nat.mul_comm P]; omega,
      Nat.add_mul_div_left _ _ hP0, Nat.div_eq_of_lt (by omega), Nat.zero_add, Nat.add_mul, Nat.one_mul]
    omega
  · rw [if_neg h, show n + P - 1 = (P - 1) + P * (n / P) by rw [Nat.mul_comm P]; omega, Nat.add_mul_div_left _ _ hP0,
      Nat.div_eq_of_lt (by omega), Nat.zero_add]
    omega

/-- The cache and a plain file show the same bytes. -/
structure Rel (e : Env) (s : State) (m : Plain) : Prop where
  ok : Ok e (fun _ => True) s
  view : ∀ pos, view e s pos = m.data pos
  len : m.len ≤ s.disk.len

theorem withRange_true (off n : Nat) : withRange (fun _ => True) off n = fun _ => True := by
  funext pos
  simp [withRange]

theorem rel_init {e : Env} (d : Disk) : Rel e (init d) ⟨d.len, d.data⟩ :=
  ⟨⟨fun i k p h => by cases h⟩, fun _ => rfl, Nat.le_refl _⟩

theorem rel_step {e : Env} (hP0 : 0 < e.page) {s : State} {m : Plain} (h : Rel e s m) (o : Op) :
    ∃ m', Plain.Does m o (step e s o).2 m' ∧ Rel e (step e s o).1 m' ∧
      (HasRoom e.page m.len o → (step e s o).2 ≠ .failed ∧ m'.len = (match o with | .grow n => max m.len n | _ => m.len)) := by
  cases o with
  | read off size =>
    obtain ⟨h1, h2, h3⟩ := read_spec hP0 h.ok off size
    have hrel : Rel e (read e s off size).1 m :=
      ⟨h1.ok, fun pos => (h1.view pos trivial).trans (h.view pos), Nat.le_trans h.len h1.len⟩
    refine ⟨m, ?_, hrel, ?_⟩
    · simp only [step]
      cases hr : (read e s off size).2 with
      | none => exact .readFails _ _ _
      | some b =>
        obtain ⟨h4, h5⟩ := h2 b hr
        have : b = (List.range size).map fun i => m.data (off + i) := by
          apply List.ext_getElem?
          intro j
          by_cases hj : j < b.length
          · rw [h5 j hj trivial, h.view, List.getElem?_map, List.getElem?_range (by omega)]; rfl
          · rw [List.getElem?_eq_none (by omega), List.getElem?_eq_none (by simp; omega)]
        rw [this]
        exact .read _ _ _
    · intro hr
      refine ⟨?_, rfl⟩
      simp only [step]
      have := h3 (by rw [align_eq hP0]; exact Nat.le_trans hr h.len)
      cases hr' : (read e s off size).2 with
      | none => exact absurd hr' this
      | some b => simp
  | write off data =>
    obtain ⟨⟨k, h1, h2, ⟨h3, h4, h5⟩, _⟩, h7⟩ := write_spec hP0 h.ok off data
    rw [withRange_true] at h3 h4
    have hin : ∀ i, i < k → some (putAt (view e s) off (data.take k) (off + i)) = data[i]? := by
      intro i hi
      unfold putAt
      rw [if_pos (by rw [List.length_take]; omega), show off + i - off = i by omega, List.getElem?_take, if_pos hi,
        List.getElem?_eq_getElem (by omega)]
      rfl
    have hout : ∀ pos, pos < off ∨ off + k ≤ pos → putAt (view e s) off (data.take k) pos = m.data pos := by
      intro pos hp
      unfold putAt
      rw [if_neg (by rw [List.length_take]; omega), h.view]
    refine ⟨⟨m.len, putAt (view e s) off (data.take k)⟩, ?_, ⟨h3, fun pos => h4 pos trivial, Nat.le_trans h.len h5⟩, ?_⟩
    · simp only [step]
      cases hr : (write e s off data).2 with
      | true =>
        have := h2 hr
        subst this
        exact .write _ _ _ _ rfl hin hout
      | false => exact .writeFails _ _ _ k _ rfl h1 hin hout
    · intro hr
      refine ⟨?_, rfl⟩
      simp only [step]
      rw [h7 (by rw [align_eq hP0]; exact Nat.le_trans hr h.len)]
      simp
  | flush off size =>
    obtain ⟨h1, _⟩ := flushAll_spec hP0 (sel := fun k => decide (off - off % e.page ≤ k ∧
      k < align (off + (if size = 0 then s.region - off else size)) e.page)) h.ok
    exact ⟨m, .flush _ _ _, ⟨h1.ok, fun pos => (h1.view pos trivial).trans (h.view pos), Nat.le_trans h.len h1.len⟩,
      fun _ => ⟨by simp [step], rfl⟩⟩
  | grow n =>
    refine ⟨⟨max m.len n, m.data⟩, .grow _ _, ⟨⟨h.ok.slot⟩, h.view, ?_⟩, fun _ => ⟨by simp [step], rfl⟩⟩
    have := h.len
    simp only [step, setRegion, Disk.grow]
    omega

theorem rel_run {e : Env} (hP0 : 0 < e.page) : ∀ (ops : List Op) {s : State} {m : Plain}, Rel e s m →
    ∃ m', Plain.DoesAll m ops (run e s ops).2 m' ∧ Rel e (run e s ops).1 m' ∧ (AllRoom e.page m.len ops → .failed ∉ (run e s ops).2)
  | [], s, m, h => ⟨m, .nil m, h, fun _ => by simp [run]⟩
  | o :: os, s, m, h => by
    obtain ⟨m1, h1, h2, h3⟩ := rel_step hP0 h o
    obtain ⟨m2, h4, h5, h6⟩ := rel_run hP0 os h2
    refine ⟨m2, .cons h1 h4, h5, ?_⟩
    intro ⟨hr, hr'⟩
    obtain ⟨h7, h8⟩ := h3 hr
    simp only [run, List.mem_cons, not_or]
    exact ⟨fun hc => h7 hc.symm, h6 (by rw [h8]; exact hr')⟩

/-! ### The number of pages -/

/-- The slots other than those listed keep at most their capacity of pages. -/
def Small (e : Env) (is : List Nat) (s : State) : Prop := ∀ i, i ∉ is → (s.slots i).length ≤ e.cap

theorem length_del_head (k : Nat) (p : Page) (r : Pages) : (del ((k, p) :: r) k).length ≤ r.length := by
  unfold del
  rw [List.filter_cons_of_neg (by simp)]
  exact List.length_filter_le _ _

theorem length_del_of_head {ps : Pages} {k : Nat} {n : Nat} (hk : (ps.map (·.1)).head? = some k) (hn : ps.length = n + 1) : (del ps k).length ≤ n := by
  cases ps with
  | nil => simp at hk
  | cons r ps =>
    obtain ⟨k', p⟩ := r
    simp only [List.map_cons, List.head?_cons, Option.some.injEq] at hk
    subst hk
    have := length_del_head k' p ps
    simp only [List.length_cons] at hn
    omega

theorem reduceN_length {e : Env} {V : Nat → Prop} {i : Nat} : ∀ (n : Nat) (ps : Pages) (d : Disk), SlotOk e V i ps d →
    (reduceN e n ps d).1.length ≤ ps.length - n
  | 0, _, _, _ => Nat.le_refl _
  | n + 1, ps, d, h => by
    unfold reduceN
    cases ps with
    | nil => simp
    | cons r rest =>
      obtain ⟨k, p⟩ := r
      have hg : get ((k, p) :: rest) k = some p := by simp [get]
      simp only
      by_cases hd : p.dirty = true
      · rw [if_pos hd]
        obtain ⟨h1, h2, _, h4⟩ := writePages_spec h hg
        have h3 := del_spec h1.ok h2 rfl
        have := reduceN_length n _ _ h3.ok
        have hl : (writePages e ((k, p) :: rest) d k p).1.length = rest.length + 1 := by
          have := congrArg List.length h4
          simpa using this
        have := length_del_of_head (k := k) (by rw [h4]; rfl) hl
        simp only [List.length_cons]
        omega
      · rw [if_neg hd]
        have h3 := del_spec h hg (by simpa using hd)
        have := reduceN_length n _ _ h3.ok
        have := length_del_head k p rest
        simp only [List.length_cons]
        omega

theorem small_reduce {e : Env} {V : Nat → Prop} : ∀ (is : List Nat) {s : State}, Ok e V s → Small e is s → Small e [] (is.foldl (reduce e) s)
  | [], _, _, h => h
  | i :: is, s, hok, h => by
    refine small_reduce is (reduce_spec hok i).1 ?_
    intro j hj
    simp only [reduce, State.setSlot]
    by_cases hji : j = i
    · rw [if_pos hji]
      have := reduceN_length ((s.slots i).length - e.cap) (s.slots i) s.disk (hok.slot i)
      omega
    · rw [if_neg hji]
      exact h j (by simp [hji, hj])

theorem length_set_some {ps : Pages} {k : Nat} {p q : Page} (h : get ps k = some q) : (set ps k p).length = ps.length := by
  have := congrArg List.length (keys_set (p := p) h)
  simpa using this

theorem length_del_lt : ∀ {ps : Pages} {k : Nat} {p : Page}, get ps k = some p → (del ps k).length + 1 ≤ ps.length
  | [], _, _, h => by cases h
  | (k', p') :: r, k, p, h => by
    by_cases hk : k' = k
    · subst hk
      have := length_del_head k' p' r
      simp only [List.length_cons]; omega
    · simp only [get, if_neg hk] at h
      have := length_del_lt h
      unfold del at this ⊢
      rw [List.filter_cons_of_pos (by simpa using hk)]
      simp only [List.length_cons]; omega

theorem length_moveLast (ps : Pages) (k : Nat) : (moveLast ps k).length ≤ ps.length := by
  unfold moveLast
  split
  · rename_i p h
    have := length_del_lt h
    simp only [List.length_append, List.length_cons, List.length_nil]; omega
  · exact Nat.le_refl _

theorem small_setSlot {e : Env} {is : List Nat} {s : State} (h : Small e is s) {i : Nat} {ps : Pages} (hi : i ∈ is ∨ ps.length ≤ (s.slots i).length) :
    Small e is (s.setSlot i ps) := by
  intro j hj
  simp only [State.setSlot]
  by_cases hji : j = i
  · rw [if_pos hji]
    subst hji
    rcases hi with hi | hi
    · exact absurd hi hj
    · exact Nat.le_trans hi (h j hj)
  · rw [if_neg hji]; exact h j hj

theorem small_readCached {e : Env} : ∀ {rs : List Req} {s : State} {acc : Bytes}, Small e [] s → Small e [] (readCached e s rs acc).1
  | [], _, _, h => h
  | r :: rs, s, acc, h => by
    have hm := small_setSlot h (i := slotIndex e r.off) (.inr (length_moveLast (s.slots (slotIndex e r.off)) r.off))
    unfold readCached
    simp only
    split
    · split
      · exact small_readCached hm
      · exact hm
    · exact hm

theorem small_writeCached {e : Env} : ∀ {rs : List Req} {s : State} {data : Bytes}, Small e [] s → Small e [] (writeCached e s rs data).1
  | [], _, _, h => h
  | r :: rs, s, data, h => by
    have hm := small_setSlot h (i := slotIndex e r.off) (.inr (length_moveLast (s.slots (slotIndex e r.off)) r.off))
    unfold writeCached
    simp only
    cases hg : get (s.slots (slotIndex e r.off)) r.off with
    | none => exact hm
    | some p =>
      simp only
      split
      · apply small_writeCached
        apply small_setSlot h
        right
        rw [length_set_some (q := p) (by rw [get_moveLast]; exact hg)]
        exact length_moveLast _ _
      · exact hm

theorem small_readBatch {e : Env} {is : List Nat} : ∀ {rs : List Req} {s : State} {area acc : Bytes}, Small e is s →
    (∀ r ∈ rs, slotIndex e r.off ∈ is) → Small e is (readBatch e s rs area acc).1
  | [], _, _, _, h, _ => h
  | r :: rs, s, area, acc, h, hi => by
    unfold readBatch
    simp only
    split
    · exact small_readBatch (small_setSlot h (.inl (hi r List.mem_cons_self))) fun r' hr' => hi r' (List.mem_cons_of_mem _ hr')
    · exact h

theorem small_writeBatch {e : Env} {is : List Nat} : ∀ {rs : List Req} {s : State} {area data : Bytes}, Small e is s →
    (∀ r ∈ rs, slotIndex e r.off ∈ is) → Small e is (writeBatch e s rs area data)
  | [], _, _, _, h, _ => h
  | r :: rs, s, area, data, h, hi => by
    unfold writeBatch
    simp only
    split
    · exact small_writeBatch (small_setSlot h (.inl (hi r List.mem_cons_self))) fun r' hr' => hi r' (List.mem_cons_of_mem _ hr')
    · exact h

theorem mem_slotsOf {e : Env} {rs : List Req} {r : Req} (h : r ∈ rs) : slotIndex e r.off ∈ slotsOf e rs := by
  unfold slotsOf
  rw [List.mem_filter]
  refine ⟨List.mem_range.2 (slotIndex_lt _ _), ?_⟩
  rw [List.any_eq_true]
  exact ⟨r, h, by simp⟩

theorem Small.weaken {e : Env} {s : State} (h : Small e [] s) (is : List Nat) : Small e is s := fun i _ => h i (by simp)

theorem small_read {e : Env} (hP0 : 0 < e.page) {s : State} (hok : Ok e (fun _ => True) s) (h : Small e [] s) (off size : Nat) :
    Small e [] (read e s off size).1 := by
  unfold read
  obtain ⟨got, _, h2, _, h4, h5⟩ := readCached_spec hP0 (acc := []) hok (makeRequests_tiles hP0 s.region off size)
  have hs := small_readCached (rs := makeRequests e s.region off size) (acc := []) h
  generalize readCached e s (makeRequests e s.region off size) [] = r at h2 h4 h5 hs
  obtain ⟨s1, acc, rest⟩ := r
  dsimp only at h2 h4 h5 hs ⊢
  match rest, h2 with
  | [], _ => exact hs
  | [r], h2 =>
    obtain ⟨a1, a2, a3, a4, a5⟩ := h2.head hP0
    dsimp only
    cases hp : prepare e (s1.slots (slotIndex e r.off)) s1.disk r.off r.size true none with
    | none => exact hs
    | some q =>
      obtain ⟨ps, p⟩ := q
      obtain ⟨hs', _, _⟩ := fetch_spec hP0 h4.ok a1 a5 (by
        intro b hb
        simp only [fresh, if_true] at hb
        rw [read_some hb]
        exact ⟨bytes_length _ _ _, fun j hj => bytes_get hj⟩) hp
      exact small_reduce [slotIndex e r.off] hs'.ok (small_setSlot (hs.weaken _) (.inl (by simp)))
  | r :: r' :: rs, h2 =>
    dsimp only
    have hA := areaSize_eq hP0 h2
    cases hr : s1.disk.read r.off (areaSize (r :: r' :: rs)) with
    | none => exact hs
    | some area =>
      have harea := read_some hr
      have hal : area.length = total (r :: r' :: rs) := by rw [harea, bytes_length, hA.1]
      have hok : AreaOk s1.disk (fun _ _ => False) (r :: r' :: rs) area := by
        refine areaOk_of (skip := 0) hP0 h2 hal ?_ (Nat.zero_le _) (by simp)
        intro j _ hj
        rw [harea, bytes_length] at hj
        rw [harea, bytes_get hj]
      obtain ⟨_, _, _, _, g4⟩ := readBatch_spec hP0 (acc := acc) h4.ok h2 hok
      exact small_reduce _ g4.ok (small_readBatch (hs.weaken _) fun r hr => mem_slotsOf hr)

theorem small_write {e : Env} (hP0 : 0 < e.page) {s : State} (hok : Ok e (fun _ => True) s) (h : Small e [] s) (off : Nat) (data : Bytes) :
    Small e [] (write e s off data).1 := by
  have hsr : ∀ (s : State) (n : Nat), Small e [] s → Small e [] { s with region := n } := fun _ _ h => h
  unfold write
  obtain ⟨m, h1, h2, h3, h4, h5⟩ := writeCached_spec hP0 hok (makeRequests_tiles hP0 s.region off data.length) rfl
  have hs := small_writeCached (rs := makeRequests e s.region off data.length) (data := data) h
  generalize writeCached e s (makeRequests e s.region off data.length) data = r at h2 h3 h4 h5 hs
  obtain ⟨s1, rdata, rest⟩ := r
  dsimp only at h2 h3 h4 h5 hs ⊢
  subst h2
  have hdl : (data.drop m).length = data.length - m := List.length_drop
  have hok1 := h4.ok
  rw [withRange_true] at hok1
  rw [show data.length - (data.drop m).length = m by omega]
  match rest, h3 with
  | [], _ => exact hsr _ _ hs
  | [r], h3 =>
    obtain ⟨a1, a2, a3, a4, a5⟩ := h3.head hP0
    have hfin : off + m + r.copy = off + data.length := by
      obtain ⟨_, _, _, _, _, _, h3⟩ := h3; exact h3
    dsimp only
    cases hp : prepare e (s1.slots (slotIndex e r.off)) s1.disk r.off r.size (r.copy ≠ r.size) none with
    | none => exact hsr _ _ hs
    | some q =>
      obtain ⟨ps, p⟩ := q
      apply hsr
      have htake : (data.drop m).take r.copy = data.drop m := List.take_of_length_le (by omega)
      rw [htake]
      have hput := store_spec hP0 hok1 a1 a5 a4 (data := data.drop m) (by omega) (by
        intro b hb
        unfold fresh at hb
        simp only at hb
        split at hb
        · rw [read_some hb]
          exact ⟨bytes_length _ _ _, fun j hj => .inr (bytes_get hj)⟩
        · rename_i hc
          simp only [ne_eq, decide_not, Bool.not_eq_true', decide_eq_false_iff_not, Decidable.not_not] at hc
          cases hb
          refine ⟨bytes_length _ _ _, fun j hj => .inl ?_⟩
          unfold Covered
          omega) hp
      exact small_reduce [slotIndex e r.off] hput.ok (small_setSlot (hs.weaken _) (.inl (by simp)))
  | r :: r' :: rs, h3 =>
    dsimp only
    have h3' : Tiles e.page (off + m) (r :: r' :: rs) (off + m + (data.drop m).length) := by
      rw [hdl, show off + m + (data.length - m) = off + data.length by omega]; exact h3
    obtain ⟨hl1, hl2⟩ := loadArea_spec (d := s1.disk) hP0 h3'
    cases hr : loadArea e s1.disk (r :: r' :: rs) (off + m) (data.drop m).length with
    | none => exact hsr _ _ hs
    | some area =>
      have hput := writeBatch_spec hP0 (data := data.drop m) hok1 h3 (hl1 area hr) (by omega)
      exact hsr _ _ (small_reduce _ hput.ok (small_writeBatch (hs.weaken _) fun r hr => mem_slotsOf hr))

theorem length_flushKeys {e : Env} {V : Nat → Prop} {i : Nat} {sel : Nat → Bool} : ∀ (ks : List Nat) (ps : Pages) (d : Disk), SlotOk e V i ps d →
    (flushKeys e sel ks ps d).1.length = ps.length
  | [], _, _, _ => rfl
  | k :: ks, ps, d, h => by
    unfold flushKeys
    cases hg : get ps k with
    | none => exact length_flushKeys ks ps d h
    | some p =>
      simp only
      split
      · obtain ⟨w1, _, _, w4⟩ := writePages_spec h hg
        rw [length_flushKeys ks _ _ w1.ok]
        have := congrArg List.length w4
        simpa using this
      · exact length_flushKeys ks ps d h

theorem small_flush {e : Env} {sel : Nat → Bool} : ∀ (is : List Nat) {s : State}, Ok e (fun _ => True) s → Small e [] s →
    Small e [] (is.foldl (flushSlot e sel) s)
  | [], _, _, h => h
  | i :: is, s, hok, h => by
    refine small_flush is (flushSlot_spec hok i).1.ok ?_
    exact small_setSlot h (.inr (Nat.le_of_eq (length_flushKeys _ _ _ (hok.slot i))))

theorem small_run {e : Env} (hP0 : 0 < e.page) : ∀ (ops : List Op) {s : State} {m : Plain}, Rel e s m → (∀ i, (s.slots i).length ≤ e.cap) →
    ∀ i, ((run e s ops).1.slots i).length ≤ e.cap
  | [], _, _, _, h => h
  | o :: os, s, m, hr, h => by
    obtain ⟨m1, _, h2, _⟩ := rel_step hP0 hr o
    refine small_run hP0 os h2 ?_
    have hsm : Small e [] s := fun i _ => h i
    have : Small e [] (step e s o).1 := by
      cases o with
      | read off size => exact small_read hP0 hr.ok hsm off size
      | write off data => exact small_write hP0 hr.ok hsm off data
      | flush off size => exact small_flush _ hr.ok hsm
      | grow n => exact hsm
    exact fun i => this i (by simp)

/-! ### C44 -/

/-- C44: any history of reads, writes, flushes and extensions through the cache gives what it can give on a plain file: every read that succeeds
gives the bytes last written, whatever is cached, evicted or left in fresh memory. -/
theorem C44_transparent (e : Env) (hP0 : 0 < e.page) (d : Disk) (ops : List Op) :
    ∃ m, Plain.DoesAll ⟨d.len, d.data⟩ ops (run e (init d) ops).2 m := by
  obtain ⟨m, h, _⟩ := rel_run hP0 ops (rel_init (e := e) d)
  exact ⟨m, h⟩

/-- C44: no read and no write fails, if each one ends within the file as it is extended, in whole pages. -/
theorem C44_succeeds (e : Env) (hP0 : 0 < e.page) (d : Disk) (ops : List Op) (hr : AllRoom e.page d.len ops) :
    .failed ∉ (run e (init d) ops).2 := by
  obtain ⟨m, _, _, h⟩ := rel_run hP0 ops (rel_init (e := e) d)
  exact h hr

/-- C44: after a flush of a region, the file itself has the bytes of the region. -/
theorem C44_flush (e : Env) (hP0 : 0 < e.page) (d : Disk) (ops : List Op) (off size : Nat) (hs : 0 < size) :
    ∃ m, Plain.DoesAll ⟨d.len, d.data⟩ ops (run e (init d) ops).2 m ∧
      ∀ pos, off ≤ pos → pos < off + size → (flush e (run e (init d) ops).1 off size).disk.data pos = m.data pos := by
  obtain ⟨m, h, h2, _⟩ := rel_run hP0 ops (rel_init (e := e) d)
  refine ⟨m, h, fun pos hl hu => ?_⟩
  generalize (run e (init d) ops).1 = s at h2
  obtain ⟨_, h4⟩ := flushAll_spec hP0 (sel := fun k => decide (off - off % e.page ≤ k ∧
    k < align (off + (if size = 0 then s.region - off else size)) e.page)) h2.ok
  rw [← h2.view pos]
  apply h4 pos trivial
  rw [decide_eq_true_eq, if_neg (by omega)]
  have hb := base_add e.page pos
  have hb' := base_add e.page off
  have hdiv : off / e.page * e.page ≤ pos / e.page * e.page := Nat.mul_le_mul_right _ (Nat.div_le_div_right hl)
  refine ⟨by omega, ?_⟩
  have := le_align hP0 (base_mod e.page pos) (f := off + size) (by omega)
  omega

/-- C44: after a flush of the whole, the file has all bytes below the region size. -/
theorem C44_flush_all (e : Env) (hP0 : 0 < e.page) (d : Disk) (ops : List Op) :
    ∃ m, Plain.DoesAll ⟨d.len, d.data⟩ ops (run e (init d) ops).2 m ∧
      ∀ pos, pos < (run e (init d) ops).1.region → (flush e (run e (init d) ops).1 0 0).disk.data pos = m.data pos := by
  obtain ⟨m, h, h2, _⟩ := rel_run hP0 ops (rel_init (e := e) d)
  refine ⟨m, h, fun pos hu => ?_⟩
  generalize (run e (init d) ops).1 = s at h2 hu
  obtain ⟨_, h4⟩ := flushAll_spec hP0 (sel := fun k => decide (0 - 0 % e.page ≤ k ∧
    k < align (0 + (if 0 = 0 then s.region - 0 else 0)) e.page)) h2.ok
  rw [← h2.view pos]
  apply h4 pos trivial
  rw [decide_eq_true_eq, if_pos rfl]
  have hb := base_add e.page pos
  have := le_align hP0 (base_mod e.page pos) (f := 0 + (s.region - 0)) (by omega)
  omega

/-- C44: the region size covers all that was written with success since the last extension. -/
theorem C44_region (e : Env) (hP0 : 0 < e.page) (d : Disk) (ops : List Op) (off : Nat) (data : Bytes) :
    let s := (run e (init d) ops).1
    (write e s off data).2 = true → (write e s off data).1.region = max s.region (off + data.length) := by
  intro s hw
  obtain ⟨m, _, h2, _⟩ := rel_run hP0 ops (rel_init (e := e) d)
  obtain ⟨⟨k, _, h3, _, h5⟩, _⟩ := write_spec hP0 h2.ok off data
  rw [h5, h3 hw]

/-- C44: when the cache is destroyed, the file has all bytes. -/
theorem C44_destroy (e : Env) (hP0 : 0 < e.page) (d : Disk) (ops : List Op) :
    ∃ m, Plain.DoesAll ⟨d.len, d.data⟩ ops (run e (init d) ops).2 m ∧ (destroy e (run e (init d) ops).1).data = m.data := by
  obtain ⟨m, h, h2, _⟩ := rel_run hP0 ops (rel_init (e := e) d)
  refine ⟨m, h, ?_⟩
  obtain ⟨_, h4⟩ := flushAll_spec hP0 (sel := fun _ => true) h2.ok
  funext pos
  exact (h4 pos trivial rfl).trans (h2.view pos)

/-- C44: no slot ever keeps more pages than its capacity, after any operations. -/
theorem C44_capacity (e : Env) (hP0 : 0 < e.page) (d : Disk) (ops : List Op) (i : Nat) : ((run e (init d) ops).1.slots i).length ≤ e.cap :=
  (small_run hP0 ops (rel_init (e := e) d) (fun _ => Nat.zero_le _)) i

/-! ### Examples -/

/-- Pages of four bytes, one page per slot, fresh memory of 0xEE. -/
def exEnv : Env := Env.make 4 16 (fun _ => 0xEE)

def exDisk : Disk := ⟨1024, fun p => UInt8.ofNat p⟩

/-- Pages 0 and 1 share a slot that keeps one page: writing crosses them, reading after eviction gives what was written. -/
def exOps : List Op :=
  [.write 2 [1, 2, 3, 4], .read 0 10, .write 9 [9, 9, 9, 9, 9, 9, 9, 9], .read 8 12, .flush 0 0, .grow 2048, .write 1030 [7], .read 1028 4, .read 0 4]

example : AllRoom exEnv.page exDisk.len exOps := by
  simp only [exOps, AllRoom, HasRoom, exEnv, Env.make, exDisk, List.length_cons, List.length_nil]
  decide

example : (run exEnv (init exDisk) exOps).2 = [.done, .got [0, 1, 1, 2, 3, 4, 6, 7, 8, 9], .done,
    .got [8, 9, 9, 9, 9, 9, 9, 9, 9, 17, 18, 19], .done, .done, .done, .got [4, 5, 7, 7], .got [0, 1, 1, 2]] := by decide +kernel

example : ((flush exEnv (run exEnv (init exDisk) exOps).1 1028 4).disk.data 1030, (run exEnv (init exDisk) exOps).1.disk.data 4) = (7, 3) := by
  decide +kernel

/-- A write of a part of a page beyond the end of the file fails. -/
example : (run exEnv (init ⟨6, fun _ => 0⟩) [.write 5 [1]]).2 = [.failed] := by decide +kernel

end Verif.PageCache
