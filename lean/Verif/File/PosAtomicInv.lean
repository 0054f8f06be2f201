import Verif.File.PosAtomic
import Verif.File.MmapAtomicProps
/-
The invariant of concurrent calls on a `PositionalAtomicFile`.
-/
namespace Verif.PosAtomic
open Verif Verif.Linear
open Verif.PageCache (Disk align)
open Verif.Positional (truncateDisk)
open Verif.Mmap (Cfg)
open Verif.MmapAtomic (Call Out Ev Resized Does bytesOf get_set)

/-- The bytes of the file as they are in memory. -/
def content (m : Mem) : Bytes := (List.range m.size).map m.disk.data

theorem content_len (m : Mem) : (content m).length = m.size := by simp [content]

theorem content_get {m : Mem} {pos : Nat} (h : pos < m.size) : (content m)[pos]? = some (m.disk.data pos) := by
  simp [content, List.getElem?_range h]

/-- The call has the lock. -/
def Active : Pc → Prop
  | .zone | .copy .. | .leave _ => True
  | _ => False

def Copying : Pc → Prop
  | .copy .. => True
  | _ => False

/-- The first `k` bytes of `data` have been stored at `off`, and the file was `A` before. -/
structure Half (m : Mem) (A : Bytes) (off : Nat) (data : Bytes) (k : Nat) : Prop where
  le : k ≤ data.length
  size : m.size = max A.length (off + data.length)
  new : ∀ i, i < k → data[i]? = some (m.disk.data (off + i))
  old : ∀ pos, pos < A.length → ¬ (off ≤ pos ∧ pos < off + k) → A[pos]? = some (m.disk.data pos)
  room : m.disk.len ≤ m.map ∧ A.length ≤ m.disk.len ∧ (0 < k → off + k ≤ m.disk.len) ∧ (m.map = m.disk.len ∨ (data ≠ [] ∧ m.map = off + data.length))

def Mid (m : Mem) (A : Bytes) (j : Job) : Prop :=
  match j.pc with
  | .copy off k buf => match j.call with
    | .read o n => o = off ∧ off + n ≤ A.length ∧ k ≤ n ∧ buf = (A.drop off).take k
    | .write o data => o = off ∧ Half m A off data k
    | .append data => off = A.length ∧ Half m A off data k
    | _ => False
  | _ => True

def Fresh (ord : List (Nat × Call × Out)) (i : Nat) (j : Job) : Prop :=
  match j.pc with
  | .leave out => (i, j.call, out) ∈ ord
  | .fin => True
  | _ => i ∉ ord.map (·.1)

structure Inv (f0 : Bytes) (s : Sys) (ord : List (Nat × Call × Out)) (A : Bytes) : Prop where
  ser : Serial Does f0 ord A
  exp : Explains ord s.hist
  inv : ∀ i j, s.jobs[i]? = some j → HEv.inv i j.call ∈ s.hist
  ids : ∀ x ∈ ord, x.1 < s.jobs.length
  fresh : ∀ i j, s.jobs[i]? = some j → Fresh ord i j
  hold : ∀ i j, s.jobs[i]? = some j → Active j.pc → if exclusive j.call then s.mem.writer = some i else i ∈ s.mem.readers
  wr : ∀ i, s.mem.writer = some i → s.mem.readers = [] ∧ ∃ j, s.jobs[i]? = some j ∧ exclusive j.call = true ∧ Active j.pc
  rd : ∀ i ∈ s.mem.readers, ∃ j, s.jobs[i]? = some j ∧ exclusive j.call = false ∧ Active j.pc
  lo : s.mem.size ≤ s.mem.map
  plain : (∀ (i : Nat) (j : Job), s.jobs[i]? = some j → exclusive j.call = true → ¬ Copying j.pc) → content s.mem = A ∧ s.mem.map = s.mem.disk.len
  mid : ∀ (i : Nat) (j : Job), s.jobs[i]? = some j → Mid s.mem A j

variable {f0 A : Bytes} {s : Sys} {ord : List (Nat × Call × Out)} {c : Conf}

theorem copying_active {p : Pc} (h : Copying p) : Active p := by
  cases p <;> first | trivial | exact h.elim

theorem mid_idle {m : Mem} {A : Bytes} {j : Job} (h : ¬ Copying j.pc) : Mid m A j := by
  unfold Mid
  split
  · rename_i e; rw [e] at h; exact absurd trivial h
  · trivial

theorem Inv.alone (h : Inv f0 s ord A) {id : Nat} {j : Job} (hj : s.jobs[id]? = some j) (he : exclusive j.call = true) (ha : Active j.pc) {i : Nat} {j' : Job}
    (hi : s.jobs[i]? = some j') (hne : i ≠ id) : ¬ Active j'.pc := by
  intro ha'
  have h1 := h.hold id j hj ha
  rw [he, if_pos rfl] at h1
  have h2 := h.hold i j' hi ha'
  split at h2
  · rw [h1] at h2; injection h2 with h2; exact hne h2.symm
  · rw [(h.wr id h1).1] at h2; cases h2

/-- Where the file is the one in memory: with the lock shared, and with the lock exclusively before copying. -/
theorem Inv.seen (h : Inv f0 s ord A) {id : Nat} {j : Job} (hj : s.jobs[id]? = some j) (ha : Active j.pc) (hn : exclusive j.call = true → ¬ Copying j.pc) :
    content s.mem = A ∧ s.mem.map = s.mem.disk.len := by
  refine h.plain fun i j' hi he hc => ?_
  by_cases e : i = id
  · subst e
    rw [hj] at hi
    cases hi
    exact hn he hc
  · cases hx : exclusive j.call with
    | true => exact h.alone hj hx ha hi e (copying_active hc)
    | false =>
      have h1 := h.hold id j hj ha
      simp only [hx] at h1
      have h2 := h.hold i j' hi (copying_active hc)
      rw [he, if_pos rfl] at h2
      rw [(h.wr i h2).1] at h1
      simp at h1

theorem start_inv (m : Mem) (h1 : m.size ≤ m.map) (h2 : m.map = m.disk.len) (h4 : m.readers = []) (h5 : m.writer = none) :
    Inv (content m) (start m) [] (content m) where
  ser := rfl
  exp := ⟨by simp, by simp, by simp [start], by simp⟩
  inv := by simp [start]
  ids := by simp
  fresh := by simp [start]
  hold := by simp [start]
  wr := by simp [start, h5]
  rd := by simp [start, h4]
  lo := h1
  plain := fun _ => ⟨rfl, h2⟩
  mid := by simp [start]

theorem Inv.call (h : Inv f0 s ord A) (cl : Call) : Inv f0 (step c s (.call cl)) ord A := by
  have hg : ∀ {i : Nat} {j : Job}, (s.jobs ++ [⟨cl, .wait⟩])[i]? = some j → s.jobs[i]? = some j ∨ (i = s.jobs.length ∧ j = ⟨cl, .wait⟩) := by
    intro i j hj
    rw [List.getElem?_append] at hj
    split at hj
    · exact .inl hj
    · rename_i hl
      right
      have : i - s.jobs.length = 0 := by
        apply Classical.byContradiction
        intro hne
        rw [List.getElem?_eq_none (by simp; omega)] at hj
        cases hj
      rw [this] at hj
      simp at hj
      exact ⟨by omega, hj.symm⟩
  have hup : ∀ {i : Nat} {j : Job}, s.jobs[i]? = some j → (s.jobs ++ [⟨cl, .wait⟩])[i]? = some j := by
    intro i j hj
    rw [List.getElem?_append_left (List.getElem?_eq_some_iff.1 hj).1]
    exact hj
  have hno : s.jobs.length ∉ ord.map (·.1) := by
    intro hm
    obtain ⟨x, hx, e⟩ := List.mem_map.1 hm
    have := h.ids x hx
    omega
  refine ⟨h.ser, h.exp.inv _ _ hno, ?_, ?_, ?_, ?_, ?_, ?_, h.lo, ?_, ?_⟩
  · intro i j hj
    rcases hg hj with hj | ⟨rfl, rfl⟩
    · exact List.mem_append_left _ (h.inv i j hj)
    · simp [step]
  · intro x hx
    have := h.ids x hx
    simp [step]; omega
  · intro i j hj
    rcases hg hj with hj | ⟨rfl, rfl⟩
    · exact h.fresh i j hj
    · exact hno
  · intro i j hj ha
    rcases hg hj with hj | ⟨rfl, rfl⟩
    · exact h.hold i j hj ha
    · exact ha.elim
  · intro i hw
    obtain ⟨h1, j, h2, h3⟩ := h.wr i hw
    exact ⟨h1, j, hup h2, h3⟩
  · intro i hw
    obtain ⟨j, h2, h3⟩ := h.rd i hw
    exact ⟨j, hup h2, h3⟩
  · intro hp
    exact h.plain fun i j hj => hp i j (hup hj)
  · intro i j hj
    rcases hg hj with hj | ⟨rfl, rfl⟩
    · exact h.mid i j hj
    · trivial

/-- A step with the lock: more of the work, or its end, where the call takes its place in the order. -/
theorem Inv.advance (h : Inv f0 s ord A) {id : Nat} {cl : Call} {pc : Pc} (ht : s.jobs[id]? = some ⟨cl, pc⟩) (ha : pc = .zone ∨ Copying pc) {m' : Mem} {pc' : Pc}
    {A' : Bytes} {ord' : List (Nat × Call × Out)} (hr : m'.readers = s.mem.readers) (hw : m'.writer = s.mem.writer) (lo : m'.size ≤ m'.map)
    (hc : (ord' = ord ∧ A' = A ∧ Copying pc') ∨ ∃ out, pc' = .leave out ∧ ord' = ord ++ [(id, cl, out)] ∧ Does A cl A' out)
    (hself : Mid m' A' ⟨cl, pc'⟩) (hoth : ∀ (i : Nat) (j : Job), s.jobs[i]? = some j → i ≠ id → Mid m' A' j)
    (hp : (∀ (i : Nat) (j : Job), (s.jobs.set id ⟨cl, pc'⟩)[i]? = some j → exclusive j.call = true → ¬ Copying j.pc) → content m' = A' ∧ m'.map = m'.disk.len) :
    Inv f0 ⟨m', s.jobs.set id ⟨cl, pc'⟩, s.hist⟩ ord' A' := by
  have hact : Active pc := by
    rcases ha with rfl | ha
    · trivial
    · exact copying_active ha
  have hact' : Active pc' := by
    rcases hc with ⟨_, _, hc⟩ | ⟨out, rfl, _⟩
    · exact copying_active hc
    · trivial
  have hno : id ∉ ord.map (·.1) := by
    have := h.fresh id _ ht
    rcases ha with rfl | ha
    · exact this
    · cases pc <;> first | exact ha.elim | exact this
  have hlt := (List.getElem?_eq_some_iff.1 ht).1
  have hself' : (s.jobs.set id ⟨cl, pc'⟩)[id]? = some ⟨cl, pc'⟩ := List.getElem?_set_self hlt
  refine ⟨?_, ?_, ?_, ?_, ?_, ?_, ?_, ?_, lo, hp, ?_⟩
  · rcases hc with ⟨rfl, rfl, _⟩ | ⟨out, _, rfl, hd⟩
    · exact h.ser
    · exact h.ser.snoc id hd
  · rcases hc with ⟨rfl, rfl, _⟩ | ⟨out, _, rfl, hd⟩
    · exact h.exp
    · exact h.exp.commit id cl out hno (h.inv id _ ht)
  · intro i j hj
    rcases get_set hj with ⟨rfl, rfl⟩ | ⟨_, hj⟩
    · exact h.inv i ⟨cl, pc⟩ ht
    · exact h.inv i j hj
  · intro x hx
    simp only [List.length_set]
    rcases hc with ⟨rfl, rfl, _⟩ | ⟨out, _, rfl, hd⟩
    · exact h.ids x hx
    · simp at hx
      rcases hx with hx | rfl
      · exact h.ids x hx
      · exact hlt
  · intro i j hj
    rcases get_set hj with ⟨rfl, rfl⟩ | ⟨hne, hj⟩
    · rcases hc with ⟨rfl, rfl, hc⟩ | ⟨out, rfl, rfl, hd⟩
      · cases pc' <;> first | exact hc.elim | exact hno
      · simp [Fresh]
    · have := h.fresh i j hj
      rcases hc with ⟨rfl, rfl, hc⟩ | ⟨out, rfl, rfl, hd⟩
      · exact this
      · unfold Fresh at this ⊢
        split <;> rename_i e <;> simp only [e] at this
        · exact List.mem_append_left _ this
        · trivial
        · simp only [List.map_append, List.mem_append, not_or]
          exact ⟨this, by simpa using hne⟩
  · intro i j hj hj'
    rw [hr, hw]
    rcases get_set hj with ⟨rfl, rfl⟩ | ⟨_, hj⟩
    · exact h.hold i ⟨cl, pc⟩ ht hact
    · exact h.hold i j hj hj'
  · intro i hi
    rw [hw] at hi
    obtain ⟨h1, j, h2, h3, h4⟩ := h.wr i hi
    refine ⟨by rw [hr]; exact h1, ?_⟩
    by_cases e : i = id
    · subst e
      rw [ht] at h2
      cases h2
      exact ⟨_, hself', h3, hact'⟩
    · exact ⟨j, by rw [List.getElem?_set_ne (fun x => e x.symm)]; exact h2, h3, h4⟩
  · intro i hi
    rw [hr] at hi
    obtain ⟨j, h2, h3, h4⟩ := h.rd i hi
    by_cases e : i = id
    · subst e
      rw [ht] at h2
      cases h2
      exact ⟨_, hself', h3, hact'⟩
    · exact ⟨j, by rw [List.getElem?_set_ne (fun x => e x.symm)]; exact h2, h3, h4⟩
  · intro i j hj
    rcases get_set hj with ⟨rfl, rfl⟩ | ⟨hne, hj⟩
    · exact hself
    · exact hoth i j hj hne

/-- More copying by a call that has the lock exclusively. -/
theorem Inv.writes (h : Inv f0 s ord A) {id : Nat} {cl : Call} {pc : Pc} (ht : s.jobs[id]? = some ⟨cl, pc⟩) (ha : pc = .zone ∨ Copying pc) (he : exclusive cl = true)
    {m' : Mem} {pc' : Pc} (hr : m'.readers = s.mem.readers) (hw : m'.writer = s.mem.writer) (lo : m'.size ≤ m'.map)
    (hc : Copying pc') (hself : Mid m' A ⟨cl, pc'⟩) : Inv f0 ⟨m', s.jobs.set id ⟨cl, pc'⟩, s.hist⟩ ord A := by
  refine h.advance ht ha hr hw lo (.inl ⟨rfl, rfl, hc⟩) hself (fun i j hj hne => mid_idle fun hcop => h.alone ht he ?_ hj hne (copying_active hcop)) ?_
  · rcases ha with rfl | ha
    · trivial
    · exact copying_active ha
  · intro hp
    exact absurd hc (hp id _ (List.getElem?_set_self (List.getElem?_eq_some_iff.1 ht).1) he)

/-- The work of a call that has the lock exclusively is done. -/
theorem Inv.wrote (h : Inv f0 s ord A) {id : Nat} {cl : Call} {pc : Pc} (ht : s.jobs[id]? = some ⟨cl, pc⟩) (ha : pc = .zone ∨ Copying pc) (he : exclusive cl = true)
    {m' : Mem} {out : Out} (hr : m'.readers = s.mem.readers) (hw : m'.writer = s.mem.writer) (lo : m'.size ≤ m'.map) (hi : m'.map = m'.disk.len)
    (hd : Does A cl (content m') out) :
    Inv f0 ⟨m', s.jobs.set id ⟨cl, .leave out⟩, s.hist⟩ (ord ++ [(id, cl, out)]) (content m') := by
  refine h.advance ht ha hr hw lo (.inr ⟨out, rfl, rfl, hd⟩) trivial (fun i j hj hne => mid_idle fun hcop => h.alone ht he ?_ hj hne (copying_active hcop)) fun _ => ⟨rfl, hi⟩
  rcases ha with rfl | ha
  · trivial
  · exact copying_active ha

/-- A step of a call that shares the lock. -/
theorem Inv.reads (h : Inv f0 s ord A) {id : Nat} {cl : Call} {pc : Pc} (ht : s.jobs[id]? = some ⟨cl, pc⟩) (ha : pc = .zone ∨ Copying pc) (he : exclusive cl = false)
    {pc' : Pc} {ord' : List (Nat × Call × Out)} (hc : (ord' = ord ∧ Copying pc') ∨ ∃ out, pc' = .leave out ∧ ord' = ord ++ [(id, cl, out)] ∧ Does A cl A out)
    (hself : Mid s.mem A ⟨cl, pc'⟩) : Inv f0 ⟨s.mem, s.jobs.set id ⟨cl, pc'⟩, s.hist⟩ ord' A := by
  refine h.advance ht ha rfl rfl h.lo (hc.imp (fun x => ⟨x.1, rfl, x.2⟩) fun x => x) hself (fun i j hj _ => h.mid i j hj) fun _ => ?_
  refine h.seen ht ?_ fun x => by rw [he] at x; cases x
  rcases ha with rfl | ha
  · trivial
  · exact copying_active ha

theorem align_le (n u : Nat) : n ≤ align n u := Positional.align_le

theorem truncateDisk_data {d : Disk} {n pos : Nat} (h : pos < d.len) (h' : pos < n) : (truncateDisk d n).data pos = d.data pos := if_pos ⟨h, h'⟩

theorem grow_spec (c : Conf) (m : Mem) (n : Nat) (hi : m.map = m.disk.len) : (grow c m n).size = m.size ∧ n ≤ (grow c m n).map ∧ m.map ≤ (grow c m n).map ∧
    ((grow c m n).map = (grow c m n).disk.len ∨ (c.fit = true ∧ m.map < n ∧ (grow c m n).map = n ∧ (grow c m n).disk = m.disk)) ∧ m.disk.len ≤ (grow c m n).disk.len ∧
    (∀ pos, pos < m.map → (grow c m n).disk.data pos = m.disk.data pos) ∧ (grow c m n).readers = m.readers ∧ (grow c m n).writer = m.writer := by
  unfold grow
  split
  · exact ⟨rfl, by assumption, Nat.le_refl _, .inl hi, Nat.le_refl _, fun _ _ => rfl, rfl, rfl⟩
  · rename_i hn
    split
    · rename_i hf
      exact ⟨rfl, Nat.le_refl _, by show m.map ≤ n; omega, .inr ⟨hf, by omega, rfl, rfl⟩, Nat.le_refl _, fun _ _ => rfl, rfl, rfl⟩
    · have h1 := align_le (max n (c.scale m.map)) c.page
      refine ⟨rfl, ?_, ?_, .inl rfl, ?_, fun pos hp => ?_, rfl, rfl⟩
      · show n ≤ align _ _; omega
      · show m.map ≤ align _ _; omega
      · show m.disk.len ≤ align _ _; omega
      · exact truncateDisk_data (by omega) (by omega)

theorem reserve_spec (c : Conf) (m : Mem) (off n : Nat) (lo : m.size ≤ m.map) (hi : m.map = m.disk.len) : (reserve c m off n).size = max m.size (off + n) ∧
    (reserve c m off n).size ≤ (reserve c m off n).map ∧
    ((reserve c m off n).map = (reserve c m off n).disk.len ∨ (c.fit = true ∧ m.map < off + n ∧ (reserve c m off n).map = off + n ∧ (reserve c m off n).disk = m.disk)) ∧
    m.disk.len ≤ (reserve c m off n).disk.len ∧
    (∀ pos, pos < m.size → (reserve c m off n).disk.data pos = m.disk.data pos) ∧ (reserve c m off n).readers = m.readers ∧
    (reserve c m off n).writer = m.writer := by
  obtain ⟨h1, h2, h3, h4, h5, h6, h7, h8⟩ := grow_spec c m (off + n) hi
  refine ⟨?_, ?_, h4, h5, fun pos hp => h6 pos (by omega), h7, h8⟩
  · show max (grow c m (off + n)).size _ = _
    rw [h1]
  · show max (grow c m (off + n)).size (off + n) ≤ (grow c m (off + n)).map
    omega

theorem reserve_half (c : Conf) {m : Mem} {A : Bytes} (hA : content m = A) (lo : m.size ≤ m.map) (hi : m.map = m.disk.len) (off : Nat) (data : Bytes)
    (hq : c.fit = true → data ≠ [] ∨ off + data.length ≤ m.map) : Half (reserve c m off data.length) A off data 0 := by
  obtain ⟨h1, _, h3, h5, h4, _⟩ := reserve_spec c m off data.length lo hi
  subst hA
  refine ⟨Nat.zero_le _, by rw [h1, content_len], fun i hi => absurd hi (Nat.not_lt_zero _), fun pos hp _ => ?_, ?_⟩
  · rw [content_len] at hp
    rw [content_get hp, h4 pos hp]
  · rw [content_len]
    rcases h3 with h3 | ⟨hf, h6, h7, h8⟩
    · exact ⟨by omega, by omega, by omega, .inl h3⟩
    · rw [h8]
      refine ⟨by omega, by omega, by omega, .inr ⟨?_, h7⟩⟩
      rcases hq hf with hq | hq
      · exact hq
      · omega

theorem half_room {m : Mem} {A : Bytes} {off : Nat} {data : Bytes} (h : Half m A off data data.length) : m.map = m.disk.len := by
  obtain ⟨h1, h2, h3, h4 | ⟨h4, h5⟩⟩ := h.room
  · exact h4
  · have := h3 (List.length_pos_iff.2 h4)
    omega

theorem half_done {m : Mem} {A : Bytes} {off : Nat} {data : Bytes} (h : Half m A off data data.length) :
    (content m).length = max A.length (off + data.length) ∧ (∀ i, i < data.length → (content m)[off + i]? = data[i]?) ∧
      ∀ pos, pos < A.length → ¬ (off ≤ pos ∧ pos < off + data.length) → (content m)[pos]? = A[pos]? := by
  have hs := h.size
  refine ⟨by rw [content_len, hs], fun i hi => ?_, fun pos hp hn => ?_⟩
  · rw [content_get (by omega), h.new i hi]
  · rw [content_get (by omega), h.old pos hp hn]

theorem half_append {m : Mem} {A : Bytes} {data : Bytes} (h : Half m A A.length data data.length) : content m = A ++ data := by
  obtain ⟨h1, h2, h3⟩ := half_done h
  apply List.ext_getElem?
  intro pos
  by_cases hp : pos < A.length
  · rw [h3 pos hp (by omega), List.getElem?_append_left hp]
  · by_cases hq : pos < A.length + data.length
    · have := h2 (pos - A.length) (by omega)
      rw [show A.length + (pos - A.length) = pos by omega] at this
      rw [this, List.getElem?_append_right (by omega)]
    · rw [List.getElem?_eq_none (by omega), List.getElem?_eq_none (by simp; omega)]

theorem resized_content {m m' : Mem} {n : Nat} (hs : m'.size = n)
    (hd : ∀ pos, pos < m.size → pos < n → m'.disk.data pos = m.disk.data pos) : Resized (content m) n (content m') := by
  refine ⟨by rw [content_len, hs], fun pos h1 h2 => ?_⟩
  rw [content_len] at h2
  rw [content_get (by omega), content_get h2, hd pos h2 h1]

theorem content_congr {m m' : Mem} (hs : m'.size = m.size) (hd : ∀ pos, pos < m.size → m'.disk.data pos = m.disk.data pos) : content m' = content m := by
  unfold content
  rw [hs]
  exact List.map_congr_left fun pos hp => hd pos (by simpa using hp)

end Verif.PosAtomic
