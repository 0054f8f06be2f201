import Verif.File.PosAtomicInv
/-
C84: calls on a `PositionalAtomicFile` are atomic.
-/
namespace Verif.PosAtomic
open Verif Verif.Linear
open Verif.PageCache (Disk align)
open Verif.Positional (truncateDisk)
open Verif.Mmap (Cfg)
open Verif.MmapAtomic (Call Out Ev Resized Does bytesOf get_set set_same sum_set)

variable {f0 A : Bytes} {s : Sys} {ord : List (Nat × Call × Out)} {c : Conf}

/-- Taking the lock. -/
theorem Inv.lock (h : Inv f0 s ord A) {id : Nat} {cl : Call} (ht : s.jobs[id]? = some ⟨cl, .wait⟩) {m' : Mem}
    (hm : (exclusive cl = true ∧ s.mem.writer = none ∧ s.mem.readers = [] ∧ m' = { s.mem with writer := some id }) ∨
      (exclusive cl = false ∧ s.mem.writer = none ∧ m' = { s.mem with readers := id :: s.mem.readers })) :
    Inv f0 ⟨m', s.jobs.set id ⟨cl, .zone⟩, s.hist⟩ ord A := by
  have hlt := (List.getElem?_eq_some_iff.1 ht).1
  have hself : (s.jobs.set id ⟨cl, .zone⟩)[id]? = some ⟨cl, .zone⟩ := List.getElem?_set_self hlt
  have hmem : m'.disk = s.mem.disk ∧ m'.size = s.mem.size ∧ m'.map = s.mem.map := by
    rcases hm with ⟨_, _, _, rfl⟩ | ⟨_, _, rfl⟩ <;> exact ⟨rfl, rfl, rfl⟩
  obtain ⟨e1, e2, e3⟩ := hmem
  have hmid : ∀ {j : Job}, Mid s.mem A j → Mid m' A j := by
    intro j hj
    unfold Mid at hj ⊢
    split
    · rename_i off k buf e
      simp only [e] at hj
      have hh : ∀ {data : Bytes}, Half s.mem A off data k → Half m' A off data k := fun hx => ⟨hx.le, by rw [e2]; exact hx.size, by rw [e1]; exact hx.new, by rw [e1]; exact hx.old, by rw [e1, e3]; exact hx.room⟩
      split <;> rename_i e' <;> simp only [e'] at hj
      · exact hj
      · exact ⟨hj.1, hh hj.2⟩
      · exact ⟨hj.1, hh hj.2⟩
    · trivial
  have hact : ∀ (i : Nat) (j : Job), s.jobs[i]? = some j → s.mem.writer = none → exclusive j.call = true → ¬ Active j.pc := by
    intro i j hj hw he ha
    have := h.hold i j hj ha
    rw [he, if_pos rfl, hw] at this
    cases this
  refine ⟨h.ser, h.exp, ?_, ?_, ?_, ?_, ?_, ?_, by rw [e2, e3]; exact h.lo, ?_, ?_⟩
  · intro i j hj
    rcases get_set hj with ⟨rfl, rfl⟩ | ⟨_, hj⟩
    · exact h.inv i ⟨cl, .wait⟩ ht
    · exact h.inv i j hj
  · intro x hx
    simp only [List.length_set]
    exact h.ids x hx
  · intro i j hj
    rcases get_set hj with ⟨rfl, rfl⟩ | ⟨_, hj⟩
    · exact h.fresh i ⟨cl, .wait⟩ ht
    · exact h.fresh i j hj
  · intro i j hj ha
    rcases get_set hj with ⟨rfl, rfl⟩ | ⟨_, hj⟩
    · rcases hm with ⟨he, _, _, rfl⟩ | ⟨he, _, rfl⟩ <;> simp [he]
    · have hh := h.hold i j hj ha
      split
      · rename_i he
        rcases hm with ⟨_, hw, _, _⟩ | ⟨_, hw, _⟩ <;> exact absurd ha (hact i j hj hw he)
      · rename_i he
        rw [if_neg he] at hh
        rcases hm with ⟨_, _, hr, rfl⟩ | ⟨_, _, rfl⟩
        · rw [hr] at hh; cases hh
        · exact List.mem_cons_of_mem _ hh
  · intro i hi
    rcases hm with ⟨he, _, hr, rfl⟩ | ⟨_, hw, rfl⟩
    · injection hi with hi
      subst hi
      exact ⟨hr, _, hself, he, trivial⟩
    · rw [show ({ s.mem with readers := id :: s.mem.readers } : Mem).writer = s.mem.writer from rfl, hw] at hi
      cases hi
  · intro i hi
    rcases hm with ⟨_, _, hr, rfl⟩ | ⟨he, hw, rfl⟩
    · rw [show ({ s.mem with writer := some id } : Mem).readers = s.mem.readers from rfl, hr] at hi
      cases hi
    · by_cases e : i = id
      · subst e
        exact ⟨_, hself, he, trivial⟩
      · have hi : i ∈ s.mem.readers := by
          rcases List.mem_cons.1 hi with hi | hi
          · exact absurd hi e
          · exact hi
        obtain ⟨j, h2, h3⟩ := h.rd i hi
        exact ⟨j, by rw [List.getElem?_set_ne (fun x => e x.symm)]; exact h2, h3⟩
  · intro _
    rw [content_congr (m := s.mem) e2 (fun pos _ => by rw [e1]), e3, e1]
    refine h.plain fun i j hj he hc => ?_
    rcases hm with ⟨_, hw, _, _⟩ | ⟨_, hw, _⟩ <;> exact hact i j hj hw he (copying_active hc)
  · intro i j hj
    rcases get_set hj with ⟨rfl, rfl⟩ | ⟨_, hj⟩
    · trivial
    · exact hmid (h.mid i j hj)

/-- Giving up the lock and returning. -/
theorem Inv.unlock (h : Inv f0 s ord A) {id : Nat} {cl : Call} {out : Out} (ht : s.jobs[id]? = some ⟨cl, .leave out⟩) {m' : Mem}
    (hm : (exclusive cl = true ∧ m' = { s.mem with writer := none }) ∨
      (exclusive cl = false ∧ m' = { s.mem with readers := s.mem.readers.filter (· ≠ id) })) :
    Inv f0 ⟨m', s.jobs.set id ⟨cl, .fin⟩, s.hist ++ [.ret id out]⟩ ord A := by
  have hin : (id, cl, out) ∈ ord := h.fresh id _ ht
  have hmem : m'.disk = s.mem.disk ∧ m'.size = s.mem.size ∧ m'.map = s.mem.map := by
    rcases hm with ⟨_, rfl⟩ | ⟨_, rfl⟩ <;> exact ⟨rfl, rfl, rfl⟩
  obtain ⟨e1, e2, e3⟩ := hmem
  have hmid : ∀ {j : Job}, Mid s.mem A j → Mid m' A j := by
    intro j hj
    unfold Mid at hj ⊢
    split
    · rename_i off k buf e
      simp only [e] at hj
      have hh : ∀ {data : Bytes}, Half s.mem A off data k → Half m' A off data k := fun hx => ⟨hx.le, by rw [e2]; exact hx.size, by rw [e1]; exact hx.new, by rw [e1]; exact hx.old, by rw [e1, e3]; exact hx.room⟩
      split <;> rename_i e' <;> simp only [e'] at hj
      · exact hj
      · exact ⟨hj.1, hh hj.2⟩
      · exact ⟨hj.1, hh hj.2⟩
    · trivial
  refine ⟨h.ser, h.exp.ret id cl out hin, ?_, ?_, ?_, ?_, ?_, ?_, by rw [e2, e3]; exact h.lo, ?_, ?_⟩
  · intro i j hj
    rcases get_set hj with ⟨rfl, rfl⟩ | ⟨_, hj⟩
    · exact List.mem_append_left _ (h.inv i ⟨cl, .leave out⟩ ht)
    · exact List.mem_append_left _ (h.inv i j hj)
  · intro x hx
    simp only [List.length_set]
    exact h.ids x hx
  · intro i j hj
    rcases get_set hj with ⟨rfl, rfl⟩ | ⟨_, hj⟩
    · trivial
    · exact h.fresh i j hj
  · intro i j hj ha
    rcases get_set hj with ⟨rfl, rfl⟩ | ⟨hne, hj2⟩
    · exact ha.elim
    · have hh := h.hold i j hj2 ha
      rcases hm with ⟨he, rfl⟩ | ⟨he, rfl⟩
      · exact absurd ha (h.alone ht he trivial hj2 hne)
      · split
        · rename_i hx; rw [if_pos hx] at hh; exact hh
        · rename_i hx
          rw [if_neg hx] at hh
          exact List.mem_filter.2 ⟨hh, by simpa using hne⟩
  · intro i hi
    rcases hm with ⟨he, rfl⟩ | ⟨he, rfl⟩
    · cases hi
    · have hh := h.hold id _ ht trivial
      simp only [he] at hh
      rw [(h.wr i hi).1] at hh
      simp at hh
  · intro i hi
    rcases hm with ⟨he, rfl⟩ | ⟨he, rfl⟩
    · have hh := h.hold id _ ht trivial
      simp only [he, if_true] at hh
      have hi : i ∈ s.mem.readers := hi
      rw [(h.wr id hh).1] at hi
      cases hi
    · obtain ⟨hi, hne⟩ := List.mem_filter.1 hi
      obtain ⟨j, h2, h3⟩ := h.rd i hi
      have hne : i ≠ id := by simpa using hne
      exact ⟨j, by rw [List.getElem?_set_ne (fun x => hne x.symm)]; exact h2, h3⟩
  · intro hp
    rw [content_congr (m := s.mem) e2 (fun pos _ => by rw [e1]), e3, e1]
    refine h.plain fun i j hj he hc => ?_
    by_cases e : i = id
    · subst e
      rw [ht] at hj
      cases hj
      exact hc.elim
    · exact hp i j (by rw [List.getElem?_set_ne (fun x => e x.symm)]; exact hj) he hc
  · intro i j hj
    rcases get_set hj with ⟨rfl, rfl⟩ | ⟨_, hj⟩
    · trivial
    · exact hmid (h.mid i j hj)

/-- SPECIFICATION: calls after which no byte of the file has been left out: those that make the file longer write its last byte. -/
def Filled : Call → Prop
  | .write _ data => data ≠ []
  | .expand n => n = 0
  | _ => True

/-- What a call does with the lock before it copies. -/
theorem Inv.zone (h : Inv f0 s ord A) {id : Nat} {cl : Call} (hok : c.fit = true → Filled cl) (ht : s.jobs[id]? = some ⟨cl, .zone⟩) :
    ∃ ord' A', Inv f0 ⟨(inside c s.mem cl).1, s.jobs.set id ⟨cl, (inside c s.mem cl).2⟩, s.hist⟩ ord' A' := by
  obtain ⟨hA, hhi⟩ := h.seen ht trivial fun _ x => x.elim
  have hlen : s.mem.size = A.length := by rw [← hA, content_len]
  have hlo := h.lo
  cases cl with
  | read off n =>
    unfold inside
    simp only
    split
    · exact ⟨_, A, h.reads ht (.inl rfl) rfl (.inr ⟨_, rfl, rfl, rfl, by rw [if_neg (by omega)]⟩) trivial⟩
    · exact ⟨_, A, h.reads ht (.inl rfl) rfl (.inl ⟨rfl, trivial⟩) ⟨rfl, by omega, Nat.zero_le _, by simp⟩⟩
  | write off data =>
    obtain ⟨h1, h2, _, _, _, h5, h6⟩ := reserve_spec c s.mem off data.length h.lo hhi
    exact ⟨_, A, h.writes ht (.inl rfl) rfl h5 h6 h2 trivial ⟨rfl, reserve_half c hA h.lo hhi off data fun hf => .inl (hok hf)⟩⟩
  | append data =>
    obtain ⟨h1, h2, _, _, _, h5, h6⟩ := reserve_spec c s.mem s.mem.size data.length h.lo hhi
    refine ⟨_, A, h.writes ht (.inl rfl) rfl h5 h6 h2 trivial ⟨hlen, reserve_half c hA h.lo hhi s.mem.size data fun _ => ?_⟩⟩
    cases data with
    | nil => right; simpa using hlo
    | cons a l => left; simp
  | expand n =>
    obtain ⟨h1, h2, h3, _, h4, h5, h6⟩ := reserve_spec c s.mem s.mem.size n h.lo hhi
    have h3 : (reserve c s.mem s.mem.size n).map = (reserve c s.mem s.mem.size n).disk.len := by
      rcases h3 with h3 | ⟨hf, h7, _⟩
      · exact h3
      · have : n = 0 := hok hf
        omega
    refine ⟨_, _, h.wrote ht (.inl rfl) rfl h5 h6 h2 h3 ⟨by rw [hlen], (content (reserve c s.mem s.mem.size n)).drop A.length, ?_, ?_⟩⟩
    · rw [List.length_drop, content_len, h1]; omega
    · show content (reserve c s.mem s.mem.size n) = _
      rw [← hA, content_len]
      conv => lhs; rw [← List.take_append_drop s.mem.size (content (reserve c s.mem s.mem.size n))]
      congr 1
      apply List.ext_getElem?
      intro pos
      by_cases hp : pos < s.mem.size
      · rw [List.getElem?_take, if_pos hp, content_get (by omega), content_get hp, h4 pos hp]
      · rw [List.getElem?_take, if_neg hp, List.getElem?_eq_none (by rw [content_len]; omega)]
  | truncate n =>
    have hle : n ≤ (if c.fit then max n c.init else align (max (max n c.page) c.init) c.page) := by
      have := align_le (max (max n c.page) c.init) c.page
      split <;> omega
    refine ⟨_, _, h.wrote (m' := truncate c s.mem n) ht (.inl rfl) rfl rfl rfl hle rfl ⟨rfl, ?_⟩⟩
    rw [← hA]
    exact resized_content rfl fun pos h1 h2 => truncateDisk_data (by omega) (by omega)
  | truncateFakely n =>
    unfold inside
    simp only
    split
    · refine ⟨_, _, h.wrote (m' := s.mem) ht (.inl rfl) rfl rfl rfl h.lo hhi (.inr ⟨rfl, by omega, hA⟩)⟩
    · refine ⟨_, _, h.wrote (m' := { s.mem with size := n }) ht (.inl rfl) rfl rfl rfl (by show n ≤ s.mem.map; omega) hhi (.inl ⟨rfl, ?_⟩)⟩
      rw [← hA]
      exact resized_content rfl fun _ _ _ => rfl
  | synchronize =>
    refine ⟨_, _, h.wrote (m' := synchronize s.mem) ht (.inl rfl) rfl rfl rfl (Nat.le_refl _) rfl ⟨rfl, ?_⟩⟩
    exact (content_congr (m := s.mem) (m' := synchronize s.mem) rfl fun pos hp => truncateDisk_data (by omega) hp).trans hA
  | getSize => exact ⟨_, A, h.reads ht (.inl rfl) rfl (.inr ⟨_, rfl, rfl, by rw [hlen], rfl⟩) trivial⟩

/-- Reading and writing. -/
theorem Inv.copy (h : Inv f0 s ord A) {id : Nat} {cl : Call} {off k : Nat} {buf : Bytes} (ht : s.jobs[id]? = some ⟨cl, .copy off k buf⟩) :
    ∃ ord' A', Inv f0 ⟨(go c s.mem id cl (.copy off k buf)).1, s.jobs.set id ⟨cl, (go c s.mem id cl (.copy off k buf)).2.1⟩, s.hist⟩ ord' A' := by
  have hmid := h.mid id _ ht
  have hlo := h.lo
  have wr : ∀ {data : Bytes}, exclusive cl = true → k < data.length → Half s.mem A off data k → Half { s.mem with disk := putByte s.mem.disk (off + k) ((data[k]?).getD 0) } A off data (k + 1) := by
    intro data _ hk hh
    have hsz := hh.size
    obtain ⟨r1, r2, r3, r4⟩ := hh.room
    refine ⟨hk, hh.size, fun i hi => ?_, fun pos hp hn => ?_, ?_⟩
    · show data[i]? = some (if off + i = off + k then _ else _)
      by_cases e : i = k
      · subst e
        rw [if_pos rfl, List.getElem?_eq_getElem hk]; rfl
      · rw [if_neg (by omega), if_pos (by omega)]
        exact hh.new i (by omega)
    · show A[pos]? = some (if pos = off + k then _ else _)
      rw [if_neg (by omega), if_pos (by omega)]
      exact hh.old pos hp (by omega)
    · show max s.mem.disk.len (off + k + 1) ≤ s.mem.map ∧ A.length ≤ max s.mem.disk.len (off + k + 1) ∧ (0 < k + 1 → off + (k + 1) ≤ max s.mem.disk.len (off + k + 1)) ∧
        (s.mem.map = max s.mem.disk.len (off + k + 1) ∨ (data ≠ [] ∧ s.mem.map = off + data.length))
      refine ⟨by omega, by omega, by omega, ?_⟩
      rcases r4 with r4 | r4
      · left; omega
      · exact .inr r4
  cases cl with
  | read o n =>
    obtain ⟨hA, hhi⟩ := h.seen ht trivial fun x => by cases x
    have hlen : s.mem.size = A.length := by rw [← hA, content_len]
    obtain ⟨rfl, h1, h2, h3⟩ := hmid
    unfold go
    simp only
    split
    · rename_i e
      have e : k = n := e
      subst e
      exact ⟨_, A, h.reads ht (.inr trivial) rfl (.inr ⟨_, rfl, rfl, rfl, by rw [if_pos h1, ← h3]; rfl⟩) trivial⟩
    · rename_i e
      have e : k ≠ n := e
      unfold copyByte
      rw [if_pos (by omega)]
      refine ⟨_, A, h.reads ht (.inr trivial) rfl (.inl ⟨rfl, trivial⟩) ⟨rfl, h1, by omega, ?_⟩⟩
      have hg : A[o + k]? = some (s.mem.disk.data (o + k)) := by rw [← hA]; exact content_get (by omega)
      rw [h3, List.take_succ, List.getElem?_drop, hg]
      rfl
  | write o data =>
    obtain ⟨rfl, h1⟩ := hmid
    have hs := h1.size
    have hle := h1.le
    unfold go
    simp only
    split
    · rename_i e
      have e : k = data.length := e
      subst e
      exact ⟨_, _, h.wrote (m' := s.mem) ht (.inr trivial) rfl rfl rfl h.lo (half_room h1) ⟨rfl, half_done h1⟩⟩
    · rename_i e
      have e : k ≠ data.length := e
      unfold copyByte
      exact ⟨_, A, h.writes ht (.inr trivial) rfl rfl rfl h.lo trivial ⟨rfl, wr rfl (by omega) h1⟩⟩
  | append data =>
    obtain ⟨rfl, h1⟩ := hmid
    have hs := h1.size
    have hle := h1.le
    unfold go
    simp only
    split
    · rename_i e
      have e : k = data.length := e
      subst e
      exact ⟨_, _, h.wrote (m' := s.mem) ht (.inr trivial) rfl rfl rfl h.lo (half_room h1) ⟨rfl, half_append h1⟩⟩
    · rename_i e
      have e : k ≠ data.length := e
      unfold copyByte
      exact ⟨_, A, h.writes ht (.inr trivial) rfl rfl rfl h.lo trivial ⟨rfl, wr rfl (by omega) h1⟩⟩
  | expand n => exact hmid.elim
  | truncate n => exact hmid.elim
  | truncateFakely n => exact hmid.elim
  | synchronize => exact hmid.elim
  | getSize => exact hmid.elim

theorem Inv.step (hok : ∀ (id : Nat) (j : Job), s.jobs[id]? = some j → c.fit = true → Filled j.call) (h : Inv f0 s ord A) (ev : Ev) : ∃ ord' A', Inv f0 (step c s ev) ord' A' := by
  cases ev with
  | call cl => exact ⟨ord, A, h.call cl⟩
  | go id =>
    unfold PosAtomic.step
    simp only
    cases ht : s.jobs[id]? with
    | none => exact ⟨ord, A, h⟩
    | some j =>
      obtain ⟨cl, pc⟩ := j
      cases pc with
      | wait =>
        have hsame : Inv f0 ⟨s.mem, s.jobs.set id ⟨cl, .wait⟩, s.hist ++ []⟩ ord A := by
          rw [set_same ht, List.append_nil]
          exact h
        unfold go
        simp only
        split
        · rename_i he
          split
          · rename_i hw
            simp only [Option.toList_none, List.map_nil, List.append_nil]
            exact ⟨ord, A, h.lock ht (.inl ⟨he, hw.1, hw.2, rfl⟩)⟩
          · exact ⟨ord, A, hsame⟩
        · rename_i he
          split
          · rename_i hw
            simp only [Option.toList_none, List.map_nil, List.append_nil]
            exact ⟨ord, A, h.lock ht (.inr ⟨by simpa using he, hw, rfl⟩)⟩
          · exact ⟨ord, A, hsame⟩
      | zone =>
        obtain ⟨ord', A', h'⟩ := h.zone (c := c) (hok id _ ht) ht
        refine ⟨ord', A', ?_⟩
        simp only [go, Option.toList_none, List.map_nil, List.append_nil]
        exact h'
      | copy off k buf =>
        obtain ⟨ord', A', h'⟩ := h.copy (c := c) ht
        refine ⟨ord', A', ?_⟩
        have : (go c s.mem id cl (.copy off k buf)).2.2 = none := by
          simp only [go]; split <;> rfl
        simp only [this, Option.toList_none, List.map_nil, List.append_nil]
        exact h'
      | leave out =>
        unfold go
        simp only
        split
        · rename_i he
          exact ⟨ord, A, h.unlock ht (.inl ⟨he, rfl⟩)⟩
        · rename_i he
          exact ⟨ord, A, h.unlock ht (.inr ⟨by simpa using he, rfl⟩)⟩
      | fin =>
        simp only [go, Option.toList_none, List.map_nil, List.append_nil, set_same ht]
        exact ⟨ord, A, h⟩

theorem step_ok (hok : ∀ (id : Nat) (j : Job), s.jobs[id]? = some j → c.fit = true → Filled j.call) (ev : Ev) (he : ∀ cl, ev = .call cl → c.fit = true → Filled cl) :
    ∀ (id : Nat) (j : Job), (PosAtomic.step c s ev).jobs[id]? = some j → c.fit = true → Filled j.call := by
  intro id j hj
  cases ev with
  | call cl =>
    have hj : j ∈ s.jobs ++ [⟨cl, .wait⟩] := List.mem_of_getElem? hj
    rcases List.mem_append.1 hj with hj | hj
    · obtain ⟨i, hi⟩ := List.getElem?_of_mem hj
      exact hok i j hi
    · rw [List.mem_singleton.1 hj]
      exact he cl rfl
  | go i =>
    unfold PosAtomic.step at hj
    simp only at hj
    cases ht : s.jobs[i]? with
    | none => rw [ht] at hj; exact hok id j hj
    | some j' =>
      rw [ht] at hj
      rcases get_set hj with ⟨rfl, rfl⟩ | ⟨_, hj⟩
      · exact hok id j' ht
      · exact hok id j hj

theorem run_inv {m : Mem} (h : Inv f0 (start m) ord A) (es : List Ev) (hok : c.fit = true → ∀ cl, Ev.call cl ∈ es → Filled cl) : ∃ ord' A', Inv f0 (run c m es) ord' A' := by
  have key : ∀ (es : List Ev) (s : Sys), (c.fit = true → ∀ cl, Ev.call cl ∈ es → Filled cl) → (∀ (id : Nat) (j : Job), s.jobs[id]? = some j → c.fit = true → Filled j.call) →
      (∃ ord A, Inv f0 s ord A) → ∃ ord A, Inv f0 (es.foldl (PosAtomic.step c) s) ord A := by
    intro es
    induction es with
    | nil => exact fun s _ _ h => h
    | cons ev es ih =>
      rintro s he hj ⟨ord, A, h⟩
      exact ih _ (fun hf cl hc => he hf cl (List.mem_cons_of_mem _ hc)) (step_ok hj ev fun cl e hf => he hf cl (e ▸ List.mem_cons_self)) (h.step hj ev)
  exact key es _ hok (by simp [start]) ⟨ord, A, h⟩

theorem open_inv (c : Conf) (d : Disk) : Inv (bytesOf d) (start (open_ c d)) [] (bytesOf d) := by
  have ha := align_le (max d.len c.init) c.page
  have h := start_inv (open_ c d) (by show d.len ≤ align _ _; omega) rfl rfl rfl
  have e : content (open_ c d) = bytesOf d := by
    unfold content bytesOf
    refine List.map_congr_left fun pos hp => ?_
    have hp : pos < d.len := by simpa [open_] using hp
    exact truncateDisk_data hp (by omega)
  rw [e] at h
  exact h

/-- C84: any number of threads make calls of any kind on a `PositionalAtomicFile`, in any interleaving: there is an order of the calls that agrees with the history,
and the calls done one after the other in this order on a sequence of bytes return the same. When no call is under way, closing the file leaves the
bytes of this order. What is missing: if the factor of the allocation is zero, only calls that leave no byte out are made (else see `C84_fit_violated`). -/
theorem C84_linearizable_partial (c : Conf) (d : Disk) (es : List Ev) (hok : c.fit = true → ∀ cl, Ev.call cl ∈ es → Filled cl) :
    ∃ ord f, Explains ord (run c (open_ c d) es).hist ∧ Serial Does (bytesOf d) ord f ∧
      (Quiet (run c (open_ c d) es) → bytesOf (close (run c (open_ c d) es).mem) = f) := by
  obtain ⟨ord, A, h⟩ := run_inv (c := c) (open_inv c d) es hok
  refine ⟨ord, A, h.exp, h.ser, fun hq => ?_⟩
  obtain ⟨hA, hhi⟩ := h.plain fun i j hj _ hc => by rw [hq j (List.mem_of_getElem? hj)] at hc; exact hc
  rw [← hA]
  refine List.map_congr_left fun pos hp => ?_
  have hp : pos < (run c (open_ c d) es).mem.size := by simpa [close, truncateDisk] using hp
  have := h.lo
  exact truncateDisk_data (by omega) hp

/-- C84: when no call is under way, the file on the disk is as long as the object believes, and all bytes of the file have room in it. -/
theorem C84_room_partial (c : Conf) (d : Disk) (es : List Ev) (hok : c.fit = true → ∀ cl, Ev.call cl ∈ es → Filled cl) (hq : Quiet (run c (open_ c d) es)) :
    (run c (open_ c d) es).mem.size ≤ (run c (open_ c d) es).mem.disk.len ∧ (run c (open_ c d) es).mem.map = (run c (open_ c d) es).mem.disk.len := by
  obtain ⟨ord, A, h⟩ := run_inv (c := c) (open_inv c d) es hok
  obtain ⟨_, hhi⟩ := h.plain fun i j hj _ hc => by rw [hq j (List.mem_of_getElem? hj)] at hc; exact hc
  exact ⟨hhi ▸ h.lo, hhi⟩

/-- C84: when the process dies while no call is under way, the file on the disk begins with the bytes that the calls have left. -/
theorem C84_death_partial (c : Conf) (d : Disk) (es : List Ev) (hok : c.fit = true → ∀ cl, Ev.call cl ∈ es → Filled cl) (hq : Quiet (run c (open_ c d) es)) :
    bytesOf (close (run c (open_ c d) es).mem) <+: bytesOf (run c (open_ c d) es).mem.disk := by
  obtain ⟨ord, A, h⟩ := run_inv (c := c) (open_inv c d) es hok
  have h1 := h.lo
  obtain ⟨_, h2⟩ := h.plain fun i j hj _ hc => by rw [hq j (List.mem_of_getElem? hj)] at hc; exact hc
  rw [List.prefix_iff_eq_take]
  apply List.ext_getElem?
  intro pos
  have hl : (bytesOf (close (run c (open_ c d) es).mem)).length = (run c (open_ c d) es).mem.size := by simp [bytesOf, close, truncateDisk]
  rw [List.getElem?_take, hl]
  split
  · rename_i hp
    simp only [bytesOf, List.getElem?_map]
    rw [List.getElem?_range (by exact hp), List.getElem?_range (by omega)]
    exact congrArg some (truncateDisk_data (by omega) hp)
  · rename_i hp
    rw [List.getElem?_eq_none (by omega)]

/-- C84: how much room there is on the disk. Opening the file leaves a whole number of pages that is no less than the initial size of the allocation. If the
factor of the allocation is positive, `Truncate` does the same, and calls that need more room than there is leave a whole number of pages that is no less than
the old room times the factor; if it is not, `Truncate` leaves just the room that is needed, or the initial size, and other calls make no room but by writing. Calls
that have room enough leave the room as it is; `Synchronize` leaves none beyond the end. -/
theorem C84_allocation (c : Conf) (hp : 0 < c.page) (d : Disk) (m : Mem) (n : Nat) :
    ((open_ c d).disk.len % c.page = 0 ∧ c.init ≤ (open_ c d).disk.len) ∧
    (c.fit = false → (inside c m (.truncate n)).1.disk.len % c.page = 0 ∧ c.init ≤ (inside c m (.truncate n)).1.disk.len ∧ c.page ≤ (inside c m (.truncate n)).1.disk.len) ∧
    (c.fit = true → (inside c m (.truncate n)).1.disk.len = max n c.init) ∧
    (c.fit = false → m.map < m.size + n → (inside c m (.expand n)).1.disk.len % c.page = 0 ∧ c.scale m.map ≤ (inside c m (.expand n)).1.disk.len) ∧
    (c.fit = true ∨ m.size + n ≤ m.map → (inside c m (.expand n)).1.disk = m.disk) ∧
    (∀ off data, c.fit = false → m.map < off + data.length →
      (inside c m (.write off data)).1.disk.len % c.page = 0 ∧ c.scale m.map ≤ (inside c m (.write off data)).1.disk.len) ∧
    (∀ off data, c.fit = true ∨ off + data.length ≤ m.map → (inside c m (.write off data)).1.disk = m.disk) ∧
    (inside c m .synchronize).1.disk.len = m.size := by
  have big : ∀ k, c.fit = false → m.map < k → (grow c m k).disk.len % c.page = 0 ∧ c.scale m.map ≤ (grow c m k).disk.len := by
    intro k hf hk
    unfold grow
    rw [if_neg (by omega), hf]
    have := align_le (max k (c.scale m.map)) c.page
    exact ⟨Positional.align_mod hp, by show _ ≤ align _ _; omega⟩
  have small : ∀ k, c.fit = true ∨ k ≤ m.map → (grow c m k).disk = m.disk := by
    intro k hk
    unfold grow
    split
    · rfl
    · rcases hk with hk | hk
      · rw [if_pos hk]
      · omega
  have h1 := align_le (max d.len c.init) c.page
  have h2 := align_le (max (max n c.page) c.init) c.page
  refine ⟨⟨Positional.align_mod hp, ?_⟩, fun hf => ?_, fun hf => ?_, big _, small _, fun _ _ => big _, fun _ _ => small _, rfl⟩
  · show _ ≤ align _ _; omega
  · simp only [inside, truncate, hf, Bool.false_eq_true, if_false]
    refine ⟨Positional.align_mod hp, ?_, ?_⟩
    · show _ ≤ align _ _; omega
    · show _ ≤ align _ _; omega
  · simp only [inside, truncate, hf, if_true]
    rfl

example : (open_ ⟨⟨4, 6, fun n => 2 * n⟩, false⟩ ⟨2, fun _ => 65⟩).disk.len = 8 ∧ (inside ⟨⟨4, 6, fun n => 2 * n⟩, false⟩ (open_ ⟨⟨4, 6, fun n => 2 * n⟩, false⟩ ⟨2, fun _ => 65⟩) (.expand 7)).1.disk.len = 16 := by
  decide

/-! ### Progress -/

/-- What is left to do. -/
def work (cl : Call) : Pc → Nat
  | .wait => amount cl + 4
  | .zone => amount cl + 3
  | .copy _ k _ => amount cl - k + 2
  | .leave _ => 1
  | .fin => 0

def total (js : List Job) : Nat := (js.map fun j => work j.call j.pc).sum

theorem Inv.progress (h : Inv f0 s ord A) (hq : ¬ Quiet s) : ∃ id, total (PosAtomic.step c s (.go id)).jobs < total s.jobs := by
  have fin : ∀ {id : Nat} {cl : Call} {pc pc' : Pc}, s.jobs[id]? = some ⟨cl, pc⟩ → (go c s.mem id cl pc).2.1 = pc' → work cl pc' < work cl pc →
      total (PosAtomic.step c s (.go id)).jobs < total s.jobs := by
    intro id cl pc pc' ht hg hw
    unfold PosAtomic.step
    simp only [ht, hg]
    exact sum_set (fun j : Job => work j.call j.pc) s.jobs id _ _ ht hw
  by_cases hex : ∃ (id : Nat) (j : Job), s.jobs[id]? = some j ∧ Active j.pc
  · obtain ⟨id, ⟨cl, pc⟩, ht, ha⟩ := hex
    refine ⟨id, ?_⟩
    cases pc with
    | wait => exact ha.elim
    | fin => exact ha.elim
    | leave out =>
      refine fin (pc' := .fin) ht ?_ (by simp [work])
      simp only [go]; split <;> rfl
    | zone =>
      refine fin ht rfl ?_
      have : work cl (inside c s.mem cl).2 < work cl .zone := by
        cases cl <;> simp only [inside] <;> (repeat' split) <;> simp only [work, amount] <;> omega
      exact this
    | copy off k buf =>
      have hmid := h.mid id _ ht
      have hlo := h.lo
      have hle : k ≤ amount cl := by
        cases cl with
        | read o n => exact hmid.2.2.1
        | write o data => exact hmid.2.le
        | append data => exact hmid.2.le
        | expand n => exact hmid.elim
        | truncate n => exact hmid.elim
        | truncateFakely n => exact hmid.elim
        | synchronize => exact hmid.elim
        | getSize => exact hmid.elim
      by_cases e : k = amount cl
      · refine fin (pc' := .leave (result off buf cl)) ht ?_ (by simp [work])
        simp only [go, if_pos e]
      · refine fin (pc' := (copyByte s.mem cl off k buf).2) ht ?_ ?_
        · simp only [go, if_neg e]
        · unfold copyByte
          cases cl <;> simp only <;> (try split) <;> simp only [work] <;> omega
  · have hno : s.mem.writer = none ∧ s.mem.readers = [] := by
      constructor
      · cases hw : s.mem.writer with
        | none => rfl
        | some i =>
          obtain ⟨_, j, h1, _, h2⟩ := h.wr i hw
          exact absurd ⟨i, j, h1, h2⟩ hex
      · cases hr : s.mem.readers with
        | nil => rfl
        | cons i rest =>
          obtain ⟨j, h1, _, h2⟩ := h.rd i (by rw [hr]; exact List.mem_cons_self)
          exact absurd ⟨i, j, h1, h2⟩ hex
    have : ∃ j ∈ s.jobs, j.pc ≠ .fin := Classical.byContradiction fun hn => hq fun j hj => Classical.byContradiction fun hp => hn ⟨j, hj, hp⟩
    obtain ⟨⟨cl, pc⟩, hm, hp⟩ := this
    obtain ⟨id, ht⟩ := List.getElem?_of_mem hm
    refine ⟨id, ?_⟩
    cases pc with
    | wait =>
      refine fin (pc' := .zone) ht ?_ (by simp [work])
      simp only [go, hno.1, hno.2]
      split <;> simp
    | fin => exact absurd rfl hp
    | zone => exact absurd ⟨id, _, ht, trivial⟩ hex
    | copy _ _ _ => exact absurd ⟨id, _, ht, trivial⟩ hex
    | leave _ => exact absurd ⟨id, _, ht, trivial⟩ hex

/-- C84: the calls never wait for one another for ever: whatever has happened, all the calls under way can be brought to their end. -/
theorem C84_completes_partial (c : Conf) (d : Disk) (es : List Ev) (hok : c.fit = true → ∀ cl, Ev.call cl ∈ es → Filled cl) : ∃ ids : List Nat, Quiet (run c (open_ c d) (es ++ ids.map .go)) := by
  have key : ∀ (w : Nat) (es : List Ev), (c.fit = true → ∀ cl, Ev.call cl ∈ es → Filled cl) → total (run c (open_ c d) es).jobs ≤ w →
      ∃ ids : List Nat, Quiet (run c (open_ c d) (es ++ ids.map .go)) := by
    intro w
    induction w with
    | zero =>
      intro es hok hw
      by_cases hq : Quiet (run c (open_ c d) es)
      · exact ⟨[], by simpa using hq⟩
      · obtain ⟨ord, A, h⟩ := run_inv (c := c) (open_inv c d) es hok
        obtain ⟨id, hid⟩ := h.progress (c := c) hq
        omega
    | succ w ih =>
      intro es hok hw
      by_cases hq : Quiet (run c (open_ c d) es)
      · exact ⟨[], by simpa using hq⟩
      · obtain ⟨ord, A, h⟩ := run_inv (c := c) (open_inv c d) es hok
        obtain ⟨id, hid⟩ := h.progress (c := c) hq
        obtain ⟨ids, hids⟩ := ih (es ++ [.go id]) (fun hf cl hc => hok hf cl (by simpa using hc)) (by
          rw [show run c (open_ c d) (es ++ [.go id]) = PosAtomic.step c (run c (open_ c d) es) (.go id) from List.foldl_append ..]
          omega)
        exact ⟨id :: ids, by simpa using hids⟩
  exact key _ es hok (Nat.le_refl _)

/-! ### Examples -/

def sampleCfg : Conf := ⟨⟨4, 4, fun n => 2 * n⟩, false⟩
def sampleDisk : Disk := ⟨2, fun p => if p = 0 then 65 else 66⟩

/-- `Append`, `Read` of its bytes, `Truncate` and `Write` begin at once; the read has to wait and sees the appended bytes as a whole; `Truncate` and the file it
leaves do not get in the way of the copying. -/
def sampleRun : List Ev :=
  [.call (.append [67, 68, 69, 70, 71, 72]), .call (.read 2 6), .call (.truncate 3), .go 0, .go 0, .go 0, .go 1, .go 2, .go 0, .go 0, .go 0, .go 0, .go 0, .go 0, .go 1, .go 0,
    .go 1, .go 2, .go 1, .go 1, .go 1, .go 1, .go 1, .go 1, .go 1, .go 1, .go 1, .go 2, .go 2, .go 2, .call (.write 5 [90]), .call .getSize, .go 3, .go 3, .go 3, .go 3, .go 3, .go 4, .go 4, .go 4]

example : (run sampleCfg (open_ sampleCfg sampleDisk) sampleRun).hist =
    [.inv 0 (.append [67, 68, 69, 70, 71, 72]), .inv 1 (.read 2 6), .inv 2 (.truncate 3), .ret 0 (.num 2), .ret 1 (.got [67, 68, 69, 70, 71, 72]), .ret 2 .done,
      .inv 3 (.write 5 [90]), .inv 4 .getSize, .ret 3 .done, .ret 4 (.num 6)] := by
  with_unfolding_all rfl

example : Quiet (run sampleCfg (open_ sampleCfg sampleDisk) sampleRun) := by
  unfold Quiet
  decide +kernel

/-- The byte 68 comes back from before `Truncate`: it is not specified (C74 has the same of the file for parallel access). -/
example : bytesOf (close (run sampleCfg (open_ sampleCfg sampleDisk) sampleRun).mem) = [65, 66, 67, 68, 0, 90] := by decide +kernel

/-! ### A factor of zero -/

/-- `Write` beyond the end, an `Append` that begins meanwhile, `Truncate` and `Read`. -/
def fitRun : List Ev :=
  [.call (.write 5 [80, 81]), .call (.append [82]), .go 0, .go 0, .go 0, .go 1, .go 0, .go 0, .go 0, .go 1, .go 1, .go 1, .go 1, .go 1, .call (.truncate 7), .call (.read 4 3), .go 2, .go 2, .go 2,
    .go 3, .go 3, .go 3, .go 3, .go 3, .go 3, .go 3]

example : (run ⟨⟨4, 0, fun _ => 0⟩, true⟩ (open_ ⟨⟨4, 0, fun _ => 0⟩, true⟩ sampleDisk) fitRun).hist =
    [.inv 0 (.write 5 [80, 81]), .inv 1 (.append [82]), .ret 0 .done, .ret 1 (.num 7), .inv 2 (.truncate 7), .inv 3 (.read 4 3), .ret 2 .done, .ret 3 (.got [0, 80, 81])] := by
  with_unfolding_all rfl

example : ∀ cl, Ev.call cl ∈ fitRun → Filled cl := by
  intro cl h
  simp [fitRun] at h
  rcases h with rfl | rfl | rfl | rfl <;> simp [Filled]

example : Quiet (run ⟨⟨4, 0, fun _ => 0⟩, true⟩ (open_ ⟨⟨4, 0, fun _ => 0⟩, true⟩ sampleDisk) fitRun) := by
  unfold Quiet
  decide +kernel


theorem serial_expand_read {ord : List (Nat × Call × Out)} {d0 f : Bytes} {n : Nat} {r1 r2 : Out} (hs : Serial Does d0 ord f)
    (he : ord = [(0, .expand n, r1), (1, .read d0.length n, r2)]) : ∃ buf, r2 = .got buf ∧ buf.length = n := by
  subst he
  obtain ⟨f1, ⟨_, more, hm, rfl⟩, f2, ⟨_, h2⟩, _⟩ := hs
  refine ⟨_, ?_, hm⟩
  rw [h2, if_pos (by rw [List.length_append]; omega)]
  rw [List.drop_append_of_le_length (Nat.le_refl _), List.drop_length, List.nil_append, ← hm, List.take_length]

/-- C84 does not hold if the factor of the allocation is zero, which the documentation advises in order "to fit the file size to the actual data": `Expand`
makes the file longer, but the file on the disk is not, and `Read` of the bytes that were added fails although the file is long enough. No order explains it. -/
theorem C84_fit_violated :
    ∃ (c : Conf) (d : Disk) (es : List Ev), (run c (open_ c d) es).hist = [.inv 0 (.expand 2), .ret 0 (.num 4), .inv 1 (.read 4 2), .ret 1 .failed] ∧
      bytesOf (close (run c (open_ c d) es).mem) = [65, 65, 65, 65, 0, 0] ∧
      ¬ ∃ ord f, Explains ord (run c (open_ c d) es).hist ∧ Serial Does (bytesOf d) ord f := by
  refine ⟨⟨⟨4, 0, fun _ => 0⟩, true⟩, ⟨4, fun _ => 65⟩, [.call (.expand 2), .go 0, .go 0, .go 0, .call (.read 4 2), .go 1, .go 1, .go 1, .go 1], ?_, ?_, ?_⟩
  · with_unfolding_all rfl
  · decide +kernel
  · rintro ⟨ord, f, he, hs⟩
    have hh : (run ⟨⟨4, 0, fun _ => 0⟩, true⟩ (open_ ⟨⟨4, 0, fun _ => 0⟩, true⟩ ⟨4, fun _ => 65⟩)
        [.call (.expand 2), .go 0, .go 0, .go 0, .call (.read 4 2), .go 1, .go 1, .go 1, .go 1]).hist =
        [.inv 0 (.expand 2), .ret 0 (.num 4), .inv 1 (.read 4 2), .ret 1 .failed] := by with_unfolding_all rfl
    rw [hh] at he
    obtain ⟨c1, hr⟩ := he.returned 1 .failed (by simp)
    have hc := he.called _ hr
    simp at hc
    subst hc
    obtain ⟨o1, o2, rfl⟩ := List.append_of_mem hr
    have h0 := he.realTime o1 _ o2 rfl 0 ⟨[.inv 0 (.expand 2), .ret 0 (.num 4)], [.inv 1 (.read 4 2), .ret 1 .failed], .num 4, .read 4 2, rfl, by simp, by simp⟩
    have hids : ∀ x ∈ o1 ++ (1, Call.read 4 2, Out.failed) :: o2, (x.1 = 0 ∧ x.2.1 = .expand 2) ∨ x.1 = 1 := by
      intro x hx
      have := he.called x hx
      simp at this
      rcases this with h | h
      · exact .inl h
      · exact .inr h.1
    have hn := he.once
    rw [List.map_append, List.map_cons, List.nodup_append] at hn
    obtain ⟨n1, n2, n3⟩ := hn
    have hall : ∀ x ∈ o1, x.1 = 0 ∧ x.2.1 = .expand 2 := by
      intro x hx
      rcases hids x (List.mem_append_left _ hx) with h | h
      · exact h
      · exact absurd h (n3 x.1 (List.mem_map_of_mem hx) 1 (by simp))
    have ho1 : ∃ r, o1 = [(0, .expand 2, r)] := by
      match o1, hall, n1, h0 with
      | [], _, _, h0 => simp at h0
      | [(i, cl, r)], hall, _, _ =>
        have := hall _ (List.mem_singleton.2 rfl)
        simp at this
        obtain ⟨rfl, rfl⟩ := this
        exact ⟨r, rfl⟩
      | a :: b :: rest, hall, n1, _ =>
        have ha := (hall a (by simp)).1
        have hb := (hall b (by simp)).1
        simp [ha, hb] at n1
    obtain ⟨r, rfl⟩ := ho1
    have ho2 : o2 = [] := by
      match o2, hids, n2, n3 with
      | [], _, _, _ => rfl
      | x :: rest, hids, n2, n3 =>
        rcases hids x (by simp) with h | h
        · exact absurd h.1.symm (n3 0 (by simp) x.1 (by simp))
        · simp [h] at n2
    subst ho2
    obtain ⟨buf, h, _⟩ := serial_expand_read (n := 2) (r1 := r) (r2 := .failed) hs rfl
    cases h

/-- C84, against the comment of `File::Truncate` ("data after the new file end is discarded", "null codes are filled after the old file end"): `Truncate`
cuts the file on the disk to whole pages only, so bytes that were cut off come back when the file is made longer. -/
theorem C84_truncate_violated :
    ∃ (c : Conf) (d : Disk) (es : List Ev), c.fit = false ∧ bytesOf d = [65, 66, 67] ∧
      (run c (open_ c d) es).hist = [.inv 0 (.truncate 1), .ret 0 .done, .inv 1 (.truncate 3), .ret 1 .done, .inv 2 (.read 0 3), .ret 2 (.got [65, 66, 67])] ∧
      bytesOf (close (run c (open_ c d) es).mem) = [65, 66, 67] := by
  refine ⟨⟨⟨4, 0, fun n => 2 * n⟩, false⟩, ⟨3, fun p => if p = 0 then 65 else if p = 1 then 66 else 67⟩,
    [.call (.truncate 1), .go 0, .go 0, .go 0, .call (.truncate 3), .go 1, .go 1, .go 1, .call (.read 0 3), .go 2, .go 2, .go 2, .go 2, .go 2, .go 2, .go 2], rfl, ?_, ?_, ?_⟩
  · decide +kernel
  · with_unfolding_all rfl
  · decide +kernel

end Verif.PosAtomic
