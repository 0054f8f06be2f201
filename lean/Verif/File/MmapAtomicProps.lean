import Verif.File.MmapAtomicInv
/-
C80: calls on a `MemoryMapAtomicFile` are atomic.
-/
namespace Verif.MmapAtomic
open Verif Verif.Linear
open Verif.PageCache (Disk align)
open Verif.Positional (truncateDisk)
open Verif.Mmap (Cfg poke)

variable {f0 A : Bytes} {s : Sys} {ord : List (Nat × Call × Out)} {c : Cfg}

/-- Taking the lock. -/
theorem Inv.lock (h : Inv f0 s ord A) {id : Nat} {cl : Call} (ht : s.jobs[id]? = some ⟨cl, .wait⟩) {m' : Mem}
    (hm : (exclusive cl = true ∧ s.mem.writer = none ∧ s.mem.readers = [] ∧ m' = { s.mem with writer := some id }) ∨
      (exclusive cl = false ∧ s.mem.writer = none ∧ m' = { s.mem with readers := id :: s.mem.readers })) :
    Inv f0 ⟨m', s.jobs.set id ⟨cl, .zone⟩, s.hist⟩ ord A := by
  have hlt := (List.getElem?_eq_some_iff.1 ht).1
  have hself : (s.jobs.set id ⟨cl, .zone⟩)[id]? = some ⟨cl, .zone⟩ := List.getElem?_set_self hlt
  have hmem : m'.disk = s.mem.disk ∧ m'.size = s.mem.size ∧ m'.map = s.mem.map ∧ m'.base = s.mem.base ∧ m'.fault = s.mem.fault := by
    rcases hm with ⟨_, _, _, rfl⟩ | ⟨_, _, rfl⟩ <;> exact ⟨rfl, rfl, rfl, rfl, rfl⟩
  obtain ⟨e1, e2, e3, e4, e5⟩ := hmem
  have hmid : ∀ {j : Job}, Mid s.mem A j → Mid m' A j := by
    intro j hj
    unfold Mid at hj ⊢
    split
    · rename_i base off k buf e
      simp only [e] at hj
      refine ⟨hj.1.trans e4.symm, ?_⟩
      have hh : ∀ {data : Bytes}, Half s.mem A off data k → Half m' A off data k := fun hx => ⟨hx.le, by rw [e2]; exact hx.size, by rw [e1]; exact hx.new, by rw [e1]; exact hx.old⟩
      split <;> rename_i e' <;> simp only [e'] at hj
      · exact hj.2
      · exact ⟨hj.2.1, hh hj.2.2⟩
      · exact ⟨hj.2.1, hh hj.2.2⟩
      · exact hj.2
    · trivial
  have hact : ∀ (i : Nat) (j : Job), s.jobs[i]? = some j → s.mem.writer = none → exclusive j.call = true → ¬ Active j.pc := by
    intro i j hj hw he ha
    have := h.hold i j hj ha
    rw [he, if_pos rfl, hw] at this
    cases this
  refine ⟨h.ser, h.exp, ?_, ?_, ?_, ?_, ?_, ?_, by rw [e2, e3]; exact h.lo, by rw [e3, e1]; exact h.hi, by rw [e5]; exact h.nf, ?_, ?_⟩
  · intro i j hj
    rcases get_set hj with ⟨rfl, rfl⟩ | ⟨_, hj⟩
    · exact h.inv i ⟨cl, .wait⟩ ht
    · exact h.inv i j hj
  · intro x hx
    simp only [List.length_set]
    exact h.ids x hx
  · intro i j hj
    rcases get_set hj with ⟨rfl, rfl⟩ | ⟨_, hj⟩
    · exact h.fresh i ⟨cl, .wait⟩ ht
    · exact h.fresh i j hj
  · intro i j hj ha
    rcases get_set hj with ⟨rfl, rfl⟩ | ⟨_, hj⟩
    · rcases hm with ⟨he, _, _, rfl⟩ | ⟨he, _, rfl⟩ <;> simp [he]
    · have hh := h.hold i j hj ha
      split
      · rename_i he
        rcases hm with ⟨_, hw, _, _⟩ | ⟨_, hw, _⟩ <;> exact absurd ha (hact i j hj hw he)
      · rename_i he
        rw [if_neg he] at hh
        rcases hm with ⟨_, _, hr, rfl⟩ | ⟨_, _, rfl⟩
        · rw [hr] at hh; cases hh
        · exact List.mem_cons_of_mem _ hh
  · intro i hi
    rcases hm with ⟨he, _, hr, rfl⟩ | ⟨_, hw, rfl⟩
    · injection hi with hi
      subst hi
      exact ⟨hr, _, hself, he, trivial⟩
    · rw [show ({ s.mem with readers := id :: s.mem.readers } : Mem).writer = s.mem.writer from rfl, hw] at hi
      cases hi
  · intro i hi
    rcases hm with ⟨_, _, hr, rfl⟩ | ⟨he, hw, rfl⟩
    · rw [show ({ s.mem with writer := some id } : Mem).readers = s.mem.readers from rfl, hr] at hi
      cases hi
    · by_cases e : i = id
      · subst e
        exact ⟨_, hself, he, trivial⟩
      · have hi : i ∈ s.mem.readers := by
          rcases List.mem_cons.1 hi with hi | hi
          · exact absurd hi e
          · exact hi
        obtain ⟨j, h2, h3⟩ := h.rd i hi
        exact ⟨j, by rw [List.getElem?_set_ne (fun x => e x.symm)]; exact h2, h3⟩
  · intro _
    rw [content_congr (m := s.mem) e2 (fun pos _ => by rw [e1])]
    refine h.plain fun i j hj he hc => ?_
    rcases hm with ⟨_, hw, _, _⟩ | ⟨_, hw, _⟩ <;> exact hact i j hj hw he (copying_active hc)
  · intro i j hj
    rcases get_set hj with ⟨rfl, rfl⟩ | ⟨_, hj⟩
    · trivial
    · exact hmid (h.mid i j hj)

/-- Giving up the lock and returning. -/
theorem Inv.unlock (h : Inv f0 s ord A) {id : Nat} {cl : Call} {out : Out} (ht : s.jobs[id]? = some ⟨cl, .leave out⟩) {m' : Mem}
    (hm : (exclusive cl = true ∧ m' = { s.mem with writer := none }) ∨
      (exclusive cl = false ∧ m' = { s.mem with readers := s.mem.readers.filter (· ≠ id) })) :
    Inv f0 ⟨m', s.jobs.set id ⟨cl, .fin⟩, s.hist ++ [.ret id out]⟩ ord A := by
  have hin : (id, cl, out) ∈ ord := h.fresh id _ ht
  have hmem : m'.disk = s.mem.disk ∧ m'.size = s.mem.size ∧ m'.map = s.mem.map ∧ m'.base = s.mem.base ∧ m'.fault = s.mem.fault := by
    rcases hm with ⟨_, rfl⟩ | ⟨_, rfl⟩ <;> exact ⟨rfl, rfl, rfl, rfl, rfl⟩
  obtain ⟨e1, e2, e3, e4, e5⟩ := hmem
  have hmid : ∀ {j : Job}, Mid s.mem A j → Mid m' A j := by
    intro j hj
    unfold Mid at hj ⊢
    split
    · rename_i base off k buf e
      simp only [e] at hj
      refine ⟨hj.1.trans e4.symm, ?_⟩
      have hh : ∀ {data : Bytes}, Half s.mem A off data k → Half m' A off data k := fun hx => ⟨hx.le, by rw [e2]; exact hx.size, by rw [e1]; exact hx.new, by rw [e1]; exact hx.old⟩
      split <;> rename_i e' <;> simp only [e'] at hj
      · exact hj.2
      · exact ⟨hj.2.1, hh hj.2.2⟩
      · exact ⟨hj.2.1, hh hj.2.2⟩
      · exact hj.2
    · trivial
  refine ⟨h.ser, h.exp.ret id cl out hin, ?_, ?_, ?_, ?_, ?_, ?_, by rw [e2, e3]; exact h.lo, by rw [e3, e1]; exact h.hi, by rw [e5]; exact h.nf, ?_, ?_⟩
  · intro i j hj
    rcases get_set hj with ⟨rfl, rfl⟩ | ⟨_, hj⟩
    · exact List.mem_append_left _ (h.inv i ⟨cl, .leave out⟩ ht)
    · exact List.mem_append_left _ (h.inv i j hj)
  · intro x hx
    simp only [List.length_set]
    exact h.ids x hx
  · intro i j hj
    rcases get_set hj with ⟨rfl, rfl⟩ | ⟨_, hj⟩
    · trivial
    · exact h.fresh i j hj
  · intro i j hj ha
    rcases get_set hj with ⟨rfl, rfl⟩ | ⟨hne, hj2⟩
    · exact ha.elim
    · have hh := h.hold i j hj2 ha
      rcases hm with ⟨he, rfl⟩ | ⟨he, rfl⟩
      · exact absurd ha (h.alone ht he trivial hj2 hne)
      · split
        · rename_i hx; rw [if_pos hx] at hh; exact hh
        · rename_i hx
          rw [if_neg hx] at hh
          exact List.mem_filter.2 ⟨hh, by simpa using hne⟩
  · intro i hi
    rcases hm with ⟨he, rfl⟩ | ⟨he, rfl⟩
    · cases hi
    · have hh := h.hold id _ ht trivial
      simp only [he] at hh
      rw [(h.wr i hi).1] at hh
      simp at hh
  · intro i hi
    rcases hm with ⟨he, rfl⟩ | ⟨he, rfl⟩
    · have hh := h.hold id _ ht trivial
      simp only [he, if_true] at hh
      have hi : i ∈ s.mem.readers := hi
      rw [(h.wr id hh).1] at hi
      cases hi
    · obtain ⟨hi, hne⟩ := List.mem_filter.1 hi
      obtain ⟨j, h2, h3⟩ := h.rd i hi
      have hne : i ≠ id := by simpa using hne
      exact ⟨j, by rw [List.getElem?_set_ne (fun x => hne x.symm)]; exact h2, h3⟩
  · intro hp
    rw [content_congr (m := s.mem) e2 (fun pos _ => by rw [e1])]
    refine h.plain fun i j hj he hc => ?_
    by_cases e : i = id
    · subst e
      rw [ht] at hj
      cases hj
      exact hc.elim
    · exact hp i j (by rw [List.getElem?_set_ne (fun x => e x.symm)]; exact hj) he hc
  · intro i j hj
    rcases get_set hj with ⟨rfl, rfl⟩ | ⟨_, hj⟩
    · trivial
    · exact hmid (h.mid i j hj)

theorem set_same {α : Type} {l : List α} {i : Nat} {x : α} (h : l[i]? = some x) : l.set i x = l := by
  obtain ⟨hl, rfl⟩ := List.getElem?_eq_some_iff.1 h
  exact List.set_getElem_self hl

/-- What a call does with the lock before it copies. -/
theorem Inv.zone (h : Inv f0 s ord A) {id : Nat} {cl : Call} (ht : s.jobs[id]? = some ⟨cl, .zone⟩) :
    ∃ ord' A', Inv f0 ⟨(inside c s.mem cl).1, s.jobs.set id ⟨cl, (inside c s.mem cl).2⟩, s.hist⟩ ord' A' := by
  have hA : content s.mem = A := h.seen ht trivial fun _ x => x.elim
  have hlen : s.mem.size = A.length := by rw [← hA, content_len]
  cases cl with
  | read off n =>
    unfold inside
    simp only
    split
    · exact ⟨_, A, h.reads ht (.inl rfl) rfl (.inr ⟨_, rfl, rfl, rfl, by rw [if_neg (by omega)]⟩) trivial⟩
    · split
      · exact ⟨_, A, h.reads ht (.inl rfl) rfl (.inr ⟨_, rfl, rfl, rfl, by rw [if_neg (by omega)]⟩) trivial⟩
      · exact ⟨_, A, h.reads ht (.inl rfl) rfl (.inl ⟨rfl, trivial⟩) ⟨rfl, rfl, by omega, Nat.zero_le _, by simp⟩⟩
  | write off data =>
    obtain ⟨h1, h2, h3, _, h5, h6, h7⟩ := reserve_spec c s.mem off data.length h.lo h.hi
    exact ⟨_, A, h.writes ht (.inl rfl) rfl h5 h6 h2 h3 (h7.trans h.nf) trivial ⟨rfl, rfl, reserve_half c hA h.lo h.hi off data⟩⟩
  | append data =>
    obtain ⟨h1, h2, h3, _, h5, h6, h7⟩ := reserve_spec c s.mem s.mem.size data.length h.lo h.hi
    exact ⟨_, A, h.writes ht (.inl rfl) rfl h5 h6 h2 h3 (h7.trans h.nf) trivial ⟨rfl, hlen, reserve_half c hA h.lo h.hi s.mem.size data⟩⟩
  | expand n =>
    obtain ⟨h1, h2, h3, h4, h5, h6, h7⟩ := reserve_spec c s.mem s.mem.size n h.lo h.hi
    refine ⟨_, _, h.wrote ht (.inl rfl) rfl h5 h6 h2 h3 (h7.trans h.nf) ⟨by rw [hlen], (content (reserve c s.mem s.mem.size n)).drop A.length, ?_, ?_⟩⟩
    · rw [List.length_drop, content_len, h1]; omega
    · show content (reserve c s.mem s.mem.size n) = _
      rw [← hA, content_len]
      conv => lhs; rw [← List.take_append_drop s.mem.size (content (reserve c s.mem s.mem.size n))]
      congr 1
      apply List.ext_getElem?
      intro pos
      by_cases hp : pos < s.mem.size
      · rw [List.getElem?_take, if_pos hp, content_get (by omega), content_get hp, h4 pos hp]
      · rw [List.getElem?_take, if_neg hp, List.getElem?_eq_none (by rw [content_len]; omega)]
  | truncate n =>
    have ha := align_le (max (max n c.page) c.init) c.page
    refine ⟨_, _, h.wrote (m' := truncate c s.mem n) ht (.inl rfl) rfl rfl rfl ?_ rfl h.nf ⟨rfl, ?_⟩⟩
    · show n ≤ align _ _; omega
    · rw [← hA]
      refine resized_content h.lo h.hi rfl fun pos h1 h2 => truncateDisk_data ?_ (by omega)
      have := h.lo; have := h.hi; omega
  | truncateFakely n =>
    have hlo := h.lo
    unfold inside
    simp only
    split
    · refine ⟨_, _, h.wrote (m' := s.mem) ht (.inl rfl) rfl rfl rfl h.lo h.hi h.nf (.inr ⟨rfl, by omega, hA⟩)⟩
    · refine ⟨_, _, h.wrote (m' := { s.mem with size := n }) ht (.inl rfl) rfl rfl rfl (by show n ≤ s.mem.map; omega) h.hi h.nf (.inl ⟨rfl, ?_⟩)⟩
      rw [← hA]
      exact resized_content h.lo h.hi rfl fun _ _ _ => rfl
  | synchronize =>
    have hlo := h.lo
    have hhi := h.hi
    have key : (synchronize s.mem).size = s.mem.size ∧ (synchronize s.mem).size ≤ (synchronize s.mem).map ∧ (synchronize s.mem).map = (synchronize s.mem).disk.len ∧
        (∀ pos, pos < s.mem.size → (synchronize s.mem).disk.data pos = s.mem.disk.data pos) ∧ (synchronize s.mem).readers = s.mem.readers ∧
        (synchronize s.mem).writer = s.mem.writer ∧ (synchronize s.mem).fault = s.mem.fault := by
      unfold synchronize
      by_cases e : s.mem.size ≠ s.mem.map
      · simp only [if_pos e]
        refine ⟨by trivial, Nat.le_refl _, by trivial, fun pos hp => truncateDisk_data (by show pos < s.mem.disk.len; omega) hp, by trivial, by trivial, by trivial⟩
      · simp only [if_neg e]
        refine ⟨by trivial, h.lo, by show s.mem.map = s.mem.size; omega, fun pos hp => truncateDisk_data (by omega) hp, by trivial, by trivial, by trivial⟩
    obtain ⟨h1, h2, h3, h4, h5, h6, h7⟩ := key
    exact ⟨_, _, h.wrote (m' := synchronize s.mem) ht (.inl rfl) rfl h5 h6 h2 h3 (h7.trans h.nf) ⟨rfl, (content_congr h1 h4).trans hA⟩⟩
  | getSize => exact ⟨_, A, h.reads ht (.inl rfl) rfl (.inr ⟨_, rfl, rfl, by rw [hlen], rfl⟩) trivial⟩

/-- Copying. -/
theorem Inv.copy (h : Inv f0 s ord A) {id : Nat} {cl : Call} {base off k : Nat} {buf : Bytes} (ht : s.jobs[id]? = some ⟨cl, .copy base off k buf⟩) :
    ∃ ord' A', Inv f0 ⟨(go c s.mem id cl (.copy base off k buf)).1, s.jobs.set id ⟨cl, (go c s.mem id cl (.copy base off k buf)).2.1⟩, s.hist⟩ ord' A' := by
  have hmid := h.mid id _ ht
  have hlo := h.lo
  have hhi := h.hi
  obtain ⟨hb, hmid⟩ := hmid
  subst hb
  have hmap : ∀ pos, pos < s.mem.size → s.mem.mapped s.mem.base pos = true := by
    intro pos hp
    unfold Mem.mapped
    simp
    omega
  have wr : ∀ {data : Bytes}, exclusive cl = true → k < data.length → Half s.mem A off data k → Half { s.mem with disk := poke s.mem.disk (off + k) ((data[k]?).getD 0) } A off data (k + 1) := by
    intro data _ hk hh
    refine ⟨hk, hh.size, fun i hi => ?_, fun pos hp hn => ?_⟩
    · show data[i]? = some (if off + i = off + k then _ else _)
      by_cases e : i = k
      · subst e
        rw [if_pos rfl, List.getElem?_eq_getElem hk]; rfl
      · rw [if_neg (by omega)]
        exact hh.new i (by omega)
    · show A[pos]? = some (if pos = off + k then _ else _)
      rw [if_neg (by omega)]
      exact hh.old pos hp (by omega)
  cases cl with
  | read o n =>
    have hA : content s.mem = A := h.seen ht trivial fun x => by cases x
    have hlen : s.mem.size = A.length := by rw [← hA, content_len]
    obtain ⟨rfl, h1, h2, h3⟩ := hmid
    unfold go
    simp only
    split
    · rename_i e
      have e : k = n := e
      subst e
      exact ⟨_, A, h.reads ht (.inr trivial) rfl (.inr ⟨_, rfl, rfl, rfl, by rw [if_pos h1, ← h3]; rfl⟩) trivial⟩
    · rename_i e
      have e : k ≠ n := e
      unfold copyByte
      rw [if_pos (hmap _ (by omega))]
      refine ⟨_, A, h.reads ht (.inr trivial) rfl (.inl ⟨rfl, trivial⟩) ⟨rfl, rfl, h1, by omega, ?_⟩⟩
      have hg : A[o + k]? = some (s.mem.disk.data (o + k)) := by rw [← hA]; exact content_get (by omega)
      rw [h3, List.take_succ, List.getElem?_drop, hg]
      rfl
  | write o data =>
    obtain ⟨rfl, h1⟩ := hmid
    have hs := h1.size
    have hle := h1.le
    unfold go
    simp only
    split
    · rename_i e
      have e : k = data.length := e
      subst e
      exact ⟨_, _, h.wrote (m' := s.mem) ht (.inr trivial) rfl rfl rfl h.lo h.hi h.nf ⟨rfl, half_done h1⟩⟩
    · rename_i e
      have e : k ≠ data.length := e
      unfold copyByte
      rw [if_pos (hmap _ (by omega))]
      exact ⟨_, A, h.writes ht (.inr trivial) rfl rfl rfl h.lo h.hi h.nf trivial ⟨rfl, rfl, wr rfl (by omega) h1⟩⟩
  | append data =>
    obtain ⟨rfl, h1⟩ := hmid
    have hs := h1.size
    have hle := h1.le
    unfold go
    simp only
    split
    · rename_i e
      have e : k = data.length := e
      subst e
      exact ⟨_, _, h.wrote (m' := s.mem) ht (.inr trivial) rfl rfl rfl h.lo h.hi h.nf ⟨rfl, half_append h1⟩⟩
    · rename_i e
      have e : k ≠ data.length := e
      unfold copyByte
      rw [if_pos (hmap _ (by omega))]
      exact ⟨_, A, h.writes ht (.inr trivial) rfl rfl rfl h.lo h.hi h.nf trivial ⟨rfl, rfl, wr rfl (by omega) h1⟩⟩
  | expand n => exact hmid.elim
  | truncate n => exact hmid.elim
  | truncateFakely n => exact hmid.elim
  | synchronize => exact hmid.elim
  | getSize => exact hmid.elim

theorem Inv.step (h : Inv f0 s ord A) (ev : Ev) : ∃ ord' A', Inv f0 (step c s ev) ord' A' := by
  cases ev with
  | call cl => exact ⟨ord, A, h.call cl⟩
  | go id =>
    unfold MmapAtomic.step
    simp only
    cases ht : s.jobs[id]? with
    | none => exact ⟨ord, A, h⟩
    | some j =>
      obtain ⟨cl, pc⟩ := j
      cases pc with
      | wait =>
        have hsame : Inv f0 ⟨s.mem, s.jobs.set id ⟨cl, .wait⟩, s.hist ++ []⟩ ord A := by
          rw [set_same ht, List.append_nil]
          exact h
        unfold go
        simp only
        split
        · rename_i he
          split
          · rename_i hw
            simp only [Option.toList_none, List.map_nil, List.append_nil]
            exact ⟨ord, A, h.lock ht (.inl ⟨he, hw.1, hw.2, rfl⟩)⟩
          · exact ⟨ord, A, hsame⟩
        · rename_i he
          split
          · rename_i hw
            simp only [Option.toList_none, List.map_nil, List.append_nil]
            exact ⟨ord, A, h.lock ht (.inr ⟨by simpa using he, hw, rfl⟩)⟩
          · exact ⟨ord, A, hsame⟩
      | zone =>
        obtain ⟨ord', A', h'⟩ := h.zone (c := c) ht
        refine ⟨ord', A', ?_⟩
        simp only [go, Option.toList_none, List.map_nil, List.append_nil]
        exact h'
      | copy base off k buf =>
        obtain ⟨ord', A', h'⟩ := h.copy (c := c) ht
        refine ⟨ord', A', ?_⟩
        have : (go c s.mem id cl (.copy base off k buf)).2.2 = none := by
          simp only [go]; split <;> rfl
        simp only [this, Option.toList_none, List.map_nil, List.append_nil]
        exact h'
      | leave out =>
        unfold go
        simp only
        split
        · rename_i he
          exact ⟨ord, A, h.unlock ht (.inl ⟨he, rfl⟩)⟩
        · rename_i he
          exact ⟨ord, A, h.unlock ht (.inr ⟨by simpa using he, rfl⟩)⟩
      | fin =>
        simp only [go, Option.toList_none, List.map_nil, List.append_nil, set_same ht]
        exact ⟨ord, A, h⟩

theorem run_inv {m : Mem} (h : Inv f0 (start m) ord A) (es : List Ev) : ∃ ord' A', Inv f0 (run c m es) ord' A' := by
  have key : ∀ (es : List Ev) (s : Sys), (∃ ord A, Inv f0 s ord A) → ∃ ord A, Inv f0 (es.foldl (MmapAtomic.step c) s) ord A := by
    intro es
    induction es with
    | nil => exact fun s h => h
    | cons ev es ih =>
      rintro s ⟨ord, A, h⟩
      exact ih _ (h.step ev)
  exact key es _ ⟨ord, A, h⟩

theorem open_inv (c : Cfg) (d : Disk) : Inv (bytesOf d) (start (open_ c d)) [] (bytesOf d) := by
  have ha := align_le (max 1 (max d.len c.init)) c.page
  have h := start_inv (open_ c d) (by show d.len ≤ align _ _; omega) rfl rfl rfl rfl
  have e : content (open_ c d) = bytesOf d := by
    unfold content bytesOf
    refine List.map_congr_left fun pos hp => ?_
    have hp : pos < d.len := by simpa [open_] using hp
    exact truncateDisk_data hp (by omega)
  rw [e] at h
  exact h

/-- C80: any number of threads make calls of any kind on a `MemoryMapAtomicFile`, in any interleaving: there is an order of the calls that agrees with the history,
and the calls done one after the other in this order on a sequence of bytes return the same. When no call is under way, closing the file leaves the
bytes of this order. -/
theorem C80_atomic_linearizable (c : Cfg) (d : Disk) (es : List Ev) :
    ∃ ord f, Explains ord (run c (open_ c d) es).hist ∧ Serial Does (bytesOf d) ord f ∧
      (Quiet (run c (open_ c d) es) → bytesOf (close (run c (open_ c d) es).mem) = f) := by
  obtain ⟨ord, A, h⟩ := run_inv (c := c) (open_inv c d) es
  refine ⟨ord, A, h.exp, h.ser, fun hq => ?_⟩
  rw [← h.plain fun i j hj _ hc => by rw [hq j (List.mem_of_getElem? hj)] at hc; exact hc]
  refine List.map_congr_left fun pos hp => ?_
  have hp : pos < (run c (open_ c d) es).mem.size := by simpa [close, truncateDisk] using hp
  have := h.lo
  have := h.hi
  exact truncateDisk_data (by omega) hp

/-- C80: no call touches memory outside the mapping, through a mapping that has been moved, or beyond the end of the file on the disk. -/
theorem C80_atomic_memory_safe (c : Cfg) (d : Disk) (es : List Ev) : (run c (open_ c d) es).mem.fault = false := by
  obtain ⟨ord, A, h⟩ := run_inv (c := c) (open_inv c d) es
  exact h.nf

/-- C80: when the process dies while no call is under way, the file on the disk begins with the bytes that the calls have left. -/
theorem C80_atomic_death (c : Cfg) (d : Disk) (es : List Ev) (hq : Quiet (run c (open_ c d) es)) :
    bytesOf (close (run c (open_ c d) es).mem) <+: bytesOf (run c (open_ c d) es).mem.disk := by
  obtain ⟨ord, A, h⟩ := run_inv (c := c) (open_inv c d) es
  have h1 := h.lo
  have h2 := h.hi
  rw [List.prefix_iff_eq_take]
  apply List.ext_getElem?
  intro pos
  have hl : (bytesOf (close (run c (open_ c d) es).mem)).length = (run c (open_ c d) es).mem.size := by simp [bytesOf, close, truncateDisk]
  rw [List.getElem?_take, hl]
  split
  · rename_i hp
    simp only [bytesOf, List.getElem?_map]
    rw [List.getElem?_range (by exact hp), List.getElem?_range (by omega)]
    exact congrArg some (truncateDisk_data (by omega) hp)
  · rename_i hp
    rw [List.getElem?_eq_none (by omega)]

/-! ### Progress -/

/-- What is left to do. -/
def work (cl : Call) : Pc → Nat
  | .wait => amount cl + 4
  | .zone => amount cl + 3
  | .copy _ _ k _ => amount cl - k + 2
  | .leave _ => 1
  | .fin => 0

def total (js : List Job) : Nat := (js.map fun j => work j.call j.pc).sum

theorem sum_set {α : Type} (f : α → Nat) (l : List α) (i : Nat) (x y : α) (h : l[i]? = some x) (hw : f y < f x) : ((l.set i y).map f).sum < (l.map f).sum := by
  induction l generalizing i with
  | nil => cases h
  | cons a l ih =>
    cases i with
    | zero =>
      simp at h
      subst h
      simp only [List.set_cons_zero, List.map_cons, List.sum_cons]
      omega
    | succ i =>
      have := ih i (by simpa using h)
      simp only [List.set_cons_succ, List.map_cons, List.sum_cons]
      omega

theorem Inv.progress (h : Inv f0 s ord A) (hq : ¬ Quiet s) : ∃ id, total (MmapAtomic.step c s (.go id)).jobs < total s.jobs := by
  have fin : ∀ {id : Nat} {cl : Call} {pc pc' : Pc}, s.jobs[id]? = some ⟨cl, pc⟩ → (go c s.mem id cl pc).2.1 = pc' → work cl pc' < work cl pc →
      total (MmapAtomic.step c s (.go id)).jobs < total s.jobs := by
    intro id cl pc pc' ht hg hw
    unfold MmapAtomic.step
    simp only [ht, hg]
    exact sum_set (fun j : Job => work j.call j.pc) s.jobs id _ _ ht hw
  by_cases hex : ∃ (id : Nat) (j : Job), s.jobs[id]? = some j ∧ Active j.pc
  · obtain ⟨id, ⟨cl, pc⟩, ht, ha⟩ := hex
    refine ⟨id, ?_⟩
    cases pc with
    | wait => exact ha.elim
    | fin => exact ha.elim
    | leave out =>
      refine fin (pc' := .fin) ht ?_ (by simp [work])
      simp only [go]; split <;> rfl
    | zone =>
      refine fin ht rfl ?_
      have : work cl (inside c s.mem cl).2 < work cl .zone := by
        cases cl <;> simp only [inside] <;> (repeat' split) <;> simp only [work, amount] <;> omega
      exact this
    | copy base off k buf =>
      obtain ⟨hb, hmid⟩ := h.mid id _ ht
      subst hb
      have hlo := h.lo
      have hhi := h.hi
      have hsize : k < amount cl → off + k < s.mem.size := by
        intro hk
        cases cl with
        | read o n =>
          have hA : content s.mem = A := h.seen ht trivial fun x => by cases x
          have hlen : s.mem.size = A.length := by rw [← hA, content_len]
          obtain ⟨_, h1, _⟩ := hmid
          simp only [amount] at hk
          omega
        | write o data => have := hmid.2.size; simp only [amount] at hk; omega
        | append data => have := hmid.2.size; simp only [amount] at hk; omega
        | expand n => exact hmid.elim
        | truncate n => exact hmid.elim
        | truncateFakely n => exact hmid.elim
        | synchronize => exact hmid.elim
        | getSize => exact hmid.elim
      have hle : k ≤ amount cl := by
        cases cl with
        | read o n => exact hmid.2.2.1
        | write o data => exact hmid.2.le
        | append data => exact hmid.2.le
        | expand n => exact hmid.elim
        | truncate n => exact hmid.elim
        | truncateFakely n => exact hmid.elim
        | synchronize => exact hmid.elim
        | getSize => exact hmid.elim
      by_cases e : k = amount cl
      · refine fin (pc' := .leave (result off buf cl)) ht ?_ (by simp [work])
        simp only [go, if_pos e]
      · have hm : s.mem.mapped s.mem.base (off + k) = true := by
          have := hsize (by omega)
          unfold Mem.mapped
          simp
          omega
        refine fin (pc' := (copyByte s.mem cl s.mem.base off k buf).2) ht ?_ ?_
        · simp only [go, if_neg e]
        · unfold copyByte
          rw [if_pos hm]
          cases cl <;> simp only [work] <;> omega
  · have hno : s.mem.writer = none ∧ s.mem.readers = [] := by
      constructor
      · cases hw : s.mem.writer with
        | none => rfl
        | some i =>
          obtain ⟨_, j, h1, _, h2⟩ := h.wr i hw
          exact absurd ⟨i, j, h1, h2⟩ hex
      · cases hr : s.mem.readers with
        | nil => rfl
        | cons i rest =>
          obtain ⟨j, h1, _, h2⟩ := h.rd i (by rw [hr]; exact List.mem_cons_self)
          exact absurd ⟨i, j, h1, h2⟩ hex
    have : ∃ j ∈ s.jobs, j.pc ≠ .fin := Classical.byContradiction fun hn => hq fun j hj => Classical.byContradiction fun hp => hn ⟨j, hj, hp⟩
    obtain ⟨⟨cl, pc⟩, hm, hp⟩ := this
    obtain ⟨id, ht⟩ := List.getElem?_of_mem hm
    refine ⟨id, ?_⟩
    cases pc with
    | wait =>
      refine fin (pc' := .zone) ht ?_ (by simp [work])
      simp only [go, hno.1, hno.2]
      split <;> simp
    | fin => exact absurd rfl hp
    | zone => exact absurd ⟨id, _, ht, trivial⟩ hex
    | copy _ _ _ _ => exact absurd ⟨id, _, ht, trivial⟩ hex
    | leave _ => exact absurd ⟨id, _, ht, trivial⟩ hex

/-- C80: the calls never wait for one another for ever: whatever has happened, all the calls under way can be brought to their end. -/
theorem C80_atomic_completes (c : Cfg) (d : Disk) (es : List Ev) : ∃ ids : List Nat, Quiet (run c (open_ c d) (es ++ ids.map .go)) := by
  have key : ∀ (w : Nat) (es : List Ev), total (run c (open_ c d) es).jobs ≤ w → ∃ ids : List Nat, Quiet (run c (open_ c d) (es ++ ids.map .go)) := by
    intro w
    induction w with
    | zero =>
      intro es hw
      by_cases hq : Quiet (run c (open_ c d) es)
      · exact ⟨[], by simpa using hq⟩
      · obtain ⟨ord, A, h⟩ := run_inv (c := c) (open_inv c d) es
        obtain ⟨id, hid⟩ := h.progress (c := c) hq
        omega
    | succ w ih =>
      intro es hw
      by_cases hq : Quiet (run c (open_ c d) es)
      · exact ⟨[], by simpa using hq⟩
      · obtain ⟨ord, A, h⟩ := run_inv (c := c) (open_inv c d) es
        obtain ⟨id, hid⟩ := h.progress (c := c) hq
        obtain ⟨ids, hids⟩ := ih (es ++ [.go id]) (by
          rw [show run c (open_ c d) (es ++ [.go id]) = MmapAtomic.step c (run c (open_ c d) es) (.go id) from List.foldl_append ..]
          omega)
        exact ⟨id :: ids, by simpa using hids⟩
  exact key _ es (Nat.le_refl _)

/-! ### Examples -/

def sampleCfg : Cfg := ⟨4, 4, fun n => 2 * n⟩
def sampleDisk : Disk := ⟨2, fun p => if p = 0 then 65 else 66⟩

/-- `Append`, `Read` of its bytes, `Truncate` and `Write` begin at once; the read has to wait and sees the appended bytes as a whole; `Truncate` and the file it
leaves do not get in the way of the copying. -/
def sampleRun : List Ev :=
  [.call (.append [67, 68, 69, 70, 71, 72]), .call (.read 2 6), .call (.truncate 3), .go 0, .go 0, .go 0, .go 1, .go 2, .go 0, .go 0, .go 0, .go 0, .go 0, .go 0, .go 1, .go 0,
    .go 1, .go 2, .go 1, .go 1, .go 1, .go 1, .go 1, .go 1, .go 1, .go 1, .go 1, .go 2, .go 2, .go 2, .call (.write 5 [90]), .call .getSize, .go 3, .go 3, .go 3, .go 3, .go 3, .go 4, .go 4, .go 4]

example : (run sampleCfg (open_ sampleCfg sampleDisk) sampleRun).hist =
    [.inv 0 (.append [67, 68, 69, 70, 71, 72]), .inv 1 (.read 2 6), .inv 2 (.truncate 3), .ret 0 (.num 2), .ret 1 (.got [67, 68, 69, 70, 71, 72]), .ret 2 .done,
      .inv 3 (.write 5 [90]), .inv 4 .getSize, .ret 3 .done, .ret 4 (.num 6)] := by
  with_unfolding_all rfl

example : Quiet (run sampleCfg (open_ sampleCfg sampleDisk) sampleRun) := by
  unfold Quiet
  decide +kernel

/-- The byte 68 comes back from before `Truncate`: it is not specified (C74 has the same of the file for parallel access). -/
example : bytesOf (close (run sampleCfg (open_ sampleCfg sampleDisk) sampleRun).mem) = [65, 66, 67, 68, 0, 90] := by decide +kernel

end Verif.MmapAtomic

namespace Verif.MmapAtomic
open Verif

/-- C80: the model does move the mapping whenever its size changes, and always in `Truncate`, so that `C80_atomic_memory_safe` speaks about pointers
into mappings that have been given up. -/
theorem C80_mapping_moves (c : Mmap.Cfg) (m : Mem) (n : Nat) :
    m.base < (truncate c m n).base ∧
    ((grow c m n).base = m.base ∧ (grow c m n).map = m.map ∨ m.base < (grow c m n).base) ∧
    ((synchronize m).base = m.base ∧ (synchronize m).map = m.map ∨ m.base < (synchronize m).base) := by
  refine ⟨by simp [truncate], ?_, ?_⟩
  · unfold grow
    split
    · exact Or.inl ⟨rfl, rfl⟩
    · right; simp
  · unfold synchronize
    by_cases h : m.size ≠ m.map
    · right; simp [h]
    · left; simp [h]

end Verif.MmapAtomic
