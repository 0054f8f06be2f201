import Verif.File.MmapInv
/-
C74: every step of every call on a memory-mapped file keeps the invariant.
-/
namespace Verif.Mmap
open Verif
open Verif.PageCache (Disk align)
open Verif.Positional (File truncateDisk)

section
variable {f : File} {s : Sys} {ord : Ord}

theorem grow_facts (c : Cfg) (m : Mem) (need : Nat) (hi : m.map = m.disk.len) :
    (grow c m need).size = m.size ∧ (grow c m need).holders = m.holders ∧ (grow c m need).fault = m.fault ∧ need ≤ (grow c m need).map ∧
      m.map ≤ (grow c m need).map ∧ (grow c m need).map = (grow c m need).disk.len ∧
      ∀ pos, pos < m.disk.len → (grow c m need).disk.data pos = m.disk.data pos := by
  unfold grow
  split
  · exact ⟨rfl, rfl, rfl, by assumption, Nat.le_refl _, hi, fun _ _ => rfl⟩
  · have h1 : max (max need (c.scale m.map)) c.page ≤ align (max (max need (c.scale m.map)) c.page) c.page := Positional.align_le
    have h2 : need ≤ align (max (max need (c.scale m.map)) c.page) c.page := by omega
    refine ⟨rfl, rfl, rfl, h2, ?_, rfl, ?_⟩
    · show m.map ≤ align (max (max need (c.scale m.map)) c.page) c.page
      omega
    · intro pos hp
      show (if pos < m.disk.len ∧ pos < align (max (max need (c.scale m.map)) c.page) c.page then m.disk.data pos else 0) = _
      rw [if_pos ⟨hp, by omega⟩]

theorem Inv.written_lt (I : Inv f s ord) {id pos : Nat} {v : UInt8} (h : Written s.jobs ord id pos v) : pos < s.mem.size := by
  obtain ⟨c, off, j, hm, hle, hv, _⟩ := h
  have h1 := sizes_inside I.sizes hm
  have h2 := (List.getElem?_eq_some_iff.1 hv).1
  have h3 : (payload c).length ≤ want c := by cases c <;> simp [payload, want]
  omega

/-- The bytes after a step that stores none. -/
theorem Inv.bytes_same (I : Inv f s ord) (wf : ∀ pos w, f.data pos = some w → pos < f.size) {id : Nat} {j : Job} (hj : s.jobs[id]? = some j) {m' : Mem} {pc' : Pc}
    {out : Option Out} {n n' : Nat} {ord' : Ord} (g : Grows id j.call j.pc pc' n n' ord ord')
    (hp : payload j.call ≠ [] → progress j.call pc' = progress j.call j.pc) (hd : ∀ pos, pos < s.mem.disk.len → m'.disk.data pos = s.mem.disk.data pos) :
    ∀ pos, ByteOk f (Mmap.upd s id j.call m' pc' out) ord' pos := by
  intro pos
  have hw : ∀ {id' : Nat} {v : UInt8}, Written (s.jobs.set id ⟨j.call, pc'⟩) ord' id' pos v ↔ Written s.jobs ord id' pos v :=
    fun {id' v} => I.written_same hj g hp
  have hlen : s.mem.size ≤ s.mem.disk.len := by rw [← I.hi]; exact I.lo
  rcases I.bytes pos with ⟨w, h1, h2⟩ | ⟨h1, h2⟩
  · have hlt := I.written_lt h1
    refine .inl ⟨w, ?_, ?_⟩
    · show Written (s.jobs.set id ⟨j.call, pc'⟩) ord' w pos (m'.disk.data pos)
      rw [hd pos (by omega)]
      exact hw.2 h1
    · intro id' v' h hx
      exact h2 id' v' (hw.1 h) (precedes_rets hx)
  · refine .inr ⟨?_, fun id' v' h => h2 id' v' (hw.1 h)⟩
    intro w hf
    have := wf pos w hf
    have := sizes_le I.sizes
    show m'.disk.data pos = w
    rw [hd pos (by omega)]
    exact h1 w hf

/-- A new call. -/
theorem Inv.call (I : Inv f s ord) (c : Cfg) (cl : Call) : Inv f (step c s (.call cl)) ord := by
  have hget : ∀ {id : Nat} {j : Job}, (s.jobs ++ [⟨cl, firstPc cl⟩])[id]? = some j → s.jobs[id]? = some j ∨ (id = s.jobs.length ∧ j = ⟨cl, firstPc cl⟩) := by
    intro id j h
    by_cases hlt : id < s.jobs.length
    · rw [List.getElem?_append_left hlt] at h
      exact .inl h
    · have h1 := (List.getElem?_eq_some_iff.1 h).1
      simp at h1
      have e : id = s.jobs.length := by omega
      subst e
      simp at h
      exact .inr ⟨rfl, h.symm⟩
  have hold : ∀ {id : Nat} {j : Job}, s.jobs[id]? = some j → (s.jobs ++ [⟨cl, firstPc cl⟩])[id]? = some j := by
    intro id j h
    rw [List.getElem?_append_left (List.getElem?_eq_some_iff.1 h).1]
    exact h
  have hnew : (s.jobs ++ [⟨cl, firstPc cl⟩])[s.jobs.length]? = some ⟨cl, firstPc cl⟩ := by simp
  have hfresh : ∀ x, x ∈ ord → x.1 ≠ s.jobs.length := by
    intro x hx e
    obtain ⟨j, h1, _⟩ := I.ordJob x hx
    rw [e] at h1
    simp at h1
  have hmem : ∀ {e : HEv}, e ∈ s.hist ++ [.inv s.jobs.length cl] ↔ e ∈ s.hist ∨ e = .inv s.jobs.length cl := by intro e; simp
  have hpre : ∀ {a b : Nat}, Precedes (s.hist ++ [.inv s.jobs.length cl]) a b → b ≠ s.jobs.length → Precedes s.hist a b := by
    intro a b h hb
    rcases precedes_snoc h with h | ⟨c, e⟩
    · exact h
    · injection e with e; exact absurd e.symm hb
  have hinv : ∀ {id : Nat} {x : Call}, HEv.inv id x ∈ s.hist → id < s.jobs.length := by
    intro id x h
    obtain ⟨j, h1, _⟩ := (I.inv id x).1 h
    exact (List.getElem?_eq_some_iff.1 h1).1
  have hw : ∀ {id pos : Nat} {v : UInt8}, Written (s.jobs ++ [⟨cl, firstPc cl⟩]) ord id pos v ↔ Written s.jobs ord id pos v := by
    intro id pos v
    constructor
    · rintro ⟨x, off, j, h1, h2, h3, h4, h5⟩
      rcases hget h4 with h4 | ⟨e, _⟩
      · exact ⟨x, off, j, h1, h2, h3, h4, h5⟩
      · exact absurd e (hfresh _ h1)
    · rintro ⟨x, off, j, h1, h2, h3, h4, h5⟩
      exact ⟨x, off, j, h1, h2, h3, hold h4, h5⟩
  refine ⟨I.lo, I.hi, I.nf, ?_, ?_, I.sizes, I.once, ?_, ?_, ?_, ?_, ?_, ?_, ?_⟩
  · intro id j h
    rcases hget h with h | ⟨e, e2⟩
    · exact I.jobs id j h
    · subst e2
      show JobOk s.mem ord id cl (firstPc cl)
      cases cl <;> simp only [firstPc, JobOk] <;> trivial
  · intro id h
    obtain ⟨j, h1, h2⟩ := I.hold id h
    exact ⟨j, hold h1, h2⟩
  · intro x hx
    obtain ⟨j, h1, h2⟩ := I.ordJob x hx
    exact ⟨j, hold h1, h2⟩
  · intro id x
    show HEv.inv id x ∈ s.hist ++ _ ↔ ∃ j, (s.jobs ++ [⟨cl, firstPc cl⟩])[id]? = some j ∧ _
    rw [hmem, I.inv]
    constructor
    · rintro (⟨j, h1, h2⟩ | h)
      · exact ⟨j, hold h1, h2⟩
      · injection h with e1 e2
        subst e1; subst e2
        exact ⟨_, hnew, rfl⟩
    · rintro ⟨j, h1, h2⟩
      rcases hget h1 with h1 | ⟨e, e2⟩
      · exact .inl ⟨j, h1, h2⟩
      · subst e; subst e2
        have h2 : cl = x := h2
        rw [h2]
        exact .inr rfl
  · intro id out h
    rcases hmem.1 h with h | h
    · obtain ⟨j, p, h1, h2⟩ := I.ret id out h
      exact ⟨j, p, hold h1, h2⟩
    · cases h
  · intro id j h hf
    rcases hget h with h | ⟨e, e2⟩
    · obtain ⟨o, h⟩ := I.fin id j h hf
      exact ⟨o, hmem.2 (.inl h)⟩
    · subst e2
      cases cl <;> cases hf
  · intro o1 x o2 he a hp
    refine I.order o1 x o2 he a (hpre hp (hfresh x ?_))
    rw [he]; simp
  · intro pos
    rcases I.bytes pos with ⟨w, h1, h2⟩ | ⟨h1, h2⟩
    · refine .inl ⟨w, hw.2 h1, ?_⟩
      intro id' v' h hx
      have h' := hw.1 h
      obtain ⟨x, hx1, hx2⟩ := puts_call (written_puts h')
      exact h2 id' v' h' (hpre hx (by rw [← hx2]; exact hfresh x hx1))
    · exact .inr ⟨h1, fun id' v' h => h2 id' v' (hw.1 h)⟩
  · intro id off n b hc hb i v hv
    obtain ⟨pc, hc⟩ := hc
    have hb' : Buf s id b := by
      rcases hb with ⟨x, base, o, k, h⟩ | ⟨x, h⟩ | h
      · rcases hget h with h | ⟨_, e⟩
        · exact .inl ⟨x, base, o, k, h⟩
        · injection e with _ e
          cases cl <;> cases e
      · rcases hget h with h | ⟨_, e⟩
        · exact .inr (.inl ⟨x, h⟩)
        · injection e with _ e
          cases cl <;> cases e
      · rcases hmem.1 h with h | h
        · exact .inr (.inr h)
        · cases h
    have hlt : id < s.jobs.length := by
      rcases hb' with ⟨x, base, o, k, h⟩ | ⟨x, h⟩ | h
      · exact (List.getElem?_eq_some_iff.1 h).1
      · exact (List.getElem?_eq_some_iff.1 h).1
      · obtain ⟨j, p, h1, _⟩ := I.ret _ _ h
        exact (List.getElem?_eq_some_iff.1 h1).1
    have hc' : s.jobs[id]? = some ⟨.read off n, pc⟩ := by
      rcases hget hc with h | ⟨e, _⟩
      · exact h
      · omega
    refine (I.reads id off n b ⟨pc, hc'⟩ hb' i v hv).mono ?_ ?_ ?_ (fun _ _ h => h) (fun _ _ h _ => h)
    · rintro id' ⟨v', h⟩ hx
      obtain ⟨x, hx1, hx2⟩ := puts_call h
      exact hpre hx (by rw [← hx2]; exact hfresh x hx1)
    · intro a hx
      exact hpre hx (by omega)
    · intro a b' hy hx
      refine hpre hx ?_
      intro e
      obtain ⟨⟨r, hr⟩, _⟩ := precedes_ret hy
      obtain ⟨j, p, h1, _⟩ := I.ret _ _ hr
      have := (List.getElem?_eq_some_iff.1 h1).1
      omega

/-- A step that changes nothing but where the call is, and that stores nothing. -/
theorem Inv.local (I : Inv f s ord) (wf : ∀ pos w, f.data pos = some w → pos < f.size) {id : Nat} {cl : Call} {pc : Pc} (hj : s.jobs[id]? = some ⟨cl, pc⟩) {pc' : Pc} {ord' : Ord}
    (g : Grows id cl pc pc' s.mem.size s.mem.size ord ord') (self : JobOk s.mem ord' id cl pc') (hpr : progress cl pc' = progress cl pc)
    (hh : holding pc' = holding pc) (hf : pc ≠ .fin ∧ pc' ≠ .fin)
    (rd : ∀ off n b, cl = .read off n → (∃ base o k, pc' = .copy base o k b) ∨ pc' = .leave (.got b) → Buf s id b) :
    Inv f (Mmap.upd s id cl s.mem pc' none) ord' := by
  refine I.upd hj g I.lo I.hi I.nf (Nat.le_refl _) self ?_ (fun x h _ => h) (.inl rfl) (fun o h => nomatch h) (fun _ h => absurd h hf.2)
    (fun h => absurd h hf.1) (I.bytes_same wf hj g (fun _ => hpr) fun _ _ => rfl) ?_
  · intro x hx
    by_cases e : x = id
    · subst e
      refine .inl ⟨rfl, ?_⟩
      obtain ⟨j, h1, h2⟩ := I.hold x hx
      rw [hj] at h1; cases h1
      rw [hh]; exact h2
    · exact .inr ⟨e, hx⟩
  · intro off n b hc h
    refine .inr (.inl ?_)
    rcases h with h | h | h
    · exact rd off n b hc (.inl h)
    · exact rd off n b hc (.inr h)
    · cases h

/-- `AllocateSpace` under the lock. -/
theorem Inv.grown (I : Inv f s ord) (wf : ∀ pos w, f.data pos = some w → pos < f.size) (c : Cfg) {id : Nat} {cl : Call} {pc : Pc} (hj : s.jobs[id]? = some ⟨cl, pc⟩) {pc' : Pc}
    (need : Nat) (hemp : s.mem.holders = []) (hpl : placed pc' = placed pc) (self : JobOk (grow c s.mem need) ord id cl pc')
    (hpr : progress cl pc' = progress cl pc) (hf : pc ≠ .fin ∧ pc' ≠ .fin) (hnr : ¬ isRd cl) : Inv f (Mmap.upd s id cl (grow c s.mem need) pc' none) ord := by
  obtain ⟨g1, g2, g3, g4, g5, g6, g7⟩ := grow_facts c s.mem need I.hi
  have g : Grows id cl pc pc' s.mem.size (grow c s.mem need).size ord ord := .same hpl g1
  refine I.upd hj g (by rw [g1]; exact Nat.le_trans I.lo g5) g6 (by rw [g3]; exact I.nf) g5 self ?_ ?_ (.inr hemp) (fun o h => nomatch h) (fun _ h => absurd h hf.2)
    (fun h => absurd h hf.1) (I.bytes_same wf hj g (fun _ => hpr) g7) ?_
  · intro x hx
    rw [g2, hemp] at hx; cases hx
  · intro x hx
    rw [hemp] at hx; cases hx
  · intro off n b hc
    have hc : cl = .read off n := hc
    subst hc
    exact absurd trivial hnr

/-- `compare_exchange_weak` that succeeds. -/
theorem Inv.cas (I : Inv f s ord) (wf : ∀ pos w, f.data pos = some w → pos < f.size) {id : Nat} {cl : Call} {pc : Pc} (hj : s.jobs[id]? = some ⟨cl, pc⟩) {pc' : Pc} {n : Nat} {ord' : Ord}
    (hn : n ≤ s.mem.map) (g : Grows id cl pc pc' s.mem.size n ord ord') (self : JobOk { s.mem with size := n } ord' id cl pc')
    (hpr : progress cl pc' = progress cl pc) (hh : holding pc' = holding pc) (hf : pc ≠ .fin ∧ pc' ≠ .fin) (hnr : ¬ isRd cl) :
    Inv f (Mmap.upd s id cl { s.mem with size := n } pc' none) ord' := by
  refine I.upd hj g hn I.hi I.nf (Nat.le_refl _) self ?_ (fun x h _ => h) (.inl rfl) (fun o h => nomatch h) (fun _ h => absurd h hf.2)
    (fun h => absurd h hf.1) (I.bytes_same wf hj g (fun _ => hpr) fun _ _ => rfl) ?_
  · intro x hx
    by_cases e : x = id
    · subst e
      refine .inl ⟨rfl, ?_⟩
      obtain ⟨j, h1, h2⟩ := I.hold x hx
      rw [hj] at h1; cases h1
      rw [hh]; exact h2
    · exact .inr ⟨e, hx⟩
  · intro off n b hc
    have hc : cl = .read off n := hc
    subst hc
    exact absurd trivial hnr

/-- `lock_shared`. -/
theorem Inv.entered (I : Inv f s ord) (wf : ∀ pos w, f.data pos = some w → pos < f.size) {id : Nat} {cl : Call} {off n : Nat} (hj : s.jobs[id]? = some ⟨cl, .enter off n⟩) :
    Inv f (Mmap.upd s id cl { s.mem with holders := id :: s.mem.holders } (within s.mem.base off n cl) none) ord := by
  have hok : JobOk s.mem ord id cl (.enter off n) := I.jobs id _ hj
  obtain ⟨h1, h2, h3⟩ := hok
  have hpl : placed (within s.mem.base off n cl) = true ∧ holding (within s.mem.base off n cl) = true ∧ within s.mem.base off n cl ≠ .fin ∧
      (payload cl ≠ [] → progress cl (within s.mem.base off n cl) = 0) := by
    cases cl with
    | read o w => simp only [within]; split <;> simp [placed, holding, progress, payload]
    | write o d => simp [within, placed, holding, progress]
    | append d => simp [within, placed, holding, progress]
    | expand w => simp [within, placed, holding, progress, payload]
  have g : Grows id cl (.enter off n) (within s.mem.base off n cl) s.mem.size s.mem.size ord ord := .same (by rw [hpl.1]; rfl) rfl
  refine I.upd hj g I.lo I.hi I.nf (Nat.le_refl _) ?_ ?_ (fun x h _ => List.mem_cons_of_mem _ h) (.inl rfl) (fun o h => nomatch h)
    (fun _ h => absurd h hpl.2.2.1) (fun h => nomatch h) (I.bytes_same wf hj g (fun h => hpl.2.2.2 h) fun _ _ => rfl) ?_
  · show JobOk { s.mem with holders := id :: s.mem.holders } ord id cl (within s.mem.base off n cl)
    cases cl with
    | read o w =>
      simp only [within]
      rcases h3 with ⟨h3, h4⟩ | ⟨h3, h4, _⟩
      · have h4 : n = w := h4
        rw [if_neg (by simpa using h4)]
        exact ⟨h3, List.mem_cons_self, rfl, Nat.zero_le _, trivial, by rw [h4] at h1; exact h1, fun h => ⟨rfl, h2 h⟩⟩
      · have h4 : n ≠ w := h4
        rw [if_pos h4]
        exact ⟨none, h3, trivial⟩
    | write o d =>
      rcases h3 with ⟨h3, h4⟩ | ⟨_, _, h5⟩
      · exact ⟨h3, List.mem_cons_self, rfl, Nat.zero_le _, trivial, by rw [h4] at h1; exact h1, fun h => nomatch h⟩
      · cases h5
    | append d =>
      rcases h3 with ⟨h3, h4⟩ | ⟨_, _, h5⟩
      · exact ⟨h3, List.mem_cons_self, rfl, Nat.zero_le _, trivial, by rw [h4] at h1; exact h1, fun h => nomatch h⟩
      · cases h5
    | expand w =>
      rcases h3 with ⟨h3, h4⟩ | ⟨_, _, h5⟩
      · exact ⟨some off, h3, rfl⟩
      · cases h5
  · intro x hx
    rcases List.mem_cons.1 hx with e | hx
    · exact .inl ⟨e, hpl.2.1⟩
    · by_cases e : x = id
      · exact .inl ⟨e, hpl.2.1⟩
      · exact .inr ⟨e, hx⟩
  · intro o w b hc h
    have hc : cl = .read o w := hc
    subst hc
    simp only [within] at h
    split at h
    · rcases h with ⟨_, _, _, h⟩ | h | h
      · cases h
      · injection h with h; cases h
      · cases h
    · rcases h with ⟨_, _, _, h⟩ | h | h
      · injection h with _ _ _ h
        exact .inl h.symm
      · cases h
      · cases h

/-- A byte is read. -/
theorem Inv.readByte (I : Inv f s ord) (wf : ∀ pos w, f.data pos = some w → pos < f.size) {id o n base off k : Nat} {buf : Bytes}
    (hj : s.jobs[id]? = some ⟨.read o n, .copy base off k buf⟩) (hk : k ≠ n) :
    Inv f (Mmap.upd s id (.read o n) s.mem (.copy base off (k + 1) (buf ++ [s.mem.disk.data (off + k)])) none) ord := by
  have hok : JobOk s.mem ord id (.read o n) (.copy base off k buf) := I.jobs id _ hj
  obtain ⟨h1, h2, h3, h4, h5, h6, h7⟩ := hok
  have h4 : k ≤ n := h4
  obtain ⟨h7, h8⟩ := h7 trivial
  have h8 : off = o := h8
  have g : Grows id (.read o n) (.copy base off k buf) (.copy base off (k + 1) (buf ++ [s.mem.disk.data (off + k)])) s.mem.size s.mem.size ord ord := .same rfl rfl
  refine I.upd hj g I.lo I.hi I.nf (Nat.le_refl _) ?_ ?_ (fun x h _ => h) (.inl rfl) (fun o h => nomatch h) (fun _ h => nomatch h)
    (fun h => nomatch h) (I.bytes_same wf hj g (fun h => absurd rfl h) fun _ _ => rfl) ?_
  · exact ⟨h1, h2, h3, by show k + 1 ≤ n; omega, h5, h6, fun _ => ⟨by simp [h7], h8⟩⟩
  · intro x hx
    by_cases e : x = id
    · exact .inl ⟨e, rfl⟩
    · exact .inr ⟨e, hx⟩
  · intro off' n' b hc h
    injection hc with e1 e2
    rcases h with ⟨_, _, _, h⟩ | h | h
    · injection h with _ _ _ h
      refine .inr (.inr ⟨buf, ?_, .inl ⟨_, _, _, _, hj⟩, fun h => nomatch h⟩)
      rw [← h, h7, h8, e1]
    · cases h
    · cases h

/-- A byte is stored. -/
theorem Inv.writeByte (I : Inv f s ord) (wf : ∀ pos w, f.data pos = some w → pos < f.size) {id base off k : Nat} {cl : Call} {buf : Bytes}
    (hj : s.jobs[id]? = some ⟨cl, .copy base off k buf⟩) (hk : k ≠ want cl) (hcl : ¬ isRd cl) :
    Inv f (Mmap.upd s id cl { s.mem with disk := poke s.mem.disk (off + k) (((payload cl)[k]?).getD 0) } (.copy base off (k + 1) buf) none) ord := by
  have hok : JobOk s.mem ord id cl (.copy base off k buf) := I.jobs id _ hj
  obtain ⟨h1, h2, h3, h4, h5, h6, h7⟩ := hok
  have hpl : (payload cl).length = want cl := by
    cases cl with
    | read => exact absurd trivial hcl
    | write => rfl
    | append => rfl
    | expand => cases h5
  have hkl : k < (payload cl).length := by omega
  have hv : (payload cl)[k]? = some (payload cl)[k] := List.getElem?_eq_getElem hkl
  have g : Grows id cl (.copy base off k buf) (.copy base off (k + 1) buf) s.mem.size s.mem.size ord ord := .same rfl rfl
  have hnot : ∀ x, ¬ Precedes s.hist id x := by
    intro x hx
    obtain ⟨⟨r, hr⟩, _⟩ := precedes_ret hx
    obtain ⟨j, _, y1, y2, _⟩ := I.ret _ _ hr
    rw [hj] at y1; cases y1; cases y2
  have hset : ∀ {id' pos : Nat} {v : UInt8}, Written (s.jobs.set id ⟨cl, .copy base off (k + 1) buf⟩) ord id' pos v →
      Written s.jobs ord id' pos v ∨ (id' = id ∧ pos = off + k) := by
    rintro id' pos v ⟨c, o, j, y1, y2, y3, y4, y5⟩
    rcases jobs_set hj _ y4 with ⟨e, e2⟩ | ⟨e, y4⟩
    · subst e; subst e2
      obtain ⟨e1, e2⟩ := entry_unique I.once h1 y1
      cases e1; cases e2
      by_cases e : pos = off + k
      · exact .inr ⟨rfl, e⟩
      · refine .inl ⟨cl, off, _, y1, y2, y3, hj, ?_⟩
        have y5 : pos - off < k + 1 := y5
        show pos - off < k
        omega
    · exact .inl ⟨c, o, j, y1, y2, y3, y4, y5⟩
  have hset' : ∀ {id' pos : Nat} {v : UInt8}, Written s.jobs ord id' pos v → Written (s.jobs.set id ⟨cl, .copy base off (k + 1) buf⟩) ord id' pos v := by
    rintro id' pos v ⟨c, o, j, y1, y2, y3, y4, y5⟩
    by_cases e : id' = id
    · subst e
      rw [hj] at y4; cases y4
      refine ⟨c, o, _, y1, y2, y3, jobs_self hj _, ?_⟩
      have y5 : pos - o < k := y5
      show pos - o < k + 1
      omega
    · exact ⟨c, o, j, y1, y2, y3, by rw [jobs_other _ e]; exact y4, y5⟩
  refine I.upd hj g I.lo I.hi I.nf (Nat.le_refl _) ?_ ?_ (fun x h _ => h) (.inl rfl) (fun o h => nomatch h) (fun _ h => nomatch h)
    (fun h => nomatch h) ?_ ?_
  · exact ⟨h1, h2, h3, Nat.lt_of_lt_of_eq hkl hpl, h5, h6, fun h => absurd h hcl⟩
  · intro x hx
    by_cases e : x = id
    · exact .inl ⟨e, rfl⟩
    · exact .inr ⟨e, hx⟩
  · intro pos
    by_cases e : pos = off + k
    · subst e
      refine .inl ⟨id, ?_, fun id' v' _ hx => hnot id' (precedes_rets hx)⟩
      refine ⟨cl, off, _, h1, Nat.le_add_right _ _, ?_, jobs_self hj _, ?_⟩
      · show (payload cl)[off + k - off]? = some (if off + k = off + k then ((payload cl)[k]?).getD 0 else _)
        rw [if_pos rfl, Nat.add_sub_cancel_left, hv]
        rfl
      · show off + k - off < k + 1
        omega
    · have hd : (poke s.mem.disk (off + k) (((payload cl)[k]?).getD 0)).data pos = s.mem.disk.data pos := if_neg e
      rcases I.bytes pos with ⟨w, y1, y2⟩ | ⟨y1, y2⟩
      · refine .inl ⟨w, ?_, ?_⟩
        · show Written _ _ _ _ ((poke s.mem.disk (off + k) (((payload cl)[k]?).getD 0)).data pos)
          rw [hd]
          exact hset' y1
        · intro id' v' h hx
          rcases hset h with h | ⟨_, h⟩
          · exact y2 id' v' h (precedes_rets hx)
          · exact e h
      · refine .inr ⟨?_, ?_⟩
        · show ∀ w, f.data pos = some w → (poke s.mem.disk (off + k) (((payload cl)[k]?).getD 0)).data pos = w
          rw [hd]
          exact y1
        · intro id' v' h
          rcases hset h with h | ⟨_, h⟩
          · exact y2 id' v' h
          · exact e h
  · intro o n b hc
    have hc : cl = .read o n := hc
    subst hc
    exact absurd trivial hcl

/-- A call returns. -/
theorem Inv.left (I : Inv f s ord) (wf : ∀ pos w, f.data pos = some w → pos < f.size) {id : Nat} {cl : Call} {pc : Pc} {out : Out} (hj : s.jobs[id]? = some ⟨cl, pc⟩)
    {m' : Mem} (hm : m' = { s.mem with holders := s.mem.holders.filter (· ≠ id) } ∨ m' = s.mem ∧ holding pc = false) (hpl : placed pc = true)
    (hf : pc ≠ .fin) (hfit : ∃ p, (id, cl, p) ∈ ord ∧ Fits cl p out) (hpr : payload cl ≠ [] → progress cl pc = want cl)
    (hb : ∀ b, out = .got b → Buf s id b) : Inv f (Mmap.upd s id cl m' .fin (some out)) ord := by
  have hd : m'.disk = s.mem.disk ∧ m'.size = s.mem.size ∧ m'.map = s.mem.map ∧ m'.base = s.mem.base ∧ m'.fault = s.mem.fault ∧
      (∀ x, x ∈ m'.holders ↔ x ∈ s.mem.holders ∧ x ≠ id) := by
    rcases hm with e | ⟨e, e2⟩
    · subst e
      refine ⟨rfl, rfl, rfl, rfl, rfl, fun x => ?_⟩
      simp [List.mem_filter]
    · subst e
      refine ⟨rfl, rfl, rfl, rfl, rfl, fun x => ⟨fun hx => ⟨hx, ?_⟩, fun h => h.1⟩⟩
      intro e
      subst e
      obtain ⟨j, y1, y2⟩ := I.hold x hx
      rw [hj] at y1; cases y1
      rw [e2] at y2; cases y2
  obtain ⟨d1, d2, d3, d4, d5, d6⟩ := hd
  have g : Grows id cl pc .fin s.mem.size m'.size ord ord := .same (by rw [hpl]; rfl) d2
  refine I.upd hj g (by rw [d2, d3]; exact I.lo) (by rw [d3, d1]; exact I.hi) (by rw [d5]; exact I.nf) (by omega) trivial ?_
    (fun x h hne => (d6 x).2 ⟨h, hne⟩) (.inl d4) ?_ (fun h => nomatch h) (fun h => absurd h hf) (I.bytes_same wf hj g ?_ fun _ _ => by rw [d1]) ?_
  · intro x hx
    exact .inr ⟨((d6 x).1 hx).2, ((d6 x).1 hx).1⟩
  · intro o h
    cases h
    exact ⟨rfl, hfit⟩
  · intro h
    exact (hpr h).symm
  · intro off n b hc h
    rcases h with ⟨_, _, _, h⟩ | h | h
    · cases h
    · cases h
    · injection h with h
      exact .inr (.inl (hb b h))

theorem placeAt_app {n : Nat} {cl : Call} (h : isApp cl) : placeAt n cl = some n ∧ sizeAfter n cl = n + want cl ∧ ¬ isRd cl := by
  cases cl <;> first | exact ⟨rfl, rfl, fun h => h⟩ | cases h

theorem placeAt_wr {n : Nat} {cl : Call} (h : isWr cl) : placeAt n cl = some (offOf cl) ∧ sizeAfter n cl = max n (wrEnd cl) ∧ ¬ isRd cl ∧
    wrEnd cl = offOf cl + want cl := by
  cases cl <;> first | exact ⟨rfl, rfl, fun h => h, rfl⟩ | cases h

theorem placeAt_rd {n : Nat} {cl : Call} (h : isRd cl) : placeAt n cl = (if offOf cl + want cl ≤ n then some (offOf cl) else none) ∧ sizeAfter n cl = n := by
  cases cl <;> first | exact ⟨rfl, rfl⟩ | cases h

/-- Every step of a call. -/
theorem Inv.go (I : Inv f s ord) (wf : ∀ pos w, f.data pos = some w → pos < f.size) (c : Cfg) (id : Nat) (weak : Bool) : ∃ ord', Inv f (step c s (.go id weak)) ord' := by
  cases hj : s.jobs[id]? with
  | none =>
    refine ⟨ord, ?_⟩
    simp only [step, hj]
    exact I
  | some j =>
    obtain ⟨cl, pc⟩ := j
    have hs : step c s (.go id weak) = Mmap.upd s id cl (Mmap.go c s.mem id cl weak pc).1 (Mmap.go c s.mem id cl weak pc).2.1 (Mmap.go c s.mem id cl weak pc).2.2 := by
      simp only [step, hj, Mmap.upd]
    rw [hs]
    have hok : JobOk s.mem ord id cl pc := I.jobs id _ hj
    have nord : ∀ {pc' : Pc}, (∀ b base o k, pc' ≠ .copy base o k b) → (∀ b, pc' ≠ .leave (.got b)) →
        ∀ off n b, cl = .read off n → (∃ base o k, pc' = .copy base o k b) ∨ pc' = .leave (.got b) → Buf s id b := by
      intro pc' h1 h2 off n b _ h
      rcases h with ⟨_, _, _, h⟩ | h
      · exact absurd h (h1 _ _ _ _)
      · exact absurd h (h2 _)
    cases pc with
    | appLoad =>
      exact ⟨ord, I.local wf hj (.same rfl rfl) hok rfl rfl ⟨(nomatch ·), (nomatch ·)⟩ (nord (fun _ _ _ _ => (nomatch ·)) (fun _ => (nomatch ·)))⟩
    | appAlloc old =>
      by_cases h : old + want cl ≤ s.mem.map
      · simp only [Mmap.go, if_pos h]
        exact ⟨ord, I.local wf hj (.same rfl rfl) ⟨hok, h⟩ rfl rfl ⟨(nomatch ·), (nomatch ·)⟩ (nord (fun _ _ _ _ => (nomatch ·)) (fun _ => (nomatch ·)))⟩
      · simp only [Mmap.go, if_neg h]
        exact ⟨ord, I.local wf hj (.same rfl rfl) hok rfl rfl ⟨(nomatch ·), (nomatch ·)⟩ (nord (fun _ _ _ _ => (nomatch ·)) (fun _ => (nomatch ·)))⟩
    | appGrow old =>
      by_cases h : s.mem.holders = []
      · simp only [Mmap.go, if_pos h]
        exact ⟨ord, I.grown wf c hj _ h rfl ⟨hok, (grow_facts c s.mem _ I.hi).2.2.2.1⟩ rfl ⟨(nomatch ·), (nomatch ·)⟩ (placeAt_app (n := 0) hok).2.2⟩
      · simp only [Mmap.go, if_neg h]
        exact ⟨ord, I.local wf hj (.same rfl rfl) hok rfl rfl ⟨(nomatch ·), (nomatch ·)⟩ (nord (fun _ _ _ _ => (nomatch ·)) (fun _ => (nomatch ·)))⟩
    | appCas old =>
      obtain ⟨h1, h2⟩ := hok
      by_cases h : weak = false ∧ s.mem.size = old
      · simp only [Mmap.go, if_pos h]
        obtain ⟨p1, p2, p3⟩ := placeAt_app (n := s.mem.size) h1
        refine ⟨ord ++ [(id, cl, placeAt s.mem.size cl)], I.cas wf hj h2 (.place rfl rfl rfl (by rw [p2, h.2])) ?_ rfl rfl ⟨(nomatch ·), (nomatch ·)⟩ p3⟩
        refine ⟨Nat.le_refl _, fun h => absurd h p3, .inl ⟨?_, rfl⟩⟩
        rw [p1, h.2]
        simp
      · simp only [Mmap.go, if_neg h]
        exact ⟨ord, I.local wf hj (.same rfl rfl) h1 rfl rfl ⟨(nomatch ·), (nomatch ·)⟩ (nord (fun _ _ _ _ => (nomatch ·)) (fun _ => (nomatch ·)))⟩
    | wrAlloc =>
      by_cases h : wrEnd cl ≤ s.mem.map
      · simp only [Mmap.go, if_pos h]
        exact ⟨ord, I.local wf hj (.same rfl rfl) ⟨hok, h⟩ rfl rfl ⟨(nomatch ·), (nomatch ·)⟩ (nord (fun _ _ _ _ => (nomatch ·)) (fun _ => (nomatch ·)))⟩
      · simp only [Mmap.go, if_neg h]
        exact ⟨ord, I.local wf hj (.same rfl rfl) hok rfl rfl ⟨(nomatch ·), (nomatch ·)⟩ (nord (fun _ _ _ _ => (nomatch ·)) (fun _ => (nomatch ·)))⟩
    | wrGrow =>
      by_cases h : s.mem.holders = []
      · simp only [Mmap.go, if_pos h]
        exact ⟨ord, I.grown wf c hj _ h rfl ⟨hok, (grow_facts c s.mem _ I.hi).2.2.2.1⟩ rfl ⟨(nomatch ·), (nomatch ·)⟩ (placeAt_wr (n := 0) hok).2.2.1⟩
      · simp only [Mmap.go, if_neg h]
        exact ⟨ord, I.local wf hj (.same rfl rfl) hok rfl rfl ⟨(nomatch ·), (nomatch ·)⟩ (nord (fun _ _ _ _ => (nomatch ·)) (fun _ => (nomatch ·)))⟩
    | wrLoad =>
      obtain ⟨h1, h2⟩ := hok
      obtain ⟨p1, p2, p3, p4⟩ := placeAt_wr (n := s.mem.size) h1
      by_cases h : wrEnd cl ≤ s.mem.size
      · simp only [Mmap.go, if_pos h]
        refine ⟨ord ++ [(id, cl, placeAt s.mem.size cl)], I.local wf hj (.place rfl rfl rfl (by rw [p2]; omega)) ?_ rfl rfl ⟨(nomatch ·), (nomatch ·)⟩
          (nord (fun _ _ _ _ => (nomatch ·)) (fun _ => (nomatch ·)))⟩
        refine ⟨by omega, fun h => absurd h p3, .inl ⟨?_, rfl⟩⟩
        rw [p1]
        simp
      · simp only [Mmap.go, if_neg h]
        exact ⟨ord, I.local wf hj (.same rfl rfl) ⟨h1, h2, by omega⟩ rfl rfl ⟨(nomatch ·), (nomatch ·)⟩ (nord (fun _ _ _ _ => (nomatch ·)) (fun _ => (nomatch ·)))⟩
    | wrCas old =>
      obtain ⟨h1, h2, h3⟩ := hok
      obtain ⟨p1, p2, p3, p4⟩ := placeAt_wr (n := s.mem.size) h1
      by_cases h : weak = false ∧ s.mem.size = old
      · simp only [Mmap.go, if_pos h]
        refine ⟨ord ++ [(id, cl, placeAt s.mem.size cl)], I.cas wf hj h2 (.place rfl rfl rfl (by rw [p2]; omega)) ?_ rfl rfl ⟨(nomatch ·), (nomatch ·)⟩ p3⟩
        refine ⟨by show offOf cl + want cl ≤ wrEnd cl; omega, fun h => absurd h p3, .inl ⟨?_, rfl⟩⟩
        rw [p1]
        simp
      · simp only [Mmap.go, if_neg h]
        exact ⟨ord, I.local wf hj (.same rfl rfl) ⟨h1, h2⟩ rfl rfl ⟨(nomatch ·), (nomatch ·)⟩ (nord (fun _ _ _ _ => (nomatch ·)) (fun _ => (nomatch ·)))⟩
    | rdFirst =>
      obtain ⟨p1, p2⟩ := placeAt_rd (n := s.mem.size) hok
      by_cases h : offOf cl > s.mem.size
      · simp only [Mmap.go, if_pos h]
        refine ⟨ord ++ [(id, cl, placeAt s.mem.size cl)], I.local wf hj (.place rfl rfl rfl p2.symm) ?_ rfl rfl ⟨(nomatch ·), (nomatch ·)⟩
          (nord (fun _ _ _ _ => (nomatch ·)) (fun _ => (nomatch ·)))⟩
        refine ⟨hok, ?_⟩
        rw [p1, if_neg (by omega)]
        simp
      · simp only [Mmap.go, if_neg h]
        exact ⟨ord, I.local wf hj (.same rfl rfl) ⟨hok, by omega⟩ rfl rfl ⟨(nomatch ·), (nomatch ·)⟩ (nord (fun _ _ _ _ => (nomatch ·)) (fun _ => (nomatch ·)))⟩
    | rdSecond =>
      obtain ⟨h1, h2⟩ := hok
      obtain ⟨p1, p2⟩ := placeAt_rd (n := s.mem.size) h1
      refine ⟨ord ++ [(id, cl, placeAt s.mem.size cl)], I.local wf hj (.place rfl rfl rfl p2.symm) ?_ rfl rfl ⟨(nomatch ·), (nomatch ·)⟩
        (nord (fun _ _ _ _ => (nomatch ·)) (fun _ => (nomatch ·)))⟩
      refine ⟨by omega, fun _ => rfl, ?_⟩
      rw [p1]
      by_cases h : offOf cl + want cl ≤ s.mem.size
      · rw [if_pos h]
        exact .inl ⟨by simp, by omega⟩
      · rw [if_neg h]
        exact .inr ⟨by simp, by omega, h1⟩
    | enter off n => exact ⟨ord, I.entered wf hj⟩
    | copy base off k buf =>
      obtain ⟨h1, h2, h3, h4, h5, h6, h7⟩ := hok
      by_cases h : k = want cl
      · simp only [Mmap.go, if_pos h]
        refine ⟨ord, I.local wf hj (.same rfl rfl) ⟨some off, h1, ?_⟩ h.symm rfl ⟨(nomatch ·), (nomatch ·)⟩ ?_⟩
        · cases cl with
          | read o n => show buf.length = n; rw [(h7 trivial).1, h]; rfl
          | write o d => trivial
          | append d => rfl
          | expand n => rfl
        · intro o n b hc hb
          rcases hb with ⟨_, _, _, hb⟩ | hb
          · cases hb
          · subst hc
            injection hb with hb
            injection hb with hb
            subst hb
            exact .inl ⟨_, _, _, _, hj⟩
      · have hmp : s.mem.mapped base (off + k) = true := by
          have hlo := I.lo
          have hhi := I.hi
          simp only [Mem.mapped, h3, beq_self_eq_true, Bool.true_and, Bool.and_eq_true, decide_eq_true_eq]
          omega
        simp only [Mmap.go, if_neg h, copyByte, if_pos hmp]
        cases cl with
        | read o n => exact ⟨ord, I.readByte wf hj h⟩
        | write o d => exact ⟨ord, I.writeByte wf hj h (fun h => h)⟩
        | append d => exact ⟨ord, I.writeByte wf hj h (fun h => h)⟩
        | expand n => cases h5
    | leave out =>
      refine ⟨ord, I.left wf hj (.inl rfl) rfl (nomatch ·) hok (fun _ => rfl) ?_⟩
      rintro b rfl
      exact .inr (.inl ⟨cl, hj⟩)
    | refused =>
      obtain ⟨h1, h2⟩ := hok
      refine ⟨ord, I.left wf hj (.inr ⟨rfl, rfl⟩) rfl (nomatch ·) ⟨none, h2, ?_⟩ ?_ (fun b h => nomatch h)⟩
      · cases cl <;> first | trivial | cases h1
      · intro h
        cases cl <;> first | exact absurd rfl h | cases h1
    | fin =>
      refine ⟨ord, I.upd hj (.same rfl rfl) I.lo I.hi I.nf (Nat.le_refl _) trivial ?_ (fun x h _ => h) (.inl rfl) (fun o h => nomatch h) (fun _ _ => rfl)
        (fun _ => rfl) (I.bytes_same wf hj (.same (size := 0) (size' := 0) rfl rfl) (fun _ => rfl) fun _ _ => rfl) ?_⟩
      · intro x hx
        refine .inr ⟨?_, hx⟩
        intro e
        subst e
        obtain ⟨j, y1, y2⟩ := I.hold x hx
        rw [hj] at y1; cases y1; cases y2
      · intro off n b _ h
        rcases h with ⟨_, _, _, h⟩ | h | h
        · cases h
        · cases h
        · cases h

end

end Verif.Mmap
