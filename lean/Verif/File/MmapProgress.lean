import Verif.File.MmapProps
/-
C74: calls on a memory-mapped file never block each other for good, examples, and what goes wrong when the conditions are not met.
-/
namespace Verif.Mmap
open Verif
open Verif.PageCache (Disk align)
open Verif.Positional (File truncateDisk)

/-! ### Every call can be finished -/

/-- The number of steps that a call takes at most when it runs alone. -/
def rank (size : Nat) (cl : Call) : Pc → Nat
  | .fin => 0
  | .leave _ | .refused => 1
  | .copy _ _ k _ => 2 + (want cl - k)
  | .enter _ _ => 3 + want cl
  | .wrCas old => if old = size then 4 + want cl else 6 + want cl
  | .wrLoad => 5 + want cl
  | .wrGrow => 7 + want cl
  | .wrAlloc => 8 + want cl
  | .rdSecond => 4 + want cl
  | .rdFirst => 5 + want cl
  | .appCas old => if old = size then 4 + want cl else 8 + want cl
  | .appGrow old => if old = size then 5 + want cl else 9 + want cl
  | .appAlloc old => if old = size then 6 + want cl else 10 + want cl
  | .appLoad => 7 + want cl

theorem go_rank {f : File} {s : Sys} {ord : Ord} (I : Inv f s ord) (c : Cfg) {id : Nat} {cl : Call} {pc : Pc} (hj : s.jobs[id]? = some ⟨cl, pc⟩) (hne : pc ≠ .fin)
    (hh : holding pc = true ∨ s.mem.holders = []) :
    rank (go c s.mem id cl false pc).1.size cl (go c s.mem id cl false pc).2.1 < rank s.mem.size cl pc ∧
      (holding (go c s.mem id cl false pc).2.1 = true ∨ (go c s.mem id cl false pc).2.1 = .fin ∨ (go c s.mem id cl false pc).1.holders = []) := by
  have hok : JobOk s.mem ord id cl pc := I.jobs id _ hj
  cases pc with
  | appLoad =>
    refine ⟨?_, hh.elim (fun h => nomatch h) fun h => .inr (.inr h)⟩
    simp only [go, rank, if_pos]; omega
  | appAlloc old =>
    have hh : s.mem.holders = [] := hh.elim (fun h => nomatch h) fun h => h
    simp only [go]
    split
    · refine ⟨?_, .inr (.inr hh)⟩
      simp only [rank]; split <;> omega
    · refine ⟨?_, .inr (.inr hh)⟩
      simp only [rank]; split <;> omega
  | appGrow old =>
    have hh : s.mem.holders = [] := hh.elim (fun h => nomatch h) fun h => h
    obtain ⟨g1, g2, _⟩ := grow_facts c s.mem (old + want cl) I.hi
    simp only [go, if_pos hh]
    refine ⟨?_, .inr (.inr (by rw [g2]; exact hh))⟩
    rw [g1]
    simp only [rank]; split <;> omega
  | appCas old =>
    have hh : s.mem.holders = [] := hh.elim (fun h => nomatch h) fun h => h
    simp only [go]
    by_cases e : s.mem.size = old
    · rw [if_pos ⟨trivial, e⟩]
      refine ⟨?_, .inr (.inr hh)⟩
      simp only [rank, if_pos e.symm]; omega
    · rw [if_neg (fun h => e h.2)]
      refine ⟨?_, .inr (.inr hh)⟩
      simp only [rank, if_neg (Ne.symm e)]; omega
  | wrAlloc =>
    have hh : s.mem.holders = [] := hh.elim (fun h => nomatch h) fun h => h
    simp only [go]
    split
    · exact ⟨by simp only [rank]; omega, .inr (.inr hh)⟩
    · exact ⟨by simp only [rank]; omega, .inr (.inr hh)⟩
  | wrGrow =>
    have hh : s.mem.holders = [] := hh.elim (fun h => nomatch h) fun h => h
    obtain ⟨g1, g2, _⟩ := grow_facts c s.mem (wrEnd cl) I.hi
    simp only [go, if_pos hh]
    exact ⟨by simp only [rank]; omega, .inr (.inr (by rw [g2]; exact hh))⟩
  | wrLoad =>
    have hh : s.mem.holders = [] := hh.elim (fun h => nomatch h) fun h => h
    simp only [go]
    split
    · exact ⟨by simp only [rank]; omega, .inr (.inr hh)⟩
    · exact ⟨by simp only [rank, if_pos]; omega, .inr (.inr hh)⟩
  | wrCas old =>
    have hh : s.mem.holders = [] := hh.elim (fun h => nomatch h) fun h => h
    simp only [go]
    by_cases e : s.mem.size = old
    · rw [if_pos ⟨trivial, e⟩]
      refine ⟨?_, .inr (.inr hh)⟩
      simp only [rank, if_pos e.symm]; omega
    · rw [if_neg (fun h => e h.2)]
      refine ⟨?_, .inr (.inr hh)⟩
      simp only [rank, if_neg (Ne.symm e)]; omega
  | rdFirst =>
    have hh : s.mem.holders = [] := hh.elim (fun h => nomatch h) fun h => h
    simp only [go]
    split
    · exact ⟨by simp only [rank]; omega, .inr (.inr hh)⟩
    · exact ⟨by simp only [rank]; omega, .inr (.inr hh)⟩
  | rdSecond =>
    have hh : s.mem.holders = [] := hh.elim (fun h => nomatch h) fun h => h
    exact ⟨by simp only [go, rank]; omega, .inr (.inr hh)⟩
  | enter off n =>
    simp only [go]
    cases cl with
    | read o w =>
      simp only [within]
      split
      · exact ⟨by simp only [rank]; omega, .inl rfl⟩
      · exact ⟨by simp only [rank]; omega, .inl rfl⟩
    | write o d => exact ⟨by simp only [within, rank]; omega, .inl rfl⟩
    | append d => exact ⟨by simp only [within, rank]; omega, .inl rfl⟩
    | expand w => exact ⟨by simp only [within, rank]; omega, .inl rfl⟩
  | copy base off k buf =>
    obtain ⟨h1, h2, h3, h4, h5, h6, h7⟩ := hok
    simp only [go]
    by_cases h : k = want cl
    · rw [if_pos h]
      exact ⟨by simp only [rank]; omega, .inl rfl⟩
    · have hmp : s.mem.mapped base (off + k) = true := by
        have hlo := I.lo
        have hhi := I.hi
        simp only [Mem.mapped, h3, beq_self_eq_true, Bool.true_and, Bool.and_eq_true, decide_eq_true_eq]
        omega
      rw [if_neg h]
      simp only [copyByte, if_pos hmp]
      have hr : 2 + (want cl - (k + 1)) < 2 + (want cl - k) := by omega
      cases cl with
      | read o w => exact ⟨hr, .inl rfl⟩
      | write o d => exact ⟨hr, .inl rfl⟩
      | append d => exact ⟨hr, .inl rfl⟩
      | expand w => cases h5
  | leave out => exact ⟨by simp only [go, rank]; omega, .inr (.inl rfl)⟩
  | refused => exact ⟨by simp only [go, rank]; omega, .inr (.inl rfl)⟩
  | fin => exact absurd rfl hne

/-- The number of calls in progress. -/
def pending (jobs : List Job) : Nat := (jobs.filter fun j => j.pc ≠ .fin).length

theorem pending_set {jobs : List Job} {id : Nat} {j : Job} (hj : jobs[id]? = some j) (hne : j.pc ≠ .fin) (x : Job) :
    pending (jobs.set id x) + 1 = pending jobs + (if x.pc = .fin then 0 else 1) := by
  induction jobs generalizing id with
  | nil => simp at hj
  | cons y ys ih =>
    cases id with
    | zero =>
      simp only [List.getElem?_cons_zero] at hj
      cases hj
      simp only [List.set_cons_zero, pending, List.filter_cons]
      by_cases e : x.pc = .fin
      · simp [e, hne]
      · simp [e, hne]
    | succ n =>
      simp only [List.getElem?_cons_succ] at hj
      have h := ih hj
      simp only [List.set_cons_succ, pending, List.filter_cons] at h ⊢
      split
      · simp only [List.length_cons]; omega
      · exact h

theorem finish_one {f : File} (wf : ∀ pos w, f.data pos = some w → pos < f.size) (c : Cfg) (id : Nat) (cl : Call) : ∀ (n : Nat) {s : Sys} {ord : Ord} {pc : Pc}, Inv f s ord →
    s.jobs[id]? = some ⟨cl, pc⟩ → pc ≠ .fin → (holding pc = true ∨ s.mem.holders = []) → rank s.mem.size cl pc ≤ n →
      ∃ es : List Ev, pending (es.foldl (step c) s).jobs < pending s.jobs := by
  intro n
  induction n with
  | zero =>
    intro s ord pc I hj hne hh hr
    have := (go_rank I c hj hne hh).1
    omega
  | succ n ih =>
    intro s ord pc I hj hne hh hr
    obtain ⟨h1, h2⟩ := go_rank I c hj hne hh
    have hs : step c s (.go id false) = upd s id cl (go c s.mem id cl false pc).1 (go c s.mem id cl false pc).2.1 (go c s.mem id cl false pc).2.2 := by
      simp only [step, hj, upd]
    have hp := pending_set hj hne ⟨cl, (go c s.mem id cl false pc).2.1⟩
    by_cases e : (go c s.mem id cl false pc).2.1 = .fin
    · refine ⟨[.go id false], ?_⟩
      show pending (step c s (.go id false)).jobs < _
      rw [hs]
      show pending (s.jobs.set id ⟨cl, (go c s.mem id cl false pc).2.1⟩) < _
      rw [if_pos e] at hp
      omega
    · obtain ⟨ord', I'⟩ := I.go wf c id false
      have hj' : (step c s (.go id false)).jobs[id]? = some ⟨cl, (go c s.mem id cl false pc).2.1⟩ := by
        rw [hs]
        exact jobs_self hj _
      have hm : (step c s (.go id false)).mem = (go c s.mem id cl false pc).1 := by rw [hs]; rfl
      have hh' : holding (go c s.mem id cl false pc).2.1 = true ∨ (step c s (.go id false)).mem.holders = [] := by
        rw [hm]
        rcases h2 with h | h | h
        · exact .inl h
        · exact absurd h e
        · exact .inr h
      obtain ⟨es, hes⟩ := ih I' hj' e hh' (by rw [hm]; omega)
      refine ⟨.go id false :: es, ?_⟩
      have : pending (step c s (.go id false)).jobs = pending s.jobs := by
        rw [hs]
        show pending (s.jobs.set id ⟨cl, (go c s.mem id cl false pc).2.1⟩) = _
        rw [if_neg e] at hp
        omega
      show pending (es.foldl (step c) (step c s (.go id false))).jobs < _
      omega

theorem finish_all {f : File} (wf : ∀ pos w, f.data pos = some w → pos < f.size) (c : Cfg) : ∀ (n : Nat) {s : Sys} {ord : Ord}, Inv f s ord → pending s.jobs ≤ n →
    ∃ es : List Ev, (es.foldl (step c) s).quiet = true := by
  intro n
  induction n with
  | zero =>
    intro s ord I hn
    refine ⟨[], ?_⟩
    show s.quiet = true
    have h0 : s.jobs.filter (fun j => j.pc ≠ .fin) = [] := List.length_eq_zero_iff.1 (Nat.le_zero.1 hn)
    refine List.all_eq_true.2 fun j hj => ?_
    have := List.filter_eq_nil_iff.1 h0 j hj
    simpa using this
  | succ n ih =>
    intro s ord I hn
    by_cases hz : pending s.jobs ≤ n
    · exact ih I hz
    · have hex : ∃ (id : Nat) (cl : Call) (pc : Pc), s.jobs[id]? = some ⟨cl, pc⟩ ∧ pc ≠ .fin ∧ (holding pc = true ∨ s.mem.holders = []) := by
        cases hh : s.mem.holders with
        | cons x l =>
          obtain ⟨j, h1, h2⟩ := I.hold x (by rw [hh]; exact List.mem_cons_self)
          obtain ⟨cl, pc⟩ := j
          refine ⟨x, cl, pc, h1, ?_, .inl h2⟩
          intro e
          rw [show (⟨cl, pc⟩ : Job).pc = pc from rfl, e] at h2
          cases h2
        | nil =>
          have hne : s.jobs.filter (fun j => j.pc ≠ .fin) ≠ [] := by
            intro e
            have : pending s.jobs = 0 := by unfold pending; rw [e]; rfl
            omega
          obtain ⟨j, hj⟩ := List.exists_mem_of_ne_nil _ hne
          obtain ⟨h1, h2⟩ := List.mem_filter.1 hj
          obtain ⟨id, hid⟩ := List.getElem?_of_mem h1
          obtain ⟨cl, pc⟩ := j
          exact ⟨id, cl, pc, hid, by simpa using h2, .inr rfl⟩
      obtain ⟨id, cl, pc, h1, h2, h3⟩ := hex
      obtain ⟨es, hes⟩ := finish_one wf c id cl _ I h1 h2 h3 (Nat.le_refl _)
      obtain ⟨ord', I'⟩ := Inv.steps wf c es I
      obtain ⟨es', hes'⟩ := ih I' (by omega)
      exact ⟨es ++ es', by rw [List.foldl_append]; exact hes'⟩

/-- C74: calls never block each other for good: at any moment all of them can be brought to their end. -/
theorem C74_mmap_no_deadlock (c : Cfg) (d : Disk) (xs : List Item) (hw : Waits c (open_ c d) xs) (es : List Ev) :
    ∃ es', (run c (runItems c (open_ c d) xs).1 (es ++ es')).quiet = true := by
  obtain ⟨f, h1, h2⟩ := Is.items c xs (is_ofDisk c d) hw
  obtain ⟨ord, I⟩ := h2.run c es
  obtain ⟨es', h⟩ := finish_all (fun pos w hw => (h2.data pos w hw).1) c _ I (Nat.le_refl _)
  refine ⟨es', ?_⟩
  unfold run
  rw [List.foldl_append]
  exact h

/-! ### Examples -/

/-- Small pages, so that the map has to grow. -/
def small : Cfg := ⟨4, 0, fun n => n + n / 2⟩

def someDisk : Disk := ⟨3, fun pos => UInt8.ofNat (65 + pos)⟩

def goes (ids : List Nat) : List Ev := ids.map fun i => .go i false

/-- Two appends that race for the end of the file, a read that meets the first of them, and a write in the middle; one exchange fails without a reason. -/
def race : List Ev :=
  [.call (.append [1, 2, 3]), .call (.append [4, 5]), .call (.write 1 [9, 9])] ++ goes [0, 1, 0, 1, 0, 1, 2, 0] ++ [.go 0 true] ++ goes [1, 0, 0, 0, 0, 0, 0, 1, 1, 1, 1, 1, 1, 1, 0] ++
    [.call (.read 1 5)] ++ goes [3, 3, 3, 3, 0, 3, 2, 2, 2, 2, 3, 3, 0, 3, 2, 0, 3, 3, 3, 2, 0, 2, 1, 1, 1, 0, 0, 1, 1, 1, 1, 1, 2, 2, 2, 3, 3, 1, 1, 1]

/-- The program of the example: the race, then other operations, and a read that is refused. -/
def program : List Item :=
  [.calls race, .synchronize, .truncateFakely 6, .calls ([.call (.expand 5)] ++ goes (List.replicate 9 0)), .truncate 4, .reopen, .truncateFakely 1000,
    .calls ([.call (.read 2 3), .call (.read 0 4)] ++ goes (List.replicate 9 0 ++ List.replicate 12 1))]

/-- The program meets the conditions of the theorems; the calls overlap, the map grows, and the last phase sees what the first one stored. -/
example : Waits small (open_ small someDisk) program ∧
    (run small (open_ small someDisk) race).hist = [.inv 0 (.append [1, 2, 3]), .inv 1 (.append [4, 5]), .inv 2 (.write 1 [9, 9]), .ret 0 (.at_ 3), .inv 3 (.read 1 5),
      .ret 3 (.got [66, 67, 1, 2, 3]), .ret 2 .done, .ret 1 (.at_ 6)] ∧
    (runItems small (open_ small someDisk) program).1.size = 4 ∧
    PageCache.bytes (close (runItems small (open_ small someDisk) program).1).data 0 4 = [65, 9, 9, 1] := by
  refine ⟨⟨?_, ?_, ?_, ?_, ?_, ?_, ?_, ?_, trivial⟩, by decide +kernel, by decide +kernel, by decide +kernel⟩
  all_goals (intro es h; first | cases h | skip)
  all_goals decide +kernel

/-- C74: the condition that no call is in progress is needed for `Synchronize`: when it comes between `AllocateSpace` and the exchange of an `Append`, the append
touches memory outside the mapping. -/
theorem C74_mmap_synchronize_needs_quiet : ∃ (c : Cfg) (d : Disk) (es es' : List Ev),
    let s := run c (open_ c d) es
    (es'.foldl (step c) { s with mem := synchronize s.mem }).mem.fault = true :=
  ⟨small, someDisk, [.call (.append [1, 2, 3])] ++ goes [0, 0, 0], goes [0, 0, 0], by decide +kernel⟩

/-- C74: `Truncate` to a smaller size does not always discard the data after the new end, and to a larger size does not always fill with zeros
(`File::Truncate`, tkrzw_file.h 158-165): a file is cut to nothing and extended again, and a read gives the old bytes. -/
theorem C74_mmap_truncate_violated : ∃ (c : Cfg) (d : Disk) (es : List Ev),
    (runItems c (open_ c d) [.truncate 0, .truncate 3]).1.size = 3 ∧
      (run c (runItems c (open_ c d) [.truncate 0, .truncate 3]).1 es).hist = [.inv 0 (.read 0 3), .ret 0 (.got [65, 66, 67])] :=
  ⟨small, someDisk, [.call (.read 0 3)] ++ goes (List.replicate 9 0), by decide +kernel⟩

/-- The conditions of `C74_mmap_truncate_zero_partial` can be met. -/
example : PageCache.bytes (truncate small (synchronize (open_ small someDisk)) 6).disk.data 0 6 = [65, 66, 67, 0, 0, 0] := by decide +kernel

end Verif.Mmap
