import Verif.File.MmapStep
/-
C74: the memory-mapped file behaves like a file, with concurrent calls of `Read`, `Write`, `Append` and `Expand`, and with `Truncate`,
`TruncateFakely`, `Synchronize` and `Close` while no call is in progress.
-/
namespace Verif.Mmap
open Verif
open Verif.PageCache (Disk align)
open Verif.Positional (File truncateDisk)

/-! ### SPECIFICATION -/

/-- What a program does with the file: concurrent calls, and the operations that must not run beside others. -/
inductive Item where
  | calls (es : List Ev)
  | truncate (n : Nat)
  | truncateFakely (n : Nat)
  | synchronize
  /-- Closing the file and opening it again. -/
  | reopen

/-- What a program sees of it. -/
inductive Seen where
  | calls (h : List HEv)
  | truncated (n : Nat)
  | truncatedFakely (n : Nat) (ok : Bool)
  | synchronized
  | reopened

/-- SPECIFICATION: what can be seen, and the file before and after. -/
inductive Does : File → Seen → File → Prop
  | calls {f f' : File} {h : List HEv} (hp : Phase f h f') : Does f (.calls h) f'
  | truncated (f : File) (n : Nat) : Does f (.truncated n) (f.resized n)
  | fakely (f : File) (n : Nat) : Does f (.truncatedFakely n true) (f.resized n)
  | refused (f : File) (n : Nat) (h : f.size < n) : Does f (.truncatedFakely n false) f
  | synchronized (f : File) : Does f .synchronized f
  | reopened (f : File) : Does f .reopened f

inductive DoesAll : File → List Seen → File → Prop
  | nil (f : File) : DoesAll f [] f
  | cons {f f' f'' : File} {x : Seen} {xs : List Seen} (h : Does f x f') (h' : DoesAll f' xs f'') : DoesAll f (x :: xs) f''

/-! ### Running the model -/

def runItem (c : Cfg) (m : Mem) : Item → Mem × Seen
  | .calls es => ((run c m es).mem, .calls (run c m es).hist)
  | .truncate n => (truncate c m n, .truncated n)
  | .truncateFakely n => ((truncateFakely m n).1, .truncatedFakely n (truncateFakely m n).2)
  | .synchronize => (synchronize m, .synchronized)
  | .reopen => (open_ c (close m), .reopened)

def runItems (c : Cfg) : Mem → List Item → Mem × List Seen
  | m, [] => (m, [])
  | m, x :: xs => let r := runItem c m x; let r' := runItems c r.1 xs; (r'.1, r.2 :: r'.2)

/-- The calls have returned before anything else is done. -/
def Waits (c : Cfg) : Mem → List Item → Prop
  | _, [] => True
  | m, x :: xs => (∀ es, x = .calls es → (run c m es).quiet = true) ∧ Waits c (runItem c m x).1 xs

/-- SPECIFICATION: the memory is a file: its size, its bytes as far as they are specified, on the disk and in reach of the mapping. -/
structure Is (m : Mem) (f : File) : Prop where
  size : m.size = f.size
  lo : m.size ≤ m.map
  hi : m.map = m.disk.len
  fault : m.fault = false
  free : m.holders = []
  data : ∀ pos w, f.data pos = some w → pos < f.size ∧ m.disk.data pos = w

/-! ### Proofs -/

theorem Is.start {m : Mem} {f : File} (h : Is m f) : Inv f (start m) [] := by
  refine ⟨h.lo, h.hi, h.fault, ?_, ?_, ?_, by simp, ?_, ?_, ?_, ?_, ?_, ?_, ?_⟩
  · intro id j hj; simp [Mmap.start] at hj
  · intro id hj
    have : id ∈ m.holders := hj
    rw [h.free] at this; cases this
  · exact h.size
  · intro x hx; cases hx
  · intro id c; simp [Mmap.start]
  · intro id out hr; cases hr
  · intro id j hj; simp [Mmap.start] at hj
  · intro o1 x o2 he
    have := congrArg List.length he
    simp at this
  · intro pos
    refine .inr ⟨fun w hw => (h.data pos w hw).2, ?_⟩
    rintro id' v' ⟨c, off, j, hm, _⟩
    cases hm
  · rintro id off n b ⟨pc, hj⟩
    simp [Mmap.start] at hj

theorem Inv.steps {f : File} (wf : ∀ pos w, f.data pos = some w → pos < f.size) (c : Cfg) (es : List Ev) : ∀ {s : Sys} {ord : Ord}, Inv f s ord →
    ∃ ord', Inv f (es.foldl (step c) s) ord' := by
  induction es with
  | nil => intro s ord I; exact ⟨ord, I⟩
  | cons e es ih =>
    intro s ord I
    cases e with
    | call cl => exact ih (I.call c cl)
    | go id weak =>
      obtain ⟨ord', I'⟩ := I.go wf c id weak
      exact ih I'

theorem Is.run {m : Mem} {f : File} (h : Is m f) (c : Cfg) (es : List Ev) : ∃ ord, Inv f (run c m es) ord :=
  Inv.steps (fun pos w hw => (h.data pos w hw).1) c es h.start

theorem quiet_fin {s : Sys} (h : s.quiet = true) {id : Nat} {j : Job} (hj : s.jobs[id]? = some j) : j.pc = .fin := by
  have := List.all_eq_true.1 h j (List.mem_of_getElem? hj)
  simpa using this

open Classical in
/-- The file after concurrent calls. -/
noncomputable def after (f : File) (s : Sys) (ord : Ord) : File :=
  ⟨s.mem.size, fun pos => if pos < s.mem.size ∧ ¬ (f.data pos = none ∧ ∀ id v, ¬ Puts ord id pos v) then some (s.mem.disk.data pos) else none⟩

theorem Inv.phase {f : File} {s : Sys} {ord : Ord} (I : Inv f s ord) (hq : s.quiet = true) : Phase f s.hist (after f s ord) := by
  have hput : ∀ {id pos : Nat} {v : UInt8}, Puts ord id pos v → Written s.jobs ord id pos v := by
    intro id pos v h
    obtain ⟨x, hx, e⟩ := puts_call h
    obtain ⟨j, h1, _⟩ := I.ordJob x hx
    rw [e] at h1
    obtain ⟨out, ho⟩ := I.fin id j h1 (quiet_fin hq h1)
    exact I.written_of_ret h ho
  refine ⟨ord, ⟨I.once, ?_, ?_, I.order⟩, ?_, I.sizes, ?_, ?_, ?_⟩
  · intro x hx
    obtain ⟨j, h1, h2, _⟩ := I.ordJob x hx
    exact (I.inv x.1 x.2.1).2 ⟨j, h1, h2⟩
  · intro id out h
    obtain ⟨j, p, _, _, h3, h4⟩ := I.ret id out h
    exact ⟨j.call, p, h3, h4⟩
  · intro id c h
    obtain ⟨j, h1, _⟩ := (I.inv id c).1 h
    exact I.fin id j h1 (quiet_fin hq h1)
  · intro id off n b h1 h2 i v hv
    obtain ⟨j, h3, h4⟩ := (I.inv id _).1 h1
    obtain ⟨jc, jp⟩ := j
    have h4 : jc = .read off n := h4
    subst h4
    exact I.reads id off n b ⟨jp, h3⟩ (.inr (.inr h2)) i v hv
  · intro pos v h
    simp only [after] at h
    split at h
    · injection h with h
      subst h
      refine ⟨by rename_i hx; exact hx.1, ?_⟩
      rcases I.bytes pos with ⟨w, h5, h6⟩ | ⟨h5, h6⟩
      · exact .inl ⟨w, written_puts h5, fun id' v' hp => h6 id' v' (hput hp)⟩
      · exact .inr ⟨h5, fun id' v' hp => h6 id' v' (hput hp)⟩
    · cases h
  · intro pos hlt h
    have hlt : pos < s.mem.size := hlt
    simp only [after] at h
    split at h
    · cases h
    · rename_i hx
      exact Classical.byContradiction fun hy => hx ⟨hlt, hy⟩

theorem Inv.is {f : File} {s : Sys} {ord : Ord} (I : Inv f s ord) (hq : s.quiet = true) : Is s.mem (after f s ord) := by
  refine ⟨rfl, I.lo, I.hi, I.nf, ?_, ?_⟩
  · cases hh : s.mem.holders with
    | nil => rfl
    | cons x xs =>
      obtain ⟨j, h1, h2⟩ := I.hold x (by rw [hh]; exact List.mem_cons_self)
      rw [quiet_fin hq h1] at h2
      cases h2
  · intro pos w h
    simp only [after] at h
    split at h
    · rename_i hx
      injection h with h
      exact ⟨hx.1, h⟩
    · cases h

theorem Is.truncate {m : Mem} {f : File} (h : Is m f) (c : Cfg) (n : Nat) : Is (truncate c m n) (f.resized n) := by
  have h1 : max (max n c.page) c.init ≤ align (max (max n c.page) c.init) c.page := Positional.align_le
  have h2 : n ≤ align (max (max n c.page) c.init) c.page := by omega
  refine ⟨rfl, h2, rfl, h.fault, h.free, ?_⟩
  intro pos w hw
  simp only [File.resized] at hw
  split at hw
  · rename_i hp
    obtain ⟨h3, h4⟩ := h.data pos w hw
    refine ⟨hp, ?_⟩
    show (if pos < m.disk.len ∧ pos < align (max (max n c.page) c.init) c.page then m.disk.data pos else 0) = w
    have := h.lo
    have := h.hi
    have := h.size
    rw [if_pos ⟨by omega, by omega⟩]
    exact h4
  · cases hw

theorem Is.truncateFakely {m : Mem} {f : File} (h : Is m f) (n : Nat) :
    ∃ f', Does f (.truncatedFakely n (truncateFakely m n).2) f' ∧ Is (truncateFakely m n).1 f' := by
  unfold Mmap.truncateFakely
  split
  · refine ⟨f, .refused f n ?_, h⟩
    have := h.lo
    have := h.size
    omega
  · refine ⟨f.resized n, .fakely f n, ⟨rfl, by show n ≤ m.map; omega, h.hi, h.fault, h.free, ?_⟩⟩
    intro pos w hw
    simp only [File.resized] at hw
    split at hw
    · rename_i hp
      exact ⟨hp, (h.data pos w hw).2⟩
    · cases hw

theorem truncateDisk_data {d : Disk} {n pos : Nat} (h : pos < d.len) (h' : pos < n) : (truncateDisk d n).data pos = d.data pos := if_pos ⟨h, h'⟩

theorem Is.synchronize {m : Mem} {f : File} (h : Is m f) : Is (synchronize m) f := by
  have hd : ∀ pos w, f.data pos = some w → pos < f.size ∧ (truncateDisk m.disk m.size).data pos = w := by
    intro pos w hw
    obtain ⟨h3, h4⟩ := h.data pos w hw
    have h1 := h.lo
    have h2 := h.hi
    have h5 := h.size
    refine ⟨h3, ?_⟩
    rw [truncateDisk_data (by omega) (by omega)]
    exact h4
  unfold Mmap.synchronize
  by_cases e : m.size ≠ m.map
  · simp only [if_pos e]
    exact ⟨h.size, Nat.le_refl _, rfl, h.fault, h.free, hd⟩
  · simp only [if_neg e]
    exact ⟨h.size, h.lo, by show m.map = m.size; omega, h.fault, h.free, hd⟩

/-- The file of a disk. -/
theorem Is.open_ (c : Cfg) {d : Disk} {f : File} (hs : d.len = f.size) (hd : ∀ pos w, f.data pos = some w → pos < f.size ∧ d.data pos = w) : Is (open_ c d) f := by
  have h1 : max 1 (max d.len c.init) ≤ align (max 1 (max d.len c.init)) c.page := Positional.align_le
  have h2 : d.len ≤ align (max 1 (max d.len c.init)) c.page := by omega
  refine ⟨hs, h2, rfl, rfl, rfl, ?_⟩
  intro pos w hw
  obtain ⟨h3, h4⟩ := hd pos w hw
  refine ⟨h3, ?_⟩
  show (truncateDisk d (align (max 1 (max d.len c.init)) c.page)).data pos = w
  rw [truncateDisk_data (by omega) (by omega)]
  exact h4

theorem Is.close {m : Mem} {f : File} (h : Is m f) : (close m).len = f.size ∧ ∀ pos w, f.data pos = some w → pos < f.size ∧ (close m).data pos = w := by
  refine ⟨h.size, ?_⟩
  intro pos w hw
  obtain ⟨h3, h4⟩ := h.data pos w hw
  have h1 := h.lo
  have h2 := h.hi
  have h5 := h.size
  refine ⟨h3, ?_⟩
  show (truncateDisk m.disk m.size).data pos = w
  rw [truncateDisk_data (by omega) (by omega)]
  exact h4

theorem Is.items (c : Cfg) (xs : List Item) : ∀ {m : Mem} {f : File}, Is m f → Waits c m xs → ∃ f', DoesAll f (runItems c m xs).2 f' ∧ Is (runItems c m xs).1 f' := by
  induction xs with
  | nil => intro m f h _; exact ⟨f, .nil f, h⟩
  | cons x xs ih =>
    intro m f h hw
    have h1 : ∃ f', Does f (runItem c m x).2 f' ∧ Is (runItem c m x).1 f' := by
      cases x with
      | calls es =>
        obtain ⟨ord, I⟩ := h.run c es
        have hq := hw.1 es rfl
        exact ⟨_, .calls (I.phase hq), I.is hq⟩
      | truncate n => exact ⟨_, .truncated f n, h.truncate c n⟩
      | truncateFakely n => exact h.truncateFakely n
      | synchronize => exact ⟨_, .synchronized f, h.synchronize⟩
      | reopen => exact ⟨_, .reopened f, Is.open_ c h.close.1 h.close.2⟩
    obtain ⟨f', h2, h3⟩ := h1
    obtain ⟨f'', h4, h5⟩ := ih h3 hw.2
    exact ⟨f'', .cons h2 h4, h5⟩

/-- The file of a disk. -/
theorem is_ofDisk (c : Cfg) (d : Disk) : Is (open_ c d) (File.ofDisk d) := by
  refine Is.open_ c rfl ?_
  intro pos w hw
  simp only [File.ofDisk] at hw
  split at hw
  · injection hw with hw
    exact ⟨by assumption, hw⟩
  · cases hw

/-! ### C74 -/

/-- C74: a memory-mapped file, opened on any file and used by any program, with any number of calls of `Read`, `Write`, `Append` and `Expand` at the same time in any
interleaving, is a file: there is an order of the calls, which respects real time, that explains all sizes, offsets and refusals; every byte read or left is one that was
stored there last; and closing it leaves just the file of that size with those bytes on the disk. -/
theorem C74_mmap_is_a_file (c : Cfg) (d : Disk) (xs : List Item) (hw : Waits c (open_ c d) xs) :
    ∃ f, DoesAll (File.ofDisk d) (runItems c (open_ c d) xs).2 f ∧
      (close (runItems c (open_ c d) xs).1).len = f.size ∧ ∀ pos w, f.data pos = some w → (close (runItems c (open_ c d) xs).1).data pos = w := by
  obtain ⟨f, h1, h2⟩ := Is.items c xs (is_ofDisk c d) hw
  exact ⟨f, h1, h2.close.1, fun pos w h => (h2.close.2 pos w h).2⟩

/-- C74: at no moment of concurrent calls is memory touched outside the mapping, through a mapping that has been moved, or beyond the end of the file on the disk. -/
theorem C74_mmap_memory_safe (c : Cfg) (d : Disk) (xs : List Item) (hw : Waits c (open_ c d) xs) (es : List Ev) :
    (run c (runItems c (open_ c d) xs).1 es).mem.fault = false := by
  obtain ⟨f, h1, h2⟩ := Is.items c xs (is_ofDisk c d) hw
  obtain ⟨ord, I⟩ := h2.run c es
  exact I.nf

/-- C74: the regions that calls of `Append` and `Expand` get, at any moment, never overlap, and lie between the size of the file before all calls and its present size. -/
theorem C74_mmap_appends_disjoint (c : Cfg) (d : Disk) (xs : List Item) (hw : Waits c (open_ c d) xs) (es : List Ev) {i j oi oj : Nat} {ci cj : Call} (hij : i ≠ j)
    (ai : isApp ci) (aj : isApp cj) (hi : HEv.inv i ci ∈ (run c (runItems c (open_ c d) xs).1 es).hist) (ri : HEv.ret i (.at_ oi) ∈ (run c (runItems c (open_ c d) xs).1 es).hist)
    (hj : HEv.inv j cj ∈ (run c (runItems c (open_ c d) xs).1 es).hist) (rj : HEv.ret j (.at_ oj) ∈ (run c (runItems c (open_ c d) xs).1 es).hist) :
    (runItems c (open_ c d) xs).1.size ≤ oi ∧ (runItems c (open_ c d) xs).1.size ≤ oj ∧ oi + want ci ≤ (run c (runItems c (open_ c d) xs).1 es).mem.size ∧
      oj + want cj ≤ (run c (runItems c (open_ c d) xs).1 es).mem.size ∧ (oi + want ci ≤ oj ∨ oj + want cj ≤ oi) := by
  obtain ⟨f, h1, h2⟩ := Is.items c xs (is_ofDisk c d) hw
  obtain ⟨ord, I⟩ := h2.run c es
  rw [h2.size]
  have hs := I.sizes
  have key : ∀ {id : Nat} {cc : Call} {o : Nat}, HEv.inv id cc ∈ (run c (runItems c (open_ c d) xs).1 es).hist → isApp cc →
      HEv.ret id (.at_ o) ∈ (run c (runItems c (open_ c d) xs).1 es).hist → (id, cc, some o) ∈ ord := by
    intro id cc o h1 h2 h3
    obtain ⟨j, p, h4, _, h6, h5⟩ := I.ret id _ h3
    obtain ⟨j', h7, h8⟩ := (I.inv id cc).1 h1
    rw [h7] at h4
    cases h4
    rw [h8] at h5 h6
    cases cc with
    | read => cases h2
    | write => cases h2
    | append dd => cases p with
      | none => cases h5
      | some o' => have h5 : o = o' := h5; rw [h5]; exact h6
    | expand n => cases p with
      | none => cases h5
      | some o' => have h5 : o = o' := h5; rw [h5]; exact h6
  have mi := key hi ai ri
  have mj := key hj aj rj
  clear I h2 h1 hi hj ri rj key
  generalize (run c (runItems c (open_ c d) xs).1 es).mem.size = s' at hs ⊢
  have single : ∀ (o : Ord) (s s' id off : Nat) (cc : Call), Sizes s o s' → isApp cc → (id, cc, some off) ∈ o → s ≤ off ∧ off + want cc ≤ s' := by
    intro o
    induction o with
    | nil => intro s s' id off cc _ _ h; cases h
    | cons x o ih =>
      intro s s' id off cc hs ha hm
      obtain ⟨x1, x2, x3⟩ := x
      rcases List.mem_cons.1 hm with e | hm
      · cases e
        obtain ⟨p1, p2, _⟩ := placeAt_app (n := s) ha
        have e := hs.1
        rw [p1] at e
        cases e
        have := sizes_le hs.2
        rw [p2] at this
        exact ⟨Nat.le_refl _, this⟩
      · have := ih _ _ _ _ _ hs.2 ha hm
        have := sizeAfter_le s x2
        omega
  refine ⟨(single _ _ _ _ _ _ hs ai mi).1, (single _ _ _ _ _ _ hs aj mj).1, (single _ _ _ _ _ _ hs ai mi).2, (single _ _ _ _ _ _ hs aj mj).2, ?_⟩
  generalize f.size = s at hs
  induction ord generalizing s with
  | nil => cases mi
  | cons x o ih =>
    obtain ⟨x1, x2, x3⟩ := x
    rcases List.mem_cons.1 mi with e | mi'
    · rcases List.mem_cons.1 mj with e' | mj'
      · rw [← e] at e'
        injection e' with e' _
        exact absurd e'.symm hij
      · cases e
        obtain ⟨p1, p2, _⟩ := placeAt_app (n := s) ai
        have e := hs.1
        rw [p1] at e
        cases e
        have h3 := hs.2
        rw [p2] at h3
        exact .inl (single _ _ _ _ _ _ h3 aj mj').1
    · rcases List.mem_cons.1 mj with e' | mj'
      · cases e'
        obtain ⟨p1, p2, _⟩ := placeAt_app (n := s) aj
        have e := hs.1
        rw [p1] at e
        cases e
        have h3 := hs.2
        rw [p2] at h3
        exact .inr (single _ _ _ _ _ _ h3 ai mi').1
      · exact ih mi' mj' _ hs.2

/-- C74: when the process dies while no call is in progress, the disk has the whole file, possibly followed by other bytes. -/
theorem C74_mmap_death (c : Cfg) (d : Disk) (xs : List Item) (hw : Waits c (open_ c d) xs) :
    ∃ f, DoesAll (File.ofDisk d) (runItems c (open_ c d) xs).2 f ∧ f.size ≤ (runItems c (open_ c d) xs).1.disk.len ∧
      ∀ pos w, f.data pos = some w → (runItems c (open_ c d) xs).1.disk.data pos = w := by
  obtain ⟨f, h1, h2⟩ := Is.items c xs (is_ofDisk c d) hw
  refine ⟨f, h1, ?_, fun pos w h => (h2.data pos w h).2⟩
  rw [← h2.hi, ← h2.size]
  exact h2.lo

/-- C74, in part: `Truncate` to a larger size fills with zeros when the file has just been opened or synchronized. Missing: any other moment, where it does not hold
(`C74_mmap_truncate_violated`). -/
theorem C74_mmap_truncate_zero_partial (c : Cfg) (m : Mem) (n pos : Nat) (h : (∃ d, m = open_ c d) ∨ ∃ m0, m = synchronize m0) (hp : m.size ≤ pos) :
    (truncate c m n).disk.data pos = 0 := by
  show (if pos < m.disk.len ∧ _ then m.disk.data pos else 0) = 0
  split
  · rename_i hx
    rcases h with ⟨d, e⟩ | ⟨m0, e⟩
    · subst e
      show (if pos < d.len ∧ _ then d.data pos else 0) = 0
      rw [if_neg]
      intro hy
      have : d.len ≤ pos := hp
      omega
    · subst e
      have h1 := hx.1
      have : (synchronize m0).disk.len = (synchronize m0).size := by unfold Mmap.synchronize; split <;> rfl
      omega
  · rfl

end Verif.Mmap
