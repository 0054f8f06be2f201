import Verif.File.Mmap
/-
C74: what holds at every moment while calls on a memory-mapped file are in progress.
-/
namespace Verif.Mmap
open Verif
open Verif.PageCache (Disk align)
open Verif.Positional (File truncateDisk)

abbrev Ord := List (Nat × Call × Option Nat)

/-- SPECIFICATION: the calls that put something at the end of the file. -/
def isApp : Call → Prop
  | .append _ | .expand _ => True
  | _ => False

def isWr : Call → Prop
  | .write _ _ => True
  | _ => False

def isRd : Call → Prop
  | .read _ _ => True
  | _ => False

def copies : Call → Prop
  | .expand _ => False
  | _ => True

/-- The call has got its offset. -/
def placed : Pc → Bool
  | .enter _ _ | .copy _ _ _ _ | .leave _ | .refused | .fin => true
  | _ => false

/-- The call shares the lock. -/
def holding : Pc → Bool
  | .copy _ _ _ _ | .leave _ => true
  | _ => false

/-- The number of bytes that a call has copied. -/
def progress (c : Call) : Pc → Nat
  | .copy _ _ k _ => k
  | .leave _ | .fin => want c
  | _ => 0

def JobOk (m : Mem) (ord : Ord) (id : Nat) (c : Call) : Pc → Prop
  | .appLoad | .appAlloc _ | .appGrow _ => isApp c
  | .appCas old => isApp c ∧ old + want c ≤ m.map
  | .wrAlloc | .wrGrow => isWr c
  | .wrLoad => isWr c ∧ wrEnd c ≤ m.map
  | .wrCas old => isWr c ∧ wrEnd c ≤ m.map ∧ old < wrEnd c
  | .rdFirst => isRd c
  | .rdSecond => isRd c ∧ offOf c ≤ m.size
  | .enter off n => off + n ≤ m.size ∧ (isRd c → off = offOf c) ∧
      (((id, c, some off) ∈ ord ∧ n = want c) ∨ ((id, c, none) ∈ ord ∧ n ≠ want c ∧ isRd c))
  | .copy base off k buf => (id, c, some off) ∈ ord ∧ id ∈ m.holders ∧ base = m.base ∧ k ≤ want c ∧ copies c ∧ off + want c ≤ m.size ∧
      (isRd c → buf.length = k ∧ off = offOf c)
  | .leave out => ∃ p, (id, c, p) ∈ ord ∧ Fits c p out
  | .refused => isRd c ∧ (id, c, none) ∈ ord
  | .fin => True

/-- The byte has been stored. -/
def Written (jobs : List Job) (ord : Ord) (id pos : Nat) (v : UInt8) : Prop :=
  ∃ c off j, (id, c, some off) ∈ ord ∧ off ≤ pos ∧ (payload c)[pos - off]? = some v ∧ jobs[id]? = some j ∧ pos - off < progress c j.pc

def ByteOk (f : File) (s : Sys) (ord : Ord) (pos : Nat) : Prop :=
  (∃ id, Written s.jobs ord id pos (s.mem.disk.data pos) ∧ ∀ id' v', Written s.jobs ord id' pos v' → ¬ Precedes s.hist id id') ∨
    ((∀ w, f.data pos = some w → s.mem.disk.data pos = w) ∧ ∀ id' v', ¬ Written s.jobs ord id' pos v')

/-- The bytes that a call has read. -/
def Buf (s : Sys) (id : Nat) (b : Bytes) : Prop :=
  (∃ c base off k, s.jobs[id]? = some ⟨c, .copy base off k b⟩) ∨ (∃ c, s.jobs[id]? = some ⟨c, .leave (.got b)⟩) ∨ HEv.ret id (.got b) ∈ s.hist

structure Inv (f : File) (s : Sys) (ord : Ord) : Prop where
  lo : s.mem.size ≤ s.mem.map
  hi : s.mem.map = s.mem.disk.len
  nf : s.mem.fault = false
  jobs : ∀ id j, s.jobs[id]? = some j → JobOk s.mem ord id j.call j.pc
  hold : ∀ id, id ∈ s.mem.holders → ∃ j, s.jobs[id]? = some j ∧ holding j.pc = true
  sizes : Sizes f.size ord s.mem.size
  once : (ord.map (·.1)).Nodup
  ordJob : ∀ x, x ∈ ord → ∃ j, s.jobs[x.1]? = some j ∧ j.call = x.2.1 ∧ placed j.pc = true
  inv : ∀ id c, HEv.inv id c ∈ s.hist ↔ ∃ j, s.jobs[id]? = some j ∧ j.call = c
  ret : ∀ id out, HEv.ret id out ∈ s.hist → ∃ j p, s.jobs[id]? = some j ∧ j.pc = .fin ∧ (id, j.call, p) ∈ ord ∧ Fits j.call p out
  fin : ∀ id j, s.jobs[id]? = some j → j.pc = .fin → ∃ out, HEv.ret id out ∈ s.hist
  order : ∀ o1 x o2, ord = o1 ++ x :: o2 → ∀ a, Precedes s.hist a x.1 → a ∈ o1.map (·.1)
  bytes : ∀ pos, ByteOk f s ord pos
  reads : ∀ id off n b, (∃ pc, s.jobs[id]? = some ⟨.read off n, pc⟩) → Buf s id b →
    ∀ i v, b[i]? = some v → MayRead f s.hist ord id (off + i) v

/-! ### Sizes -/

theorem sizes_append {s s' : Nat} {o : Ord} (h : Sizes s o s') (id : Nat) (c : Call) : Sizes s (o ++ [(id, c, placeAt s' c)]) (sizeAfter s' c) := by
  induction o generalizing s with
  | nil => cases h; exact ⟨rfl, rfl⟩
  | cons x o ih => obtain ⟨x1, x2, x3⟩ := x; exact ⟨h.1, ih h.2⟩

theorem sizeAfter_le (s : Nat) (c : Call) : s ≤ sizeAfter s c := by
  cases c <;> simp only [sizeAfter] <;> omega

theorem sizes_le {s s' : Nat} {o : Ord} (h : Sizes s o s') : s ≤ s' := by
  induction o generalizing s with
  | nil => cases h; exact Nat.le_refl _
  | cons x o ih => obtain ⟨x1, x2, x3⟩ := x; exact Nat.le_trans (sizeAfter_le s x2) (ih h.2)

theorem place_end {s off : Nat} {c : Call} (h : placeAt s c = some off) : off + want c ≤ sizeAfter s c := by
  cases c with
  | read o n =>
    simp only [placeAt] at h
    split at h
    · cases h; simp only [want, sizeAfter]; assumption
    · cases h
  | write o d => cases h; simp only [want, sizeAfter]; omega
  | append d => cases h; exact Nat.le_refl _
  | expand n => cases h; exact Nat.le_refl _

theorem sizes_inside {s s' : Nat} {o : Ord} (h : Sizes s o s') {id off : Nat} {c : Call} (hm : (id, c, some off) ∈ o) : off + want c ≤ s' := by
  induction o generalizing s with
  | nil => cases hm
  | cons x o ih =>
    obtain ⟨x1, x2, x3⟩ := x
    rcases List.mem_cons.1 hm with e | hm
    · cases e
      exact Nat.le_trans (place_end h.1.symm) (sizes_le h.2)
    · exact ih h.2 hm

/-! ### History -/

theorem precedes_ret {h : List HEv} {a b : Nat} (hp : Precedes h a b) : (∃ r, HEv.ret a r ∈ h) ∧ ∃ c, HEv.inv b c ∈ h := by
  obtain ⟨h1, h2, r, c, e, m1, m2⟩ := hp
  subst e
  exact ⟨⟨r, List.mem_append_left _ m1⟩, ⟨c, List.mem_append_right _ m2⟩⟩

theorem precedes_mono {h t : List HEv} {a b : Nat} (hp : Precedes h a b) : Precedes (h ++ t) a b := by
  obtain ⟨h1, h2, r, c, e, m1, m2⟩ := hp
  subst e
  exact ⟨h1, h2 ++ t, r, c, List.append_assoc _ _ _, m1, List.mem_append_left _ m2⟩

theorem precedes_snoc {h : List HEv} {e : HEv} {a b : Nat} (hp : Precedes (h ++ [e]) a b) : Precedes h a b ∨ ∃ c, e = .inv b c := by
  obtain ⟨h1, h2, r, c, he, m1, m2⟩ := hp
  rcases List.eq_nil_or_concat h2 with e2 | ⟨h3, x, e2⟩
  · subst e2; cases m2
  · subst e2
    rw [List.concat_eq_append, ← List.append_assoc] at he
    obtain ⟨e3, e4⟩ := List.append_inj' he rfl
    rw [List.concat_eq_append] at m2
    rcases List.mem_append.1 m2 with m2 | m2
    · exact .inl ⟨h1, h3, r, c, e3, m1, m2⟩
    · cases List.mem_singleton.1 m2
      injection e4 with e5
      exact .inr ⟨c, e5⟩

theorem precedes_rets {h : List HEv} {id a b : Nat} {out : Option Out} (hp : Precedes (h ++ out.toList.map (HEv.ret id)) a b) : Precedes h a b := by
  cases out with
  | none => simpa using hp
  | some o =>
    rcases precedes_snoc hp with h' | ⟨c, e⟩
    · exact h'
    · cases e

/-! ### One step of one call -/

section
variable {f : File} {s : Sys} {ord : Ord}

/-- The offset that a call has got is the only one. -/
theorem entry_unique (ho : (ord.map (·.1)).Nodup) {id : Nat} {c c' : Call} {p p' : Option Nat} (h : (id, c, p) ∈ ord) (h' : (id, c', p') ∈ ord) :
    c = c' ∧ p = p' := by
  induction ord with
  | nil => cases h
  | cons x o ih =>
    simp only [List.map_cons, List.nodup_cons] at ho
    rcases List.mem_cons.1 h with e | h
    · rcases List.mem_cons.1 h' with e' | h'
      · rw [← e] at e'; cases e'; exact ⟨rfl, rfl⟩
      · refine absurd (List.mem_map_of_mem (f := (·.1)) h') ?_
        rw [← e] at ho
        exact ho.1
    · rcases List.mem_cons.1 h' with e' | h'
      · refine absurd (List.mem_map_of_mem (f := (·.1)) h) ?_
        rw [← e'] at ho
        exact ho.1
      · exact ih ho.2 h h'

/-- What a call has once all its bytes are stored. -/
theorem Inv.written_of_ret (I : Inv f s ord) {id pos : Nat} {v : UInt8} (hp : Puts ord id pos v) {out : Out} (hr : HEv.ret id out ∈ s.hist) :
    Written s.jobs ord id pos v := by
  obtain ⟨c, off, hm, hle, hv⟩ := hp
  obtain ⟨j, p, hj, hf, _⟩ := I.ret id out hr
  refine ⟨c, off, j, hm, hle, hv, hj, ?_⟩
  rw [hf]
  show pos - off < want c
  have := (List.getElem?_eq_some_iff.1 hv).1
  cases c <;> simp only [payload, want] at * <;> first | exact this | simp at this

theorem written_puts {jobs : List Job} {id pos : Nat} {v : UInt8} (h : Written jobs ord id pos v) : Puts ord id pos v := by
  obtain ⟨c, off, j, hm, hle, hv, _⟩ := h
  exact ⟨c, off, hm, hle, hv⟩

theorem puts_call {id pos : Nat} {v : UInt8} (h : Puts ord id pos v) : ∃ x, x ∈ ord ∧ x.1 = id := by
  obtain ⟨c, off, hm, _⟩ := h
  exact ⟨_, hm, rfl⟩

/-- What may be read stays so when other calls go on. -/
theorem MayRead.mono {h h' : List HEv} {ord' : Ord} {rd pos : Nat} {v : UInt8} (hm : MayRead f h ord rd pos v)
    (hr : ∀ id', (∃ v', Puts ord id' pos v') → Precedes h' rd id' → Precedes h rd id')
    (hrd : ∀ a, Precedes h' a rd → Precedes h a rd)
    (hmid : ∀ a b, Precedes h b rd → Precedes h' a b → Precedes h a b)
    (ho : ∀ id' v', Puts ord id' pos v' → Puts ord' id' pos v')
    (hn : ∀ id' v', Puts ord' id' pos v' → Precedes h id' rd → Puts ord id' pos v') : MayRead f h' ord' rd pos v := by
  rcases hm with ⟨id, hp, h1, h2⟩ | ⟨h1, h2⟩
  · refine .inl ⟨id, ho _ _ hp, fun hx => h1 (hr id ⟨v, hp⟩ hx), fun id' v' hp' hx hy => ?_⟩
    have hy' := hrd _ hy
    exact h2 id' v' (hn _ _ hp' hy') (hmid _ _ hy' hx) hy'
  · exact .inr ⟨h1, fun id' v' hp' hx => h2 id' v' (hn _ _ hp' (hrd _ hx)) (hrd _ hx)⟩

/-- A job that is not in order yet. -/
theorem Inv.not_in (I : Inv f s ord) {id : Nat} {j : Job} (hj : s.jobs[id]? = some j) (hp : placed j.pc = false) : ∀ x, x ∈ ord → x.1 ≠ id := by
  intro x hx e
  obtain ⟨j', h1, _, h3⟩ := I.ordJob x hx
  rw [e, hj] at h1
  cases h1
  rw [hp] at h3
  cases h3

/-- How the order grows. -/
inductive Grows (id : Nat) (cl : Call) (pc pc' : Pc) (size size' : Nat) (ord : Ord) : Ord → Prop
  | same (h : placed pc' = placed pc) (hs : size' = size) : Grows id cl pc pc' size size' ord ord
  | place (h : placed pc = false) (h' : placed pc' = true) (hp : progress cl pc' = 0) (hs : size' = sizeAfter size cl) :
      Grows id cl pc pc' size size' ord (ord ++ [(id, cl, placeAt size cl)])

theorem Grows.sub {id : Nat} {cl : Call} {pc pc' : Pc} {n n' : Nat} {ord' : Ord} (g : Grows id cl pc pc' n n' ord ord') : ∀ x, x ∈ ord → x ∈ ord' := by
  intro x hx
  cases g with
  | same => exact hx
  | place => exact List.mem_append_left _ hx

theorem Grows.new {id : Nat} {cl : Call} {pc pc' : Pc} {n n' : Nat} {ord' : Ord} (g : Grows id cl pc pc' n n' ord ord') : ∀ x, x ∈ ord' → x ∈ ord ∨ x.1 = id := by
  intro x hx
  cases g with
  | same => exact .inl hx
  | place =>
    rcases List.mem_append.1 hx with h | h
    · exact .inl h
    · rw [List.mem_singleton.1 h]; exact .inr rfl

theorem Grows.le {id : Nat} {cl : Call} {pc pc' : Pc} {n n' : Nat} {ord' : Ord} (g : Grows id cl pc pc' n n' ord ord') : n ≤ n' := by
  cases g with
  | same _ hs => omega
  | place _ _ _ hs => rw [hs]; exact sizeAfter_le _ _

theorem JobOk.mono {m m' : Mem} {ord' : Ord} {id : Nat} {c : Call} {pc : Pc} (h : JobOk m ord id c pc) (hs : m.size ≤ m'.size) (hm : m.map ≤ m'.map)
    (ho : ∀ x, x ∈ ord → x ∈ ord') (hh : holding pc = true → id ∈ m.holders → id ∈ m'.holders ∧ m'.base = m.base) : JobOk m' ord' id c pc := by
  cases pc <;> simp only [JobOk] at h ⊢
  case appCas => exact ⟨h.1, by omega⟩
  case wrLoad => exact ⟨h.1, by omega⟩
  case wrCas => exact ⟨h.1, by omega, h.2.2⟩
  case rdSecond => exact ⟨h.1, by omega⟩
  case enter =>
    obtain ⟨h1, h2, h3⟩ := h
    refine ⟨by omega, h2, ?_⟩
    rcases h3 with h3 | h3
    · exact .inl ⟨ho _ h3.1, h3.2⟩
    · exact .inr ⟨ho _ h3.1, h3.2⟩
  case copy =>
    obtain ⟨h1, h2, h3, h4, h5, h6, h7⟩ := h
    obtain ⟨x1, x2⟩ := hh rfl h2
    exact ⟨ho _ h1, x1, by rw [x2]; exact h3, h4, h5, by omega, h7⟩
  case leave =>
    obtain ⟨p, h1, h2⟩ := h
    exact ⟨p, ho _ h1, h2⟩
  case refused => exact ⟨h.1, ho _ h.2⟩
  all_goals exact h

theorem jobs_set {jobs : List Job} {id id' : Nat} {j j0 : Job} (hj : jobs[id]? = some j) (x : Job) (h : (jobs.set id x)[id']? = some j0) :
    (id' = id ∧ j0 = x) ∨ (id' ≠ id ∧ jobs[id']? = some j0) := by
  have hlt := (List.getElem?_eq_some_iff.1 hj).1
  by_cases e : id' = id
  · subst e
    rw [List.getElem?_set_self hlt] at h
    cases h
    exact .inl ⟨rfl, rfl⟩
  · rw [List.getElem?_set_ne (Ne.symm e)] at h
    exact .inr ⟨e, h⟩

theorem jobs_self {jobs : List Job} {id : Nat} {j : Job} (hj : jobs[id]? = some j) (x : Job) : (jobs.set id x)[id]? = some x :=
  List.getElem?_set_self (List.getElem?_eq_some_iff.1 hj).1

theorem jobs_other {jobs : List Job} {id id' : Nat} (x : Job) (h : id' ≠ id) : (jobs.set id x)[id']? = jobs[id']? :=
  List.getElem?_set_ne (Ne.symm h)

/-- The state after one step of a call. -/
def upd (s : Sys) (id : Nat) (c : Call) (m' : Mem) (pc' : Pc) (out : Option Out) : Sys :=
  ⟨m', s.jobs.set id ⟨c, pc'⟩, s.hist ++ out.toList.map (HEv.ret id)⟩

theorem mem_rets {h : List HEv} {id : Nat} {out : Option Out} {e : HEv} :
    e ∈ h ++ out.toList.map (HEv.ret id) ↔ e ∈ h ∨ ∃ o, out = some o ∧ e = .ret id o := by
  cases out with
  | none => simp
  | some o => simp

/-- What has been stored is the same after a step that stores no byte. -/
theorem Inv.written_same (I : Inv f s ord) {id : Nat} {j : Job} (hj : s.jobs[id]? = some j) {pc' : Pc} {n n' : Nat} {ord' : Ord}
    (g : Grows id j.call j.pc pc' n n' ord ord') (hp : payload j.call ≠ [] → progress j.call pc' = progress j.call j.pc) {id' pos : Nat} {v : UInt8} :
    Written (s.jobs.set id ⟨j.call, pc'⟩) ord' id' pos v ↔ Written s.jobs ord id' pos v := by
  have ne : ∀ {c : Call} {k : Nat} {v : UInt8}, (payload c)[k]? = some v → payload c ≠ [] := by
    intro c k v h e
    rw [e] at h
    cases h
  constructor
  · rintro ⟨c, off, j0, hm, hle, hv, h1, h2⟩
    rcases jobs_set hj _ h1 with ⟨e, e2⟩ | ⟨e, h1⟩
    · subst e; subst e2
      cases g with
      | same =>
        obtain ⟨j1, y1, y2, _⟩ := I.ordJob _ hm
        rw [hj] at y1; cases y1
        have y2 : j.call = c := y2
        refine ⟨c, off, j, hm, hle, hv, hj, ?_⟩
        subst y2
        rw [← hp (ne hv)]
        exact h2
      | place z1 z2 z3 z4 =>
        rcases List.mem_append.1 hm with hm | hm
        · exact absurd rfl (I.not_in hj z1 _ hm)
        · have e := List.mem_singleton.1 hm
          have e3 : c = j.call := by injection e with _ e; injection e
          subst e3
          have h2 : pos - off < progress j.call pc' := h2
          rw [z3] at h2
          omega
    · refine ⟨c, off, j0, ?_, hle, hv, h1, h2⟩
      rcases g.new _ hm with h | h
      · exact h
      · exact absurd h e
  · rintro ⟨c, off, j0, hm, hle, hv, h1, h2⟩
    by_cases e : id' = id
    · subst e
      rw [hj] at h1; cases h1
      obtain ⟨j1, y1, y2, _⟩ := I.ordJob _ hm
      rw [hj] at y1; cases y1
      have y2 : j.call = c := y2
      subst y2
      refine ⟨j.call, off, _, g.sub _ hm, hle, hv, jobs_self hj _, ?_⟩
      show pos - off < progress j.call pc'
      rw [hp (ne hv)]
      exact h2
    · exact ⟨c, off, j0, g.sub _ hm, hle, hv, by rw [jobs_other _ e]; exact h1, h2⟩

/-- One step of a call keeps the invariant. -/
theorem Inv.upd (I : Inv f s ord) {id : Nat} {j : Job} (hj : s.jobs[id]? = some j) {m' : Mem} {pc' : Pc} {out : Option Out} {ord' : Ord}
    (g : Grows id j.call j.pc pc' s.mem.size m'.size ord ord')
    (lo : m'.size ≤ m'.map) (hi : m'.map = m'.disk.len) (nf : m'.fault = false) (hmap : s.mem.map ≤ m'.map)
    (self : JobOk m' ord' id j.call pc')
    (hh : ∀ x, x ∈ m'.holders → (x = id ∧ holding pc' = true) ∨ (x ≠ id ∧ x ∈ s.mem.holders))
    (hh' : ∀ x, x ∈ s.mem.holders → x ≠ id → x ∈ m'.holders)
    (hb : m'.base = s.mem.base ∨ s.mem.holders = [])
    (hout : ∀ o, out = some o → pc' = .fin ∧ ∃ p, (id, j.call, p) ∈ ord' ∧ Fits j.call p o)
    (hnout : out = none → pc' = .fin → j.pc = .fin)
    (hfin : j.pc = .fin → pc' = .fin)
    (bytes : ∀ pos, ByteOk f (Mmap.upd s id j.call m' pc' out) ord' pos)
    (rd : ∀ off n b, j.call = .read off n → ((∃ base o k, pc' = .copy base o k b) ∨ pc' = .leave (.got b) ∨ out = some (.got b)) →
      b = [] ∨ Buf s id b ∨ ∃ b0, b = b0 ++ [s.mem.disk.data (off + b0.length)] ∧ Buf s id b0 ∧ j.pc ≠ .fin) :
    Inv f (Mmap.upd s id j.call m' pc' out) ord' := by
  have hold : ∀ j0, s.jobs[id]? = some j0 → j0 = j := fun j0 h => by rw [hj] at h; exact (Option.some.inj h).symm
  have hmr : ∀ {rd pos : Nat} {v : UInt8}, MayRead f s.hist ord rd pos v → MayRead f (Mmap.upd s id j.call m' pc' out).hist ord' rd pos v := by
    intro rd pos v h
    refine h.mono (fun _ _ hx => precedes_rets hx) (fun _ hx => precedes_rets hx) (fun _ _ _ hx => precedes_rets hx) ?_ ?_
    · rintro id' v' ⟨c, off, hm, hr⟩
      exact ⟨c, off, g.sub _ hm, hr⟩
    · rintro id' v' ⟨c, off, hm, hr⟩ hx
      refine ⟨c, off, ?_, hr⟩
      obtain ⟨⟨r, hret⟩, _⟩ := precedes_ret hx
      obtain ⟨j1, p, y1, y2, y3, _⟩ := I.ret _ _ hret
      cases g with
      | same => exact hm
      | place z1 =>
        rcases List.mem_append.1 hm with hm | hm
        · exact hm
        · have e := List.mem_singleton.1 hm
          have e3 : id' = id := by injection e
          subst e3
          rw [hold j1 y1] at y2
          rw [y2] at z1
          cases z1
  refine ⟨lo, hi, nf, ?_, ?_, ?_, ?_, ?_, ?_, ?_, ?_, ?_, bytes, ?_⟩
  · intro id' j' h
    rcases jobs_set hj _ h with ⟨e, e2⟩ | ⟨e, h⟩
    · subst e; subst e2; exact self
    · refine (I.jobs id' j' h).mono g.le hmap g.sub (fun hhold hin => ⟨hh' _ hin e, ?_⟩)
      rcases hb with hb | hb
      · exact hb
      · rw [hb] at hin; cases hin
  · intro x hx
    rcases hh x hx with ⟨e, h⟩ | ⟨e, h⟩
    · subst e
      exact ⟨_, jobs_self hj _, h⟩
    · obtain ⟨j', h1, h2⟩ := I.hold x h
      refine ⟨j', ?_, h2⟩
      show (s.jobs.set id _)[x]? = _
      rw [jobs_other _ e]; exact h1
  · show Sizes f.size ord' m'.size
    cases g with
    | same _ hs => rw [hs]; exact I.sizes
    | place _ _ _ hs => rw [hs]; exact sizes_append I.sizes _ _
  · cases g with
    | same => exact I.once
    | place z1 =>
      rw [List.map_append, List.nodup_append]
      refine ⟨I.once, by simp, ?_⟩
      intro a ha b hb' e
      obtain ⟨x, hx, ex⟩ := List.mem_map.1 ha
      have : b = id := by simpa using hb'
      exact I.not_in hj z1 x hx (by rw [ex, e, this])
  · intro x hx
    by_cases e : x.1 = id
    · refine ⟨⟨j.call, pc'⟩, by rw [e]; exact jobs_self hj _, ?_, ?_⟩
      · cases g with
        | same =>
          obtain ⟨j', h1, h2, _⟩ := I.ordJob x hx
          rw [e] at h1
          rw [hold j' h1] at h2
          exact h2
        | place z1 =>
          rcases List.mem_append.1 hx with hx | hx
          · exact absurd e (I.not_in hj z1 x hx)
          · rw [List.mem_singleton.1 hx]
      · cases g with
        | same z =>
          obtain ⟨j', h1, _, h3⟩ := I.ordJob x hx
          rw [e] at h1
          rw [hold j' h1] at h3
          exact z.trans h3
        | place _ z2 => exact z2
    · obtain ⟨j', h1, h2⟩ := I.ordJob x (by
        rcases g.new x hx with h | h
        · exact h
        · exact absurd h e)
      exact ⟨j', by show (s.jobs.set id _)[x.1]? = _; rw [jobs_other _ e]; exact h1, h2⟩
  · intro id' c
    show HEv.inv id' c ∈ s.hist ++ _ ↔ ∃ j', (s.jobs.set id ⟨j.call, pc'⟩)[id']? = some j' ∧ _
    rw [mem_rets, I.inv]
    constructor
    · rintro (⟨j', h1, h2⟩ | ⟨o, _, h⟩)
      · by_cases e : id' = id
        · subst e
          rw [hold j' h1] at h2
          exact ⟨_, jobs_self hj _, h2⟩
        · exact ⟨j', by rw [jobs_other _ e]; exact h1, h2⟩
      · cases h
    · rintro ⟨j', h1, h2⟩
      rcases jobs_set hj _ h1 with ⟨e, e2⟩ | ⟨e, h⟩
      · subst e; subst e2; exact .inl ⟨j, hj, h2⟩
      · exact .inl ⟨j', h, h2⟩
  · intro id' o h
    rcases mem_rets.1 h with h | ⟨o', h1, h2⟩
    · obtain ⟨j', p, h1, h2, h3, h4⟩ := I.ret id' o h
      by_cases e : id' = id
      · subst e
        have e1 := hold j' h1
        subst e1
        exact ⟨_, p, jobs_self hj _, hfin h2, g.sub _ h3, h4⟩
      · exact ⟨j', p, by show (s.jobs.set id _)[id']? = _; rw [jobs_other _ e]; exact h1, h2, g.sub _ h3, h4⟩
    · injection h2 with e1 e2
      subst e1; subst e2
      obtain ⟨h3, p, h4, h5⟩ := hout _ h1
      exact ⟨_, p, jobs_self hj _, h3, h4, h5⟩
  · intro id' j' h hf
    rcases jobs_set hj _ h with ⟨e, e2⟩ | ⟨e, h⟩
    · subst e; subst e2
      cases ho : out with
      | none =>
        obtain ⟨o, h1⟩ := I.fin _ j hj (hnout ho hf)
        exact ⟨o, mem_rets.2 (.inl h1)⟩
      | some o => exact ⟨o, mem_rets.2 (.inr ⟨o, rfl, rfl⟩)⟩
    · obtain ⟨o, h1⟩ := I.fin _ j' h hf
      exact ⟨o, mem_rets.2 (.inl h1)⟩
  · intro o1 x o2 he a hp
    have hp := precedes_rets hp
    cases g with
    | same => exact I.order o1 x o2 he a hp
    | place z1 =>
      rcases List.eq_nil_or_concat o2 with e2 | ⟨o3, y, e2⟩
      · subst e2
        obtain ⟨e3, e4⟩ := List.append_inj' he rfl
        subst e3
        obtain ⟨⟨r, hr⟩, _⟩ := precedes_ret hp
        obtain ⟨j', p, _, _, h3, _⟩ := I.ret a r hr
        exact List.mem_map.2 ⟨_, h3, rfl⟩
      · subst e2
        rw [List.concat_eq_append] at he
        have he' : ord ++ [(id, j.call, placeAt s.mem.size j.call)] = (o1 ++ x :: o3) ++ [y] := by rw [he]; simp
        obtain ⟨e3, _⟩ := List.append_inj' he' rfl
        exact I.order o1 x o3 e3 a hp
  · intro id' off n b hc hb' i v hv
    obtain ⟨pc0, hc⟩ := hc
    by_cases e : id' = id
    · subst e
      have hcall : j.call = .read off n := by
        have h := hc
        rw [show (Mmap.upd s id' j.call m' pc' out).jobs = s.jobs.set id' ⟨j.call, pc'⟩ from rfl, jobs_self hj] at h
        injection h with h
        injection h
      have hcs : ∃ pc, s.jobs[id']? = some ⟨.read off n, pc⟩ := ⟨j.pc, by rw [hj, ← hcall]⟩
      have hb2 : Buf s id' b ∨ ((∃ base o k, pc' = .copy base o k b) ∨ pc' = .leave (.got b) ∨ out = some (.got b)) := by
        rcases hb' with ⟨c, base, o, k, h⟩ | ⟨c, h⟩ | h
        · rw [show (Mmap.upd s id' j.call m' pc' out).jobs = s.jobs.set id' ⟨j.call, pc'⟩ from rfl, jobs_self hj] at h
          injection h with h
          injection h with _ h
          exact .inr (.inl ⟨base, o, k, h⟩)
        · rw [show (Mmap.upd s id' j.call m' pc' out).jobs = s.jobs.set id' ⟨j.call, pc'⟩ from rfl, jobs_self hj] at h
          injection h with h
          injection h with _ h
          exact .inr (.inr (.inl h))
        · rcases mem_rets.1 h with h | ⟨o, h1, h2⟩
          · exact .inl (.inr (.inr h))
          · injection h2 with _ h2
            subst h2
            exact .inr (.inr (.inr h1))
      have hb3 : b = [] ∨ Buf s id' b ∨ ∃ b0, b = b0 ++ [s.mem.disk.data (off + b0.length)] ∧ Buf s id' b0 ∧ j.pc ≠ .fin := by
        rcases hb2 with h | h
        · exact .inr (.inl h)
        · exact rd off n b hcall h
      rcases hb3 with h | h | ⟨b0, h1, h2, h4⟩
      · subst h; cases hv
      · exact hmr (I.reads id' off n b hcs h i v hv)
      · subst h1
        by_cases hi' : i < b0.length
        · rw [List.getElem?_append_left hi'] at hv
          exact hmr (I.reads id' off n b0 hcs h2 i v hv)
        · have hi2 : i = b0.length := by
            have := (List.getElem?_eq_some_iff.1 hv).1
            simp at this
            omega
          subst hi2
          have hv : s.mem.disk.data (off + b0.length) = v := by simpa using hv
          subst hv
          apply hmr
          rcases I.bytes (off + b0.length) with ⟨w, h5, h6⟩ | ⟨h5, h6⟩
          · refine .inl ⟨w, written_puts h5, ?_, ?_⟩
            · intro hx
              obtain ⟨⟨r, hr⟩, _⟩ := precedes_ret hx
              obtain ⟨j1, _, y1, y2, _⟩ := I.ret _ _ hr
              rw [hold j1 y1] at y2
              exact h4 y2
            · intro id1 v1 hp1 hx hy
              obtain ⟨⟨r, hr⟩, _⟩ := precedes_ret hy
              exact h6 id1 v1 (I.written_of_ret hp1 hr) hx
          · refine .inr ⟨h5, ?_⟩
            intro id1 v1 hp1 hy
            obtain ⟨⟨r, hr⟩, _⟩ := precedes_ret hy
            exact h6 id1 v1 (I.written_of_ret hp1 hr)
    · have hc' : s.jobs[id']? = some ⟨.read off n, pc0⟩ := by
        have h := hc
        rw [show (Mmap.upd s id j.call m' pc' out).jobs = s.jobs.set id ⟨j.call, pc'⟩ from rfl, jobs_other _ e] at h
        exact h
      refine hmr (I.reads id' off n b ⟨pc0, hc'⟩ ?_ i v hv)
      rcases hb' with ⟨c, base, o, k, h⟩ | ⟨c, h⟩ | h
      · exact .inl ⟨c, base, o, k, by
          rw [show (Mmap.upd s id j.call m' pc' out).jobs = s.jobs.set id ⟨j.call, pc'⟩ from rfl, jobs_other _ e] at h; exact h⟩
      · exact .inr (.inl ⟨c, by
          rw [show (Mmap.upd s id j.call m' pc' out).jobs = s.jobs.set id ⟨j.call, pc'⟩ from rfl, jobs_other _ e] at h; exact h⟩)
      · rcases mem_rets.1 h with h | ⟨o, _, h2⟩
        · exact .inr (.inr h)
        · injection h2 with h2
          exact absurd h2 e

end

end Verif.Mmap
