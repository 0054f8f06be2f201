import Verif.Tiny.ConcSeq
/-
The steps on pointers refine the operation on chains.
-/
namespace Verif.Tiny.Conc
open Verif TwoPhase

/-! ### Chains of blocks on the heap -/

/-- The pointers from `p` lead over these blocks to `q`. -/
def Seg (heap : Addr → Option Node) : Option Addr → List (Addr × Blk) → Option Addr → Prop
  | p, [], q => p = q
  | p, (a, b) :: l, q => ∃ c, p = some a ∧ heap a = some ⟨c, b⟩ ∧ Seg heap c l q

abbrev ad (l : List (Addr × Blk)) : List Addr := l.map (·.1)
abbrev bl (l : List (Addr × Blk)) : List Blk := l.map (·.2)

theorem seg_append {heap : Addr → Option Node} {p q : Option Addr} {l1 l2 : List (Addr × Blk)} :
    Seg heap p (l1 ++ l2) q ↔ ∃ m, Seg heap p l1 m ∧ Seg heap m l2 q := by
  induction l1 generalizing p with
  | nil => simp [Seg]
  | cons x l1 ih =>
    obtain ⟨a, b⟩ := x
    simp only [List.cons_append, Seg, ih]
    constructor
    · rintro ⟨c, h1, h2, m, h3, h4⟩; exact ⟨m, ⟨c, h1, h2, h3⟩, h4⟩
    · rintro ⟨m, ⟨c, h1, h2, h3⟩, h4⟩; exact ⟨c, h1, h2, m, h3, h4⟩

theorem seg_congr {heap heap' : Addr → Option Node} {p q : Option Addr} {l : List (Addr × Blk)} (h : Seg heap p l q)
    (hh : ∀ a ∈ ad l, heap' a = heap a) : Seg heap' p l q := by
  induction l generalizing p with
  | nil => exact h
  | cons x l ih =>
    obtain ⟨a, b⟩ := x
    obtain ⟨c, h1, h2, h3⟩ := h
    exact ⟨c, h1, by rw [hh a (by simp)]; exact h2, ih h3 fun a' ha => hh a' (by simp at ha ⊢; exact .inr ha)⟩

theorem seg_alloc {heap : Addr → Option Node} {p q : Option Addr} {l : List (Addr × Blk)} (h : Seg heap p l q) {a : Addr} (ha : a ∈ ad l) :
    heap a ≠ none := by
  induction l generalizing p with
  | nil => simp at ha
  | cons x l ih =>
    obtain ⟨a', b⟩ := x
    obtain ⟨c, h1, h2, h3⟩ := h
    simp only [ad, List.map_cons, List.mem_cons] at ha
    rcases ha with rfl | ha
    · rw [h2]; simp
    · exact ih h3 ha

/-- The last block, which is `parent`. -/
def lastA (l : List (Addr × Blk)) : Option Addr := (ad l).getLast?

theorem lastA_snoc (l : List (Addr × Blk)) (a : Addr) (b : Blk) : lastA (l ++ [(a, b)]) = some a := by simp [lastA]

/-- A store behind the last block of a segment. -/
theorem link_seg {m : Mem} {bi : Nat} {pre : List (Addr × Blk)} {q p : Option Addr} (h : Seg m.heap (m.heads bi) pre q)
    (hn : (ad pre).Nodup) :
    (link m bi (lastA pre) p).uaf = m.uaf ∧ (link m bi (lastA pre) p).log = m.log ∧ (link m bi (lastA pre) p).count = m.count ∧
    (link m bi (lastA pre) p).big = m.big ∧
    (∀ j, j ≠ bi → (link m bi (lastA pre) p).heads j = m.heads j) ∧
    (∀ a, a ∉ ad pre → (link m bi (lastA pre) p).heap a = m.heap a) ∧
    Seg (link m bi (lastA pre) p).heap ((link m bi (lastA pre) p).heads bi) pre p := by
  rcases List.eq_nil_or_concat pre with rfl | ⟨pre', ab, rfl⟩
  · refine ⟨rfl, rfl, rfl, rfl, fun j hj => ?_, fun _ _ => rfl, ?_⟩
    · simp [lastA, link, setHead, setHead.upd', hj]
    · simp [lastA, link, setHead, setHead.upd', Seg]
  · obtain ⟨a, b⟩ := ab
    simp only [List.concat_eq_append] at h hn ⊢
    rw [lastA_snoc]
    obtain ⟨x, h1, c, h2, h3, h4⟩ := seg_append.1 h
    have hna : a ∉ ad pre' := by
      simp only [ad, List.map_append, List.map_cons, List.map_nil, List.nodup_append] at hn
      intro ha
      exact hn.2.2 a ha a (by simp) rfl
    have hl : link m bi (some a) p = setNode m a (some ⟨p, b⟩) := by simp only [link, h3]
    rw [hl]
    refine ⟨rfl, rfl, rfl, rfl, fun _ _ => rfl, fun a' ha' => ?_, ?_⟩
    · have : a' ≠ a := by rintro rfl; exact ha' (by simp)
      simp [setNode, this]
    · refine seg_append.2 ⟨x, seg_congr h1 fun a' ha' => ?_, p, h2, by simp [setNode], rfl⟩
      have : a' ≠ a := by rintro rfl; exact hna ha'
      simp [setNode, this]

/-! ### The relation -/

section
variable {ρ : Type}

/-- The bucket that a thread is changing. -/
def workOn : Inner ρ → Option Nat
  | .rem1 bi _ _ _ | .rem2 bi _ _ | .upd1 bi _ _ _ _ _ _ | .upd2 bi _ _ _ | .add1 bi _ _ _ | .add2 bi _ => some bi
  | _ => none

/-- What it will still add to the count. -/
def pend : Inner ρ → Int
  | .rem1 _ _ _ _ | .rem2 _ _ _ => -1
  | .add1 _ _ _ _ | .add2 _ _ => 1
  | .cnt d => d
  | _ => 0

/-- The walk of a chain behind a part that has been passed. -/
def ext (pre : List Blk) : Found → Found
  | .hit p b v q => .hit (pre ++ p) b v q
  | x => x

/-- What holds of a thread in the body. -/
def InOk (loc : Bytes → Nat) (s : Mem) (reg : Nat → List Blk) (P : Nat → List (Addr × Blk)) (w : Bool)
    (rest : List (Bytes × ProcS ρ)) (r : ρ) : Inner ρ → Prop
  | .enter => True
  | .at top parent ptr => ∃ k p rest', rest = (k, p) :: rest' ∧ top = s.heads (loc k) ∧ ∃ pre post, P (loc k) = pre ++ post ∧
      Seg s.heap (s.heads (loc k)) pre ptr ∧ Seg s.heap ptr post none ∧ parent = lastA pre ∧
      walk k (bl (P (loc k))) = ext (bl pre) (walk k (bl post))
  | .log a (.hit parent ptr child old) r' => w = true ∧ a ≠ .noop ∧ ∃ k p rest', rest = (k, p) :: rest' ∧ ∃ pre b post v,
      P (loc k) = pre ++ (ptr, b) :: post ∧ Seg s.heap (s.heads (loc k)) pre (some ptr) ∧ s.heap ptr = some ⟨child, b⟩ ∧
      Seg s.heap child post none ∧ parent = lastA pre ∧
      walk k (bl (P (loc k))) = .hit (bl pre) b v (bl post) ∧ old = v.length ∧ p r (some v) = (a, r')
  | .log a (.miss top) r' => w = true ∧ (∃ v, a = .set v) ∧ ∃ k p rest', rest = (k, p) :: rest' ∧ top = s.heads (loc k) ∧
      walk k (bl (P (loc k))) = .absent ∧ p r none = (a, r')
  | .rem1 bi parent ptr child => ∃ pre b post, P bi = pre ++ (ptr, b) :: post ∧ Seg s.heap (s.heads bi) pre (some ptr) ∧
      s.heap ptr = some ⟨child, b⟩ ∧ Seg s.heap child post none ∧ parent = lastA pre ∧ reg bi = bl pre ++ bl post
  | .rem2 bi parent child => ∃ pre post q, P bi = pre ++ post ∧ Seg s.heap (s.heads bi) pre q ∧ Seg s.heap child post none ∧
      parent = lastA pre ∧ reg bi = bl (P bi)
  | .upd1 bi k parent ptr child v old => ∃ pre b b' post, P bi = pre ++ (ptr, b) :: post ∧ Seg s.heap (s.heads bi) pre (some ptr) ∧
      s.heap ptr = some ⟨child, b⟩ ∧ Seg s.heap child post none ∧ parent = lastA pre ∧ reserialize b k v old = some b' ∧
      reg bi = bl pre ++ b' :: bl post
  | .upd2 bi parent ptr new => ∃ pre b' post c, P bi = pre ++ (new, b') :: post ∧ Seg s.heap (s.heads bi) pre (some ptr) ∧
      s.heap new = some ⟨c, b'⟩ ∧ Seg s.heap c post none ∧ parent = lastA pre ∧ reg bi = bl (P bi)
  | .add1 bi k v top => ∃ b, Seg s.heap (s.heads bi) (P bi) none ∧ top = s.heads bi ∧ serialize k v = some b ∧ reg bi = b :: bl (P bi)
  | .add2 bi new => ∃ b l, P bi = (new, b) :: l ∧ s.heap new = some ⟨s.heads bi, b⟩ ∧ Seg s.heap (s.heads bi) l none ∧
      reg bi = bl (P bi)
  | .cnt _ => True

/-- The bucket that a thread has to do with. -/
def bucketOf (loc : Bytes → Nat) (rest : List (Bytes × ProcS ρ)) : Inner ρ → Option Nat
  | .at _ _ _ | .log _ _ _ => rest.head?.map fun kp => loc kp.1
  | x => workOn x

theorem bucketOf_work {loc : Bytes → Nat} {rest : List (Bytes × ProcS ρ)} {x : Inner ρ} {i : Nat} (h : workOn x = some i) :
    bucketOf loc rest x = some i := by
  cases x <;> first | exact h | (simp [workOn] at h)

theorem bucketOf_cases {loc : Bytes → Nat} {rest : List (Bytes × ProcS ρ)} {x : Inner ρ} {i : Nat} (h : bucketOf loc rest x = some i) :
    workOn x = some i ∨ ∃ kp ∈ rest, loc kp.1 = i := by
  cases x <;> first
    | exact .inl h
    | (right
       cases rest with
       | nil => simp [bucketOf] at h
       | cons kp rest => exact ⟨kp, by simp, by simpa [bucketOf] using h⟩)

theorem InOk.frame {loc : Bytes → Nat} {s s' : Mem} {reg reg' : Nat → List Blk} {P P' : Nat → List (Addr × Blk)} {w : Bool}
    {rest : List (Bytes × ProcS ρ)} {r : ρ} {x : Inner ρ} (h : InOk loc s reg P w rest r x)
    (hf : ∀ j, bucketOf loc rest x = some j → s'.heads j = s.heads j ∧ P' j = P j ∧ reg' j = reg j ∧ ∀ a ∈ ad (P j), s'.heap a = s.heap a) :
    InOk loc s' reg' P' w rest r x := by
  cases x with
  | enter => trivial
  | cnt d => trivial
  | «at» top parent ptr =>
    obtain ⟨k, p, rest', e, h1, pre, post, h2, h3, h4, h5, h6⟩ := h
    obtain ⟨f1, f2, _, f4⟩ := hf (loc k) (by simp [bucketOf, e])
    rw [h2] at f4
    refine ⟨k, p, rest', e, by rw [f1, h1], pre, post, by rw [f2, h2], ?_, ?_, h5, by rw [f2, h6]⟩
    · rw [f1]; exact seg_congr h3 fun a ha => f4 a (by simp [ad] at ha ⊢; exact .inl ha)
    · exact seg_congr h4 fun a ha => f4 a (by simp [ad] at ha ⊢; exact .inr ha)
  | log a pos r' =>
    cases pos with
    | hit parent ptr child old =>
      obtain ⟨hw, hne, k, p, rest', e, pre, b, post, v, h2, h3, h4, h5, h6, h7, h8⟩ := h
      obtain ⟨f1, f2, _, f4⟩ := hf (loc k) (by simp [bucketOf, e])
      rw [h2] at f4
      refine ⟨hw, hne, k, p, rest', e, pre, b, post, v, by rw [f2, h2], ?_, ?_, ?_, h6, by rw [f2, h7], h8⟩
      · rw [f1]; exact seg_congr h3 fun a ha => f4 a (by simp [ad] at ha ⊢; exact .inl ha)
      · rw [f4 ptr (by simp [ad])]; exact h4
      · exact seg_congr h5 fun a ha => f4 a (by simp [ad] at ha ⊢; exact .inr (.inr ha))
    | miss top =>
      obtain ⟨hw, hne, k, p, rest', e, h1, h2, h3⟩ := h
      obtain ⟨f1, f2, _, f4⟩ := hf (loc k) (by simp [bucketOf, e])
      exact ⟨hw, hne, k, p, rest', e, by rw [f1, h1], by rw [f2, h2], h3⟩
  | rem1 bi parent ptr child =>
    obtain ⟨pre, b, post, h2, h3, h4, h5, h6, h7⟩ := h
    obtain ⟨f1, f2, f3, f4⟩ := hf bi rfl
    rw [h2] at f4
    refine ⟨pre, b, post, by rw [f2, h2], ?_, ?_, ?_, h6, by rw [f3, h7]⟩
    · rw [f1]; exact seg_congr h3 fun a ha => f4 a (by simp [ad] at ha ⊢; exact .inl ha)
    · rw [f4 ptr (by simp [ad])]; exact h4
    · exact seg_congr h5 fun a ha => f4 a (by simp [ad] at ha ⊢; exact .inr (.inr ha))
  | rem2 bi parent child =>
    obtain ⟨pre, post, q, h2, h3, h5, h6, h7⟩ := h
    obtain ⟨f1, f2, f3, f4⟩ := hf bi rfl
    have f4' := f4
    rw [h2] at f4'
    refine ⟨pre, post, q, by rw [f2, h2], ?_, ?_, h6, by rw [f3, f2, h7]⟩
    · rw [f1]; exact seg_congr h3 fun a ha => f4' a (by simp [ad] at ha ⊢; exact .inl ha)
    · exact seg_congr h5 fun a ha => f4' a (by simp [ad] at ha ⊢; exact .inr ha)
  | upd1 bi k parent ptr child v old =>
    obtain ⟨pre, b, b', post, h2, h3, h4, h5, h6, h7, h8⟩ := h
    obtain ⟨f1, f2, f3, f4⟩ := hf bi rfl
    rw [h2] at f4
    refine ⟨pre, b, b', post, by rw [f2, h2], ?_, ?_, ?_, h6, h7, by rw [f3, h8]⟩
    · rw [f1]; exact seg_congr h3 fun a ha => f4 a (by simp [ad] at ha ⊢; exact .inl ha)
    · rw [f4 ptr (by simp [ad])]; exact h4
    · exact seg_congr h5 fun a ha => f4 a (by simp [ad] at ha ⊢; exact .inr (.inr ha))
  | upd2 bi parent ptr new =>
    obtain ⟨pre, b', post, c, h2, h3, h4, h5, h6, h7⟩ := h
    obtain ⟨f1, f2, f3, f4⟩ := hf bi rfl
    have f4' := f4
    rw [h2] at f4'
    refine ⟨pre, b', post, c, by rw [f2, h2], ?_, ?_, ?_, h6, by rw [f3, f2, h7]⟩
    · rw [f1]; exact seg_congr h3 fun a ha => f4' a (by simp [ad] at ha ⊢; exact .inl ha)
    · rw [f4' new (by simp [ad])]; exact h4
    · exact seg_congr h5 fun a ha => f4' a (by simp [ad] at ha ⊢; exact .inr (.inr ha))
  | add1 bi k v top =>
    obtain ⟨b, h1, h2, h3, h4⟩ := h
    obtain ⟨f1, f2, f3, f4⟩ := hf bi rfl
    refine ⟨b, ?_, by rw [f1, h2], h3, by rw [f3, f2, h4]⟩
    rw [f1, f2]; exact seg_congr h1 f4
  | add2 bi new =>
    obtain ⟨b, l, h1, h2, h3, h4⟩ := h
    obtain ⟨f1, f2, f3, f4⟩ := hf bi rfl
    have f4' := f4
    rw [h1] at f4'
    refine ⟨b, l, by rw [f2, h1], ?_, ?_, by rw [f3, f2, h4]⟩
    · rw [f4' new (by simp [ad]), f1]; exact h2
    · rw [f1]; exact seg_congr h3 fun a ha => f4' a (by simp [ad] at ha ⊢; exact .inr ha)

/-- The same thread without where it is in the body. -/
def absPc : Pc ρ (Inner ρ) → Pc ρ Unit
  | .idle => .idle
  | .locking c got todo => .locking c got todo
  | .body c h rest r _ => .body c h rest r ()
  | .unlocking c h r => .unlocking c h r

def absT (th : Thread ρ (Inner ρ)) : Thread ρ Unit := ⟨th.id, absPc th.pc⟩

theorem held_abs (pc : Pc ρ (Inner ρ)) : held (absPc pc) = held pc := by cases pc <;> rfl
theorem writer_abs (pc : Pc ρ (Inner ρ)) : writer (absPc pc) = writer pc := by cases pc <;> rfl

def pendT (th : Thread ρ (Inner ρ)) : Int :=
  match th.pc with
  | .body _ _ _ _ x => pend x
  | _ => 0

structure Rel (L : Locks ρ) (nb : Nat) (s : CState ρ) (m : Sys (MMem (List Blk)) ρ Unit) (P : Nat → List (Addr × Blk)) : Prop where
  thr : m.threads = s.threads.map absT
  next : m.next = s.next
  hist : m.hist = s.hist
  log : s.mem.log = m.mem.log
  uaf : s.mem.uaf = false
  own : ∀ i j a, a ∈ ad (P i) → a ∈ ad (P j) → i = j
  nodup : ∀ i, (ad (P i)).Nodup
  alloc : ∀ i a, a ∈ ad (P i) → s.mem.heap a ≠ none
  quiet : ∀ i, (∀ (t id : Nat) (c : Call ρ) (h : List Nat) (rest : List (Bytes × ProcS ρ)) (r : ρ) (x : Inner ρ),
    s.threads[t]? = some ⟨id, .body c h rest r x⟩ → workOn x ≠ some i) → Seg s.mem.heap (s.mem.heads i) (P i) none ∧ bl (P i) = m.mem.reg i
  thok : ∀ (t id : Nat) (c : Call ρ) (h : List Nat) (rest : List (Bytes × ProcS ρ)) (r : ρ) (x : Inner ρ),
    s.threads[t]? = some ⟨id, .body c h rest r x⟩ → InOk L.loc s.mem m.mem.reg P c.writable rest r x ∧
      (∀ i, workOn x = some i → c.writable = true ∧ L.slot i ∈ h)
  count : s.mem.count + (s.threads.map pendT).sum = tot nb m.mem.reg
  leak : ∀ a, s.mem.heap a ≠ none → ∃ i, a ∈ ad (P i)

/-- What the locks give. -/
structure LockOk (L : Locks ρ) (s : CState ρ) : Prop where
  excl : ∀ (i j : Nat) (th th' : Thread ρ (Inner ρ)) (k : Nat), s.threads[i]? = some th → s.threads[j]? = some th' → i ≠ j → k ∈ held th.pc →
    k ∈ held th'.pc → writer th.pc = false ∧ writer th'.pc = false
  cover : ∀ (t id : Nat) (c : Call ρ) (h : List Nat) (rest : List (Bytes × ProcS ρ)) (r : ρ) (x : Inner ρ),
    s.threads[t]? = some ⟨id, .body c h rest r x⟩ → ∀ kp ∈ rest, L.slot (L.loc kp.1) ∈ h

theorem sum_set_int (l : List Int) (i : Nat) (a b : Int) (h : l[i]? = some a) : (l.set i b).sum = l.sum - a + b := by
  induction l generalizing i with
  | nil => simp at h
  | cons x l ih =>
    cases i with
    | zero => simp at h; subst h; simp; omega
    | succ i =>
      simp at h
      have := ih i h
      simp only [List.set_cons_succ, List.sum_cons, this]; omega

/-- A thread changes one bucket, which it has locked. -/
theorem rel_write {L : Locks ρ} {nb : Nat} {s : CState ρ} {m m' : Sys (MMem (List Blk)) ρ Unit} {P : Nat → List (Addr × Blk)}
    (hR : Rel L nb s m P) (hL : LockOk L s) {t id : Nat} {c : Call ρ} {h : List Nat} {rest : List (Bytes × ProcS ρ)} {r : ρ} {x : Inner ρ}
    (hth : s.threads[t]? = some ⟨id, .body c h rest r x⟩) (hw : c.writable = true) {i : Nat} (hi : L.slot i ∈ h)
    (hx : workOn x = some i ∨ workOn x = none) {M2 : Mem} {rest' : List (Bytes × ProcS ρ)} {r' : ρ} {x' : Inner ρ} {Pi : List (Addr × Blk)}
    (huaf : M2.uaf = false) (hlog : M2.log = m'.mem.log) (hheads : ∀ j, j ≠ i → M2.heads j = s.mem.heads j)
    (hheap : ∀ a, a ∉ ad (P i) → s.mem.heap a ≠ none → M2.heap a = s.mem.heap a)
    (hPi : ∀ a, a ∈ ad Pi → M2.heap a ≠ none ∧ (a ∈ ad (P i) ∨ s.mem.heap a = none)) (hnd : (ad Pi).Nodup)
    (hreg : ∀ j, j ≠ i → m'.mem.reg j = m.mem.reg j)
    (hnew : InOk L.loc M2 m'.mem.reg (fun j => if j = i then Pi else P j) c.writable rest' r' x')
    (hq : workOn x' = some i ∨ (workOn x' = none ∧ Seg M2.heap (M2.heads i) Pi none ∧ bl Pi = m'.mem.reg i))
    (hcnt : M2.count + pend x' + tot nb m.mem.reg = s.mem.count + pend x + tot nb m'.mem.reg)
    (hthr : m'.threads = m.threads.set t ⟨id, .body c h rest' r' ()⟩) (hnext : m'.next = m.next) (hhist : m'.hist = m.hist)
    (hleak : ∀ a, M2.heap a ≠ none → a ∈ ad Pi ∨ (a ∉ ad (P i) ∧ s.mem.heap a ≠ none)) :
    Rel L nb { s with mem := M2, threads := s.threads.set t ⟨id, .body c h rest' r' x'⟩ } m' (fun j => if j = i then Pi else P j) := by
  have g := fun j => get_set (b := (⟨id, .body c h rest' r' x'⟩ : Thread ρ (Inner ρ))) hth j
  have heapj : ∀ j, j ≠ i → ∀ a ∈ ad (P j), M2.heap a = s.mem.heap a := by
    intro j hj a ha
    exact hheap a (fun ha' => hj (hR.own j i a ha ha')) (hR.alloc j a ha)
  have notI : ∀ (u id' : Nat) (c' : Call ρ) (h' : List Nat) (rs : List (Bytes × ProcS ρ)) (r'' : ρ) (y : Inner ρ), u ≠ t →
      s.threads[u]? = some ⟨id', .body c' h' rs r'' y⟩ → bucketOf L.loc rs y ≠ some i := by
    intro u id' c' h' rs r'' y hne hu hb
    have hs : L.slot i ∈ h' := by
      rcases bucketOf_cases hb with hwk | ⟨kp, hk, e⟩
      · exact ((hR.thok u _ _ _ _ _ _ hu).2 i hwk).2
      · have := hL.cover u _ _ _ _ _ _ hu kp hk
        rwa [e] at this
    have := (hL.excl u t _ _ (L.slot i) hu hth hne hs hi).2
    simp [writer, hw] at this
  have workI : ∀ (u id' : Nat) (c' : Call ρ) (h' : List Nat) (rs : List (Bytes × ProcS ρ)) (r'' : ρ) (y : Inner ρ), u ≠ t →
      s.threads[u]? = some ⟨id', .body c' h' rs r'' y⟩ → workOn y ≠ some i := by
    intro u id' c' h' rs r'' y hne hu hb
    exact notI u id' c' h' rs r'' y hne hu (bucketOf_work hb)
  refine ⟨?_, by rw [hnext]; exact hR.next, by rw [hhist]; exact hR.hist, hlog, huaf, ?_, ?_, ?_, ?_, ?_, ?_, ?_⟩
  · rw [hthr, hR.thr, List.map_set]; rfl
  · intro a b y ha hb
    by_cases ea : a = i
    · by_cases eb : b = i
      · rw [ea, eb]
      · rw [if_pos ea] at ha
        rw [if_neg eb] at hb
        rcases (hPi y ha).2 with h1 | h1
        · rw [ea]; exact hR.own _ _ y h1 hb
        · exact absurd h1 (hR.alloc b y hb)
    · rw [if_neg ea] at ha
      by_cases eb : b = i
      · rw [if_pos eb] at hb
        rcases (hPi y hb).2 with h1 | h1
        · rw [eb]; exact hR.own _ _ y ha h1
        · exact absurd h1 (hR.alloc a y ha)
      · rw [if_neg eb] at hb
        exact hR.own a b y ha hb
  · intro j
    by_cases ej : j = i
    · rw [if_pos ej]; exact hnd
    · rw [if_neg ej]; exact hR.nodup j
  · intro j a ha
    by_cases ej : j = i
    · rw [if_pos ej] at ha; exact (hPi a ha).1
    · rw [if_neg ej] at ha
      simp only
      rw [heapj j ej a ha]; exact hR.alloc j a ha
  · intro j hf
    by_cases ej : j = i
    · subst ej
      have := hf t id c h rest' r' x' (by simp only; rw [g, if_pos rfl])
      rcases hq with h1 | ⟨_, h1, h2⟩
      · exact absurd h1 this
      · simp only [if_true]; exact ⟨h1, h2⟩
    · simp only [if_neg ej]
      have := hR.quiet j (fun u id' c' h' rs r'' y hu => by
        by_cases hut : u = t
        · subst hut
          rw [hth] at hu
          simp at hu
          obtain ⟨_, _, _, _, _, rfl⟩ := hu
          rcases hx with h1 | h1
          · rw [h1]; intro e; injection e with e; exact ej e.symm
          · rw [h1]; simp
        · exact hf u id' c' h' rs r'' y (by simp only; rw [g, if_neg hut]; exact hu))
      refine ⟨?_, by rw [hreg j ej]; exact this.2⟩
      rw [hheads j ej]
      exact seg_congr this.1 (heapj j ej)
  · intro u id' c' h' rs r'' y hu
    simp only at hu
    rw [g] at hu
    split at hu
    · rename_i e
      simp at hu
      obtain ⟨_, rfl, rfl, rfl, rfl, rfl⟩ := hu
      refine ⟨hnew, fun j hj => ⟨hw, ?_⟩⟩
      rcases hq with h1 | ⟨h1, _⟩
      · rw [h1] at hj; injection hj with hj; rw [← hj]; exact hi
      · rw [h1] at hj; cases hj
    · rename_i hne
      have h0 := hR.thok u _ _ _ _ _ _ hu
      refine ⟨h0.1.frame fun j hj => ?_, h0.2⟩
      have ej : j ≠ i := by rintro rfl; exact notI u _ _ _ _ _ _ hne hu hj
      exact ⟨hheads j ej, by simp only [if_neg ej], hreg j ej, heapj j ej⟩
  · simp only
    rw [List.map_set, sum_set_int _ t (pend x) _ (by rw [List.getElem?_map, hth]; rfl)]
    have := hR.count
    simp only [pendT]
    omega
  · intro a ha
    rcases hleak a ha with h1 | ⟨h1, h2⟩
    · exact ⟨i, by simpa using h1⟩
    · obtain ⟨j, hj⟩ := hR.leak a h2
      have ej : j ≠ i := by rintro rfl; exact h1 hj
      exact ⟨j, by simpa [ej] using hj⟩

/-- A thread moves on, and changes at most the count. -/
theorem rel_move {L : Locks ρ} {nb : Nat} {s : CState ρ} {m m' : Sys (MMem (List Blk)) ρ Unit} {P : Nat → List (Addr × Blk)}
    (hR : Rel L nb s m P) {t : Nat} {th th' : Thread ρ (Inner ρ)} (hth : s.threads[t]? = some th)
    (hx : ∀ c h rest r x, th.pc = .body c h rest r x → workOn x = none)
    (hx' : ∀ c h rest r x, th'.pc = .body c h rest r x → workOn x = none ∧ InOk L.loc s.mem m.mem.reg P c.writable rest r x) {M2 : Mem}
    {next : Nat} {hist : List (HEv ρ)}
    (hheap : M2.heap = s.mem.heap) (hheads : M2.heads = s.mem.heads) (huaf : M2.uaf = s.mem.uaf) (hlog : M2.log = s.mem.log)
    (hreg : m'.mem.reg = m.mem.reg) (hlog' : m'.mem.log = m.mem.log)
    (hcnt : M2.count + pendT th' = s.mem.count + pendT th)
    (hthr : m'.threads = m.threads.set t (absT th')) (hnext : m'.next = next) (hhist : m'.hist = hist) :
    Rel L nb { mem := M2, threads := s.threads.set t th', next := next, hist := hist } m' P := by
  have g := fun j => get_set (b := th') hth j
  refine ⟨?_, hnext, hhist, by rw [hlog', hlog]; exact hR.log, by rw [huaf]; exact hR.uaf, hR.own, hR.nodup,
    by intro i a ha; simp only; rw [hheap]; exact hR.alloc i a ha, ?_, ?_, ?_,
    by intro a ha; simp only [hheap] at ha; exact hR.leak a ha⟩
  · rw [hthr, hR.thr, List.map_set]
  · intro i hf
    simp only [hheap, hheads, hreg]
    refine hR.quiet i fun u id' c' h' rs r'' y hu => ?_
    by_cases hut : u = t
    · subst hut
      rw [hth] at hu
      injection hu with hu
      rw [hx c' h' rs r'' y (by rw [hu])]; simp
    · exact hf u id' c' h' rs r'' y (by simp only; rw [g, if_neg hut]; exact hu)
  · intro u id' c' h' rs r'' y hu
    simp only at hu
    rw [g] at hu
    split at hu
    · injection hu with hu
      have := hx' c' h' rs r'' y (by rw [hu])
      refine ⟨this.2.frame fun j _ => ⟨by simp only [hheads], rfl, by rw [hreg], fun a _ => by simp only [hheap]⟩, fun i hi => ?_⟩
      rw [this.1] at hi; cases hi
    · have h0 := hR.thok u _ _ _ _ _ _ hu
      exact ⟨h0.1.frame fun j _ => ⟨by simp only [hheads], rfl, by rw [hreg], fun a _ => by simp only [hheap]⟩, h0.2⟩
  · simp only
    rw [List.map_set, sum_set_int _ t (pendT th) _ (by rw [List.getElem?_map, hth]; rfl), hreg]
    have := hR.count
    omega

end

end Verif.Tiny.Conc
