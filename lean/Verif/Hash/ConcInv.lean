import Verif.Hash.Conc
import Verif.Hash.Db
import Verif.Dbm.TwoPhaseSim
import Verif.Tiny.ConcProps
/-
What holds of the file while many threads are in the middle of `ProcessImpl` of HashDBM.
-/
namespace Verif.Hash.Conc
open Verif TwoPhase

variable {ρ : Type} {e : Env} {c : Cfg}

/-- The pool, which only the in-place mode uses. -/
def poolOf (c : Cfg) (fbp : List FB) : List FB := if c.inPlace then fbp else []

/-- The chains `P` of the buckets, and the block `X i` that an update of the bucket `i` holds outside of chains and pool. -/
structure Str (e : Env) (c : Cfg) (lay : Lay) (pl : List FB) (P : Nat → List (Nat × Rec)) (X : Nat → Option Nat) : Prop where
  base : Base c lay
  path : ∀ i, i < c.nb → Path c lay.recs (lay.buckets.getD i 0) (P i)
  home : ∀ i, i < c.nb → ∀ x ∈ P i, x.2.op ≠ .void ∧ e.hash x.2.key c.nb = i
  keys : c.inPlace = true → ∀ i, i < c.nb → ((P i).map (·.2.key)).Nodup
  noRem : c.inPlace = true → ∀ r ∈ lay.recs, r.op ≠ .remove
  pool : ∀ b ∈ pl, ∃ r, recAt c (recordBase c) lay.recs b.off = some r ∧ r.op = .void ∧ r.size c = b.size
  poolNodup : (pl.map (·.off)).Nodup
  xAt : ∀ i o, i < c.nb → X i = some o → ∃ r, recAt c (recordBase c) lay.recs o = some r
  xPool : ∀ i o, i < c.nb → X i = some o → o ∉ pl.map (·.off)
  xInj : ∀ i j o, i < c.nb → j < c.nb → X i = some o → X j = some o → i = j
  xChain : ∀ i j o, i < c.nb → j < c.nb → X i = some o → o ∉ (P j).map (·.1)
  cover : c.inPlace = true → ∀ o r, recAt c (recordBase c) lay.recs o = some r → r.op ≠ .void →
    (∃ i, i < c.nb ∧ o ∈ (P i).map (·.1)) ∨ ∃ i, i < c.nb ∧ X i = some o

theorem path_congr {rs rs' : List Rec} {o : Nat} {p : List (Nat × Rec)} (h : Path c rs o p)
    (hs : ∀ x ∈ p, recAt c (recordBase c) rs' x.1 = some x.2) : Path c rs' o p := by
  induction p generalizing o with
  | nil => exact h
  | cons x p ih =>
    obtain ⟨o', r⟩ := x
    exact ⟨h.1, h.1 ▸ hs (o', r) (by simp), ih h.2.2 fun y hy => hs y (by simp [hy])⟩

theorem Str.disj {lay : Lay} {pl P X} (h : Str e c lay pl P X) {i j : Nat} (hi : i < c.nb) (hj : j < c.nb) (hne : j ≠ i) {o : Nat}
    (h1 : o ∈ (P i).map (·.1)) (h2 : o ∈ (P j).map (·.1)) : False := by
  obtain ⟨x, hx, rfl⟩ := List.mem_map.1 h1
  obtain ⟨y, hy, ey⟩ := List.mem_map.1 h2
  have a1 := (h.path i hi).at x hx
  have a2 := (h.path j hj).at y hy
  rw [ey, a1] at a2
  injection a2 with a2
  exact hne (by rw [← (h.home i hi x hx).2, ← (h.home j hj y hy).2, a2])

/-- What a step on behalf of the bucket `i` leaves alone. -/
structure Frame (e : Env) (c : Cfg) (lay lay' : Lay) (P : Nat → List (Nat × Rec)) (X : Nat → Option Nat) (i : Nat) : Prop where
  bkt : ∀ j, j ≠ i → lay'.buckets.getD j 0 = lay.buckets.getD j 0
  keep : ∀ o r, recAt c (recordBase c) lay.recs o = some r → o ∉ (P i).map (·.1) → X i ≠ some o → recAt c (recordBase c) lay'.recs o = some r
  cont : c.inPlace = false → ∀ k, e.hash k c.nb ≠ i → contents lay'.recs k = contents lay.recs k
  bnd : ∀ a b, lay.recs = a ++ b → ∃ a' b', lay'.recs = a' ++ b' ∧ totalSize c a' = totalSize c a

theorem Frame.refl (lay : Lay) (P X) (i : Nat) : Frame e c lay lay P X i := ⟨fun _ _ => rfl, fun _ _ h _ _ => h, fun _ _ _ => rfl, fun a b h => ⟨a, b, h, rfl⟩⟩

theorem Str.keepP {lay lay' : Lay} {pl P X i} (h : Str e c lay pl P X) (hf : Frame e c lay lay' P X i) (hi : i < c.nb) {j : Nat} (hj : j < c.nb)
    (hne : j ≠ i) : ∀ x ∈ P j, recAt c (recordBase c) lay'.recs x.1 = some x.2 := by
  intro x hx
  have hx' : x.1 ∈ (P j).map (·.1) := List.mem_map.2 ⟨x, hx, rfl⟩
  exact hf.keep _ _ ((h.path j hj).at x hx) (fun h1 => h.disj hi hj hne h1 hx') (fun h1 => h.xChain i j _ hi hj h1 hx')

theorem Str.keepX {lay lay' : Lay} {pl P X i} (h : Str e c lay pl P X) (hf : Frame e c lay lay' P X i) (hi : i < c.nb) {j : Nat} (hj : j < c.nb)
    (hne : j ≠ i) {o : Nat} (ho : X j = some o) {r : Rec} (hr : recAt c (recordBase c) lay.recs o = some r) :
    recAt c (recordBase c) lay'.recs o = some r :=
  hf.keep _ _ hr (h.xChain j i o hj hi ho) (fun h1 => hne (h.xInj j i o hj hi ho h1))

/-- The structure after a step on behalf of the bucket `i`. -/
theorem Str.write {lay lay' : Lay} {pl pl' P X} {P' : Nat → List (Nat × Rec)} {X' : Nat → Option Nat} {i : Nat} (h : Str e c lay pl P X)
    (hf : Frame e c lay lay' P X i) (hi : i < c.nb) (hP : ∀ j, j ≠ i → P' j = P j) (hX : ∀ j, j ≠ i → X' j = X j)
    (hb : Base c lay') (hpath : Path c lay'.recs (lay'.buckets.getD i 0) (P' i))
    (hhome : ∀ x ∈ P' i, x.2.op ≠ .void ∧ e.hash x.2.key c.nb = i)
    (hkeys : c.inPlace = true → ((P' i).map (·.2.key)).Nodup)
    (hnr : c.inPlace = true → ∀ r ∈ lay'.recs, r.op ≠ .remove)
    (hpl : ∀ b ∈ pl', b ∈ pl ∨ (X i = some b.off ∧ ∃ r, recAt c (recordBase c) lay'.recs b.off = some r ∧ r.op = .void ∧ r.size c = b.size))
    (hpn : (pl'.map (·.off)).Nodup)
    (hXi : ∀ o, X' i = some o → (recAt c (recordBase c) lay.recs o = none ∨ X i = some o ∨ o ∈ (P i).map (·.1) ∨ o ∈ pl.map (·.off)) ∧
      (∃ r, recAt c (recordBase c) lay'.recs o = some r) ∧ o ∉ (P' i).map (·.1) ∧ o ∉ pl'.map (·.off))
    (hPi : ∀ o, o ∈ (P' i).map (·.1) → o ∈ (P i).map (·.1) ∨ X i = some o)
    (hcov : c.inPlace = true → ∀ o r, recAt c (recordBase c) lay'.recs o = some r → r.op ≠ .void →
      o ∈ (P' i).map (·.1) ∨ X' i = some o ∨ (recAt c (recordBase c) lay.recs o = some r ∧ o ∉ (P i).map (·.1) ∧ X i ≠ some o)) :
    Str e c lay' pl' P' X' where
  base := hb
  path := by
    intro j hj
    by_cases ej : j = i
    · rw [ej]; exact hpath
    · rw [hP j ej, hf.bkt j ej]; exact path_congr (h.path j hj) (h.keepP hf hi hj ej)
  home := by
    intro j hj
    by_cases ej : j = i
    · rw [ej]; exact hhome
    · rw [hP j ej]; exact h.home j hj
  keys := by
    intro hm j hj
    by_cases ej : j = i
    · rw [ej]; exact hkeys hm
    · rw [hP j ej]; exact h.keys hm j hj
  noRem := hnr
  pool := by
    intro b hb'
    rcases hpl b hb' with h1 | ⟨_, h1⟩
    · obtain ⟨r, hr, hv, hs⟩ := h.pool b h1
      refine ⟨r, hf.keep _ _ hr ?_ ?_, hv, hs⟩
      · intro h2
        obtain ⟨x, hx, ex⟩ := List.mem_map.1 h2
        have := (h.path i hi).at x hx
        rw [ex, hr] at this
        injection this with this
        exact (h.home i hi x hx).1 (this ▸ hv)
      · intro h2; exact h.xPool i _ hi h2 (List.mem_map.2 ⟨b, h1, rfl⟩)
    · exact h1
  poolNodup := hpn
  xAt := by
    intro j o hj ho
    by_cases ej : j = i
    · rw [ej] at ho; exact (hXi o ho).2.1
    · rw [hX j ej] at ho
      obtain ⟨r, hr⟩ := h.xAt j o hj ho
      exact ⟨r, h.keepX hf hi hj ej ho hr⟩
  xPool := by
    intro j o hj ho hm
    by_cases ej : j = i
    · rw [ej] at ho; exact (hXi o ho).2.2.2 hm
    · rw [hX j ej] at ho
      obtain ⟨b, hb1, hb2⟩ := List.mem_map.1 hm
      rcases hpl b hb1 with h1 | ⟨h1, _⟩
      · exact h.xPool j o hj ho (List.mem_map.2 ⟨b, h1, hb2⟩)
      · rw [hb2] at h1; exact ej (h.xInj j i o hj hi ho h1)
  xInj := by
    have main : ∀ j o, j < c.nb → j ≠ i → X' i = some o → X j = some o → False := by
      intro j o hj ej h1 h2
      rcases (hXi o h1).1 with h3 | h3 | h3 | h3
      · obtain ⟨r, hr⟩ := h.xAt j o hj h2; rw [h3] at hr; cases hr
      · exact ej (h.xInj j i o hj hi h2 h3)
      · exact h.xChain j i o hj hi h2 h3
      · exact h.xPool j o hj h2 h3
    intro j j' o hj hj' h1 h2
    by_cases ej : j = i
    · by_cases ej' : j' = i
      · rw [ej, ej']
      · rw [hX j' ej'] at h2; rw [ej] at h1; exact (main j' o hj' ej' h1 h2).elim
    · rw [hX j ej] at h1
      by_cases ej' : j' = i
      · rw [ej'] at h2; exact (main j o hj ej h2 h1).elim
      · rw [hX j' ej'] at h2; exact h.xInj j j' o hj hj' h1 h2
  xChain := by
    intro j j' o hj hj' h1 h2
    by_cases ej : j = i
    · rw [ej] at h1
      by_cases ej' : j' = i
      · rw [ej'] at h2; exact (hXi o h1).2.2.1 h2
      · rw [hP j' ej'] at h2
        obtain ⟨x, hx, ex⟩ := List.mem_map.1 h2
        have hx' := (h.path j' hj').at x hx
        rw [ex] at hx'
        rcases (hXi o h1).1 with h3 | h3 | h3 | h3
        · rw [h3] at hx'; cases hx'
        · exact h.xChain i j' o hi hj' h3 h2
        · exact h.disj hi hj' ej' h3 h2
        · obtain ⟨b, hb1, hb2⟩ := List.mem_map.1 h3
          obtain ⟨r, hr, hv, _⟩ := h.pool b hb1
          rw [hb2, hx'] at hr
          injection hr with hr
          exact (h.home j' hj' x hx).1 (hr ▸ hv)
    · rw [hX j ej] at h1
      by_cases ej' : j' = i
      · rw [ej'] at h2
        rcases hPi o h2 with h3 | h3
        · exact h.xChain j i o hj hi h1 h3
        · exact ej (h.xInj j i o hj hi h1 h3)
      · rw [hP j' ej'] at h2; exact h.xChain j j' o hj hj' h1 h2
  cover := by
    intro hm o r hr hv
    rcases hcov hm o r hr hv with h1 | h1 | ⟨h1, h2, h3⟩
    · exact .inl ⟨i, hi, h1⟩
    · exact .inr ⟨i, hi, h1⟩
    · rcases h.cover hm o r h1 hv with ⟨j, hj, h4⟩ | ⟨j, hj, h4⟩
      · have ej : j ≠ i := by intro e; rw [e] at h4; exact h2 h4
        exact .inl ⟨j, hj, by rw [hP j ej]; exact h4⟩
      · have ej : j ≠ i := by intro e; rw [e] at h4; exact h3 h4
        exact .inr ⟨j, hj, by rw [hX j ej]; exact h4⟩

/-! ### Where the threads are -/

/-- The values of a chain are those of the bucket's part of the dictionary. -/
def FV (e : Env) (c : Cfg) (reg : Nat → Dict) (i : Nat) (p : List (Nat × Rec)) : Prop := ∀ k, e.hash k c.nb = i → firstVal p k = reg i k

/-- The records of a file in the appending mode, read from the first to the last, give these values to the keys of a bucket. -/
def Cont (e : Env) (c : Cfg) (lay : Lay) (i : Nat) (d : Dict) : Prop :=
  c.inPlace = false → ∀ k, e.hash k c.nb = i → contents lay.recs k = d k

/-- A new record `nr` is going to be put into the chain of the bucket `i` between `a` and `b`, in place of `cut`. -/
structure Relo (e : Env) (c : Cfg) (lay : Lay) (P : Nat → List (Nat × Rec)) (reg : Nat → Dict) (i parent : Nat) (nr : Rec) (old : Old)
    (a cut b : List (Nat × Rec)) : Prop where
  split : P i = a ++ (cut ++ b)
  par : parent = lastOff a 0
  path : Path c lay.recs nr.child b
  op : nr.op ≠ .void
  home : e.hash nr.key c.nb = i
  ip : c.inPlace = true → nr.op ≠ .remove ∧ ∀ x ∈ a ++ b, x.2.key ≠ nr.key
  fv : FV e c reg i (a ++ (0, nr) :: b)
  old : (old = none ∧ (c.inPlace = true → cut = [])) ∨ (∃ cur r0, old = some (cur, r0.size c) ∧ cut = [(cur, r0)] ∧ c.inPlace = true)
  ap : c.inPlace = false → a = []
  cutk : ∀ x ∈ cut, x.2.key = nr.key

/-- The bucket that a thread is changing. -/
def workOn : Inner ρ → Option Nat
  | .over i .. | .unlink i .. | .alloc i .. | .wnew i .. | .app i .. | .lnk i .. | .void i .. | .pool i .. => some i
  | _ => none

/-- What is still to be added to the counters. -/
def pn : Inner ρ → Int
  | .over _ _ _ acc | .unlink _ _ _ _ _ acc | .alloc _ _ _ _ _ _ _ _ acc | .wnew _ _ _ _ _ acc | .app _ _ _ _ acc | .lnk _ _ _ _ acc
  | .void _ _ _ acc | .pool _ _ _ acc | .num acc => acc.1
  | _ => 0

def pe : Inner ρ → Int
  | .over _ _ _ acc | .unlink _ _ _ _ _ acc | .alloc _ _ _ _ _ _ _ _ acc | .wnew _ _ _ _ _ acc | .app _ _ _ _ acc | .lnk _ _ _ _ acc
  | .void _ _ _ acc | .pool _ _ _ acc | .num acc => acc.2
  | .eff de => de
  | _ => 0

/-- What is known of a thread at each place. -/
def InOk (e : Env) (c : Cfg) (lay : Lay) (P : Nat → List (Nat × Rec)) (X : Nat → Option Nat) (reg : Nat → Dict) (w : Bool)
    (rest : List (Bytes × ProcS ρ)) (r : ρ) : Inner ρ → Prop
  | .enter | .num _ | .eff _ => True
  | .at top parent cur => ∃ k p rest', rest = (k, p) :: rest' ∧ top = lay.buckets.getD (e.hash k c.nb) 0 ∧
      ∃ a b, P (e.hash k c.nb) = a ++ b ∧ parent = lastOff a 0 ∧ Path c lay.recs cur b ∧ ∀ x ∈ a, x.2.key ≠ k
  | .log act (.hit top parent cur old) r' => w = true ∧ act ≠ .noop ∧ ∃ k p rest', rest = (k, p) :: rest' ∧
      top = lay.buckets.getD (e.hash k c.nb) 0 ∧ ∃ a rc b, P (e.hash k c.nb) = a ++ (cur, rc) :: b ∧ parent = lastOff a 0 ∧ old = recR c rc ∧
        rc.key = k ∧ (∀ x ∈ a, x.2.key ≠ k) ∧ p r (if rc.op.isSet then some rc.value else none) = (act, r')
  | .log act (.miss top) r' => w = true ∧ ∃ v, act = .set v ∧ ∃ k p rest', rest = (k, p) :: rest' ∧
      top = lay.buckets.getD (e.hash k c.nb) 0 ∧ (∀ x ∈ P (e.hash k c.nb), x.2.key ≠ k) ∧ p r none = (act, r')
  | .over i off nr _ => c.inPlace = true ∧ X i = none ∧ GoodRec c nr ∧ nr.op ≠ .void ∧ nr.op ≠ .remove ∧ ∃ a r0 b, P i = a ++ (off, r0) :: b ∧
      nr.size c = r0.size c ∧ nr.child = r0.child ∧ nr.key = r0.key ∧ FV e c reg i (a ++ (off, nr) :: b)
  | .unlink i parent child cur size _ => c.inPlace = true ∧ X i = none ∧ ∃ a r0 b, P i = a ++ (cur, r0) :: b ∧ parent = lastOff a 0 ∧
      child = r0.child ∧ size = r0.size c ∧ FV e c reg i (a ++ b)
  | .alloc i parent op opFb k v child old _ => X i = none ∧ fits c k v ∧ opFb.isSet = op.isSet ∧ opFb ≠ .void ∧
      (c.inPlace = true → opFb ≠ .remove) ∧ Cont e c lay i (firstVal (P i)) ∧ ∃ a cut b, Relo e c lay P reg i parent (setData c op 0 k v child) old a cut b
  | .wnew i parent off nr old _ => c.inPlace = true ∧ X i = some off ∧ GoodRec c nr ∧
      (∃ rv, recAt c (recordBase c) lay.recs off = some rv ∧ rv.op = .void ∧ nr.size c = rv.size c) ∧
      ∃ a cut b, Relo e c lay P reg i parent nr old a cut b
  | .app i parent nr old _ => X i = none ∧ GoodRec c nr ∧ Cont e c lay i (firstVal (P i)) ∧ ∃ a cut b, Relo e c lay P reg i parent nr old a cut b
  | .lnk i parent new old _ => X i = some new ∧ ∃ nr, recAt c (recordBase c) lay.recs new = some nr ∧ Cont e c lay i (reg i) ∧
      ∃ a cut b, Relo e c lay P reg i parent nr old a cut b
  | .void i cur size _ => c.inPlace = true ∧ X i = some cur ∧ FV e c reg i (P i) ∧
      ∃ r0, recAt c (recordBase c) lay.recs cur = some r0 ∧ size = r0.size c
  | .pool i cur size _ => c.inPlace = true ∧ X i = some cur ∧ FV e c reg i (P i) ∧
      ∃ r0, recAt c (recordBase c) lay.recs cur = some r0 ∧ r0.op = .void ∧ size = r0.size c

/-- The bucket that a thread looks at. -/
def bucketOf (e : Env) (c : Cfg) (rest : List (Bytes × ProcS ρ)) : Inner ρ → Option Nat
  | .at .. | .log .. => rest.head?.map fun kp => e.hash kp.1 c.nb
  | x => workOn x

theorem bucketOf_work {rest : List (Bytes × ProcS ρ)} {x : Inner ρ} {i : Nat} (h : workOn x = some i) : bucketOf e c rest x = some i := by
  cases x <;> first | exact h | cases h

theorem bucketOf_cases {rest : List (Bytes × ProcS ρ)} {x : Inner ρ} {i : Nat} (h : bucketOf e c rest x = some i) :
    workOn x = some i ∨ ∃ kp ∈ rest, e.hash kp.1 c.nb = i := by
  cases x with
  | «at» => cases rest with
    | nil => cases h
    | cons y l => exact .inr ⟨y, by simp, by simpa [bucketOf] using h⟩
  | log => cases rest with
    | nil => cases h
    | cons y l => exact .inr ⟨y, by simp, by simpa [bucketOf] using h⟩
  | _ => exact .inl h

/-- The same chain, block and values in another file. -/
structure SameAt (e : Env) (c : Cfg) (lay lay' : Lay) (P P' : Nat → List (Nat × Rec)) (X X' : Nat → Option Nat) (reg reg' : Nat → Dict) (i : Nat) :
    Prop where
  bkt : lay'.buckets.getD i 0 = lay.buckets.getD i 0
  pth : P' i = P i
  blk : X' i = X i
  val : reg' i = reg i
  chain : ∀ x ∈ P i, recAt c (recordBase c) lay'.recs x.1 = some x.2
  block : ∀ o r, X i = some o → recAt c (recordBase c) lay.recs o = some r → recAt c (recordBase c) lay'.recs o = some r
  cont : c.inPlace = false → ∀ k, e.hash k c.nb = i → contents lay'.recs k = contents lay.recs k

variable {lay lay' : Lay} {P P' : Nat → List (Nat × Rec)} {X X' : Nat → Option Nat} {reg reg' : Nat → Dict}

theorem SameAt.fv {i : Nat} (h : SameAt e c lay lay' P P' X X' reg reg' i) {p : List (Nat × Rec)} (hp : FV e c reg i p) : FV e c reg' i p := by
  intro k hk; rw [h.val]; exact hp k hk

theorem SameAt.contP {i : Nat} (h : SameAt e c lay lay' P P' X X' reg reg' i) {d : Dict} (hp : Cont e c lay i d) : Cont e c lay' i d := by
  intro hm k hk; rw [h.cont hm k hk]; exact hp hm k hk

theorem SameAt.relo {i parent : Nat} {nr : Rec} {old : Old} {a cut b} (h : SameAt e c lay lay' P P' X X' reg reg' i)
    (hr : Relo e c lay P reg i parent nr old a cut b) : Relo e c lay' P' reg' i parent nr old a cut b where
  split := by rw [h.pth]; exact hr.split
  par := hr.par
  path := path_congr hr.path fun x hx => h.chain x (by rw [hr.split]; simp [hx])
  op := hr.op
  home := hr.home
  ip := hr.ip
  fv := h.fv hr.fv
  old := hr.old
  ap := hr.ap
  cutk := hr.cutk

theorem InOk.frame {w : Bool} {rest : List (Bytes × ProcS ρ)} {r : ρ} {x : Inner ρ} (h : InOk e c lay P X reg w rest r x)
    (hs : ∀ i, bucketOf e c rest x = some i → SameAt e c lay lay' P P' X X' reg reg' i) : InOk e c lay' P' X' reg' w rest r x := by
  cases x with
  | enter => trivial
  | num => trivial
  | eff => trivial
  | «at» top parent cur =>
    obtain ⟨k, p, rest', rfl, h1, a, b, h2, h3, h4, h5⟩ := h
    have s := hs (e.hash k c.nb) rfl
    exact ⟨k, p, rest', rfl, by rw [h1, s.bkt], a, b, by rw [s.pth, h2], h3,
      path_congr h4 fun x hx => s.chain x (by rw [h2]; simp [hx]), h5⟩
  | log act pos r' =>
    cases pos with
    | hit top parent cur old =>
      obtain ⟨h0, h0', k, p, rest', rfl, h1, a, rc, b, h2, h3⟩ := h
      have s := hs (e.hash k c.nb) rfl
      exact ⟨h0, h0', k, p, rest', rfl, by rw [h1, s.bkt], a, rc, b, by rw [s.pth, h2], h3⟩
    | miss top =>
      obtain ⟨h0, v, h0', k, p, rest', rfl, h1, h2, h3⟩ := h
      have s := hs (e.hash k c.nb) rfl
      exact ⟨h0, v, h0', k, p, rest', rfl, by rw [h1, s.bkt], by rw [s.pth]; exact h2, h3⟩
  | over i off nr acc =>
    have s := hs i rfl
    obtain ⟨h1, h2, h3, h4, h5, a, r0, b, h6, h7, h8, h9, h10⟩ := h
    exact ⟨h1, by rw [s.blk, h2], h3, h4, h5, a, r0, b, by rw [s.pth, h6], h7, h8, h9, s.fv h10⟩
  | unlink i parent child cur size acc =>
    have s := hs i rfl
    obtain ⟨h1, h2, a, r0, b, h6, h7, h8, h9, h10⟩ := h
    exact ⟨h1, by rw [s.blk, h2], a, r0, b, by rw [s.pth, h6], h7, h8, h9, s.fv h10⟩
  | alloc i parent op opFb k v child old acc =>
    have s := hs i rfl
    obtain ⟨h1, h2, h3, h4, h5, h6, a, cut, b, h7⟩ := h
    exact ⟨by rw [s.blk, h1], h2, h3, h4, h5, by rw [s.pth]; exact s.contP h6, a, cut, b, s.relo h7⟩
  | wnew i parent off nr old acc =>
    have s := hs i rfl
    obtain ⟨h1, h2, h3, ⟨rv, h4, h5⟩, a, cut, b, h7⟩ := h
    exact ⟨h1, by rw [s.blk, h2], h3, ⟨rv, s.block _ _ h2 h4, h5⟩, a, cut, b, s.relo h7⟩
  | app i parent nr old acc =>
    have s := hs i rfl
    obtain ⟨h1, h2, h3, a, cut, b, h7⟩ := h
    exact ⟨by rw [s.blk, h1], h2, by rw [s.pth]; exact s.contP h3, a, cut, b, s.relo h7⟩
  | lnk i parent new old acc =>
    have s := hs i rfl
    obtain ⟨h1, nr, h2, h3, a, cut, b, h7⟩ := h
    exact ⟨by rw [s.blk, h1], nr, s.block _ _ h1 h2, by rw [s.val]; exact s.contP h3, a, cut, b, s.relo h7⟩
  | void i cur size acc =>
    have s := hs i rfl
    obtain ⟨h1, h2, h3, r0, h4, h5⟩ := h
    exact ⟨h1, by rw [s.blk, h2], by rw [s.pth]; exact s.fv h3, r0, s.block _ _ h2 h4, h5⟩
  | pool i cur size acc =>
    have s := hs i rfl
    obtain ⟨h1, h2, h3, r0, h4, h5⟩ := h
    exact ⟨h1, by rw [s.blk, h2], by rw [s.pth]; exact s.fv h3, r0, s.block _ _ h2 h4, h5⟩

/-! ### The relation -/

def workT (th : Thread ρ (Inner ρ)) : Option Nat :=
  match th.pc with
  | .body _ _ _ _ x => workOn x
  | _ => none

def pnT (th : Thread ρ (Inner ρ)) : Int :=
  match th.pc with
  | .body _ _ _ _ x => pn x
  | _ => 0

def peT (th : Thread ρ (Inner ρ)) : Int :=
  match th.pc with
  | .body _ _ _ _ x => pe x
  | _ => 0

/-- The dictionary of the parts. -/
def glob (e : Env) (c : Cfg) (reg : Nat → Dict) : Dict := fun k => reg (e.hash k c.nb) k

/-- The file and the members of the database stand for the parts of the dictionary, for these chains and blocks. -/
structure KK (L : Locks ρ) (e : Env) (c : Cfg) (pre mid : Bytes) (log0 : List LogOp) (D0 : Dict) (b0 : Nat) (m : CMem) (reg : Nat → Dict)
    (ts : List (Thread ρ (Inner ρ))) (lay : Lay) (P : Nat → List (Nat × Rec)) (X : Nat → Option Nat) : Prop where
  bad : m.bad = false
  bnd : ∃ a b, lay.recs = a ++ b ∧ totalSize c a = b0
  file : m.file = render e c pre mid lay
  log : ∃ l, m.log = log0 ++ l ∧ D0.replay l = glob e c reg
  str : Str e c lay (poolOf c m.fbp) P X
  quiet : ∀ i, i < c.nb → (∀ th ∈ ts, workT th ≠ some i) → X i = none ∧ FV e c reg i (P i) ∧ Cont e c lay i (reg i)
  thok : ∀ (t id : Nat) (cl : Call ρ) (h : List Nat) (rest : List (Bytes × ProcS ρ)) (r : ρ) (x : Inner ρ),
    ts[t]? = some ⟨id, .body cl h rest r x⟩ → InOk e c lay P X reg cl.writable rest r x ∧
      ∀ i, workOn x = some i → i < c.nb ∧ cl.writable = true ∧ L.slot i ∈ h
  count : (glob e c reg).Counted (m.num + (ts.map pnT).sum) (m.eff + (ts.map peT).sum)

section
variable {L : Locks ρ} {pre mid : Bytes} {log0 : List LogOp} {D0 : Dict} {b0 : Nat} {m m' : CMem} {ts : List (Thread ρ (Inner ρ))}

/-- Where a thread stands that holds the lock of a bucket, no other thread works on it. -/
theorem KK.others (hK : KK L e c pre mid log0 D0 b0 m reg ts lay P X) (hL : LockOk L ts) (hloc : ∀ k, L.loc k = e.hash k c.nb) {t id : Nat} {cl : Call ρ}
    {h : List Nat} {rest : List (Bytes × ProcS ρ)} {r : ρ} {x : Inner ρ} (hth : ts[t]? = some ⟨id, .body cl h rest r x⟩) {i : Nat}
    (hi : L.slot i ∈ h) {u : Nat} {th : Thread ρ (Inner ρ)} (hu : ts[u]? = some th) (hne : u ≠ t) : workT th ≠ some i := by
  intro hw
  obtain ⟨id', pc⟩ := th
  cases pc with
  | body c' h' rs r'' y =>
    have := (hK.thok u _ _ _ _ _ _ hu).2 i hw
    have z := (hL.excl u t _ _ (L.slot i) hu hth hne this.2.2 hi).1
    simp [writer, this.2.1] at z
  | _ => cases hw

theorem KK.notBucket (hK : KK L e c pre mid log0 D0 b0 m reg ts lay P X) (hL : LockOk L ts) (hloc : ∀ k, L.loc k = e.hash k c.nb) {t id : Nat} {cl : Call ρ}
    {h : List Nat} {rest : List (Bytes × ProcS ρ)} {r : ρ} {x : Inner ρ} (hth : ts[t]? = some ⟨id, .body cl h rest r x⟩) {i : Nat}
    (hi : L.slot i ∈ h) (hw : cl.writable = true) {u id' : Nat} {cl' : Call ρ} {h' : List Nat} {rs : List (Bytes × ProcS ρ)} {r' : ρ} {y : Inner ρ}
    (hu : ts[u]? = some ⟨id', .body cl' h' rs r' y⟩) (hne : u ≠ t) : bucketOf e c rs y ≠ some i := by
  intro hb
  have hs : L.slot i ∈ h' := by
    rcases bucketOf_cases hb with hwk | ⟨kp, hk, e1⟩
    · exact ((hK.thok u _ _ _ _ _ _ hu).2 i hwk).2.2
    · have := hL.cover u _ _ _ _ _ _ hu kp hk
      rwa [hloc, e1] at this
  have := (hL.excl u t _ _ (L.slot i) hu hth hne hs hi).2
  simp [writer, hw] at this

theorem bucketOf_lt (hK : KK L e c pre mid log0 D0 b0 m reg ts lay P X) (hr : ∀ k, e.hash k c.nb < c.nb) {u id' : Nat} {cl' : Call ρ}
    {h' : List Nat} {rs : List (Bytes × ProcS ρ)} {r' : ρ} {y : Inner ρ} (hu : ts[u]? = some ⟨id', .body cl' h' rs r' y⟩) {i : Nat}
    (hb : bucketOf e c rs y = some i) : i < c.nb := by
  rcases bucketOf_cases hb with hwk | ⟨kp, hk, e1⟩
  · exact ((hK.thok u _ _ _ _ _ _ hu).2 i hwk).1
  · rw [← e1]; exact hr _

/-- A step of a thread on behalf of the bucket whose lock it holds exclusively. -/
theorem KK.write (hK : KK L e c pre mid log0 D0 b0 m reg ts lay P X) (hL : LockOk L ts) (hloc : ∀ k, L.loc k = e.hash k c.nb)
    (hr : ∀ k, e.hash k c.nb < c.nb) {t id : Nat} {cl : Call ρ}
    {h : List Nat} {rest rest' : List (Bytes × ProcS ρ)} {r r' : ρ} {x x' : Inner ρ} (hth : ts[t]? = some ⟨id, .body cl h rest r x⟩) {i : Nat}
    (hi : i < c.nb) (hs : L.slot i ∈ h) (hw : cl.writable = true) (hx : workOn x = some i ∨ workOn x = none)
    (hbad : m'.bad = false) (hfile : m'.file = render e c pre mid lay')
    (hlog : ∀ l, m.log = log0 ++ l → D0.replay l = glob e c reg → ∃ l', m'.log = log0 ++ l' ∧ D0.replay l' = glob e c reg')
    (hF : Frame e c lay lay' P X i) (hstr : Str e c lay' (poolOf c m'.fbp) P' X') (hP : ∀ j, j ≠ i → P' j = P j) (hX : ∀ j, j ≠ i → X' j = X j)
    (hreg : ∀ j, j ≠ i → reg' j = reg j) (hnew : InOk e c lay' P' X' reg' cl.writable rest' r' x')
    (hq : workOn x' = some i ∨ (workOn x' = none ∧ X' i = none ∧ FV e c reg' i (P' i) ∧ Cont e c lay' i (reg' i)))
    (hcnt : ∀ a b : Int, (glob e c reg).Counted (m.num + (pn x + a)) (m.eff + (pe x + b)) →
      (glob e c reg').Counted (m'.num + (pn x' + a)) (m'.eff + (pe x' + b))) :
    KK L e c pre mid log0 D0 b0 m' reg' (ts.set t ⟨id, .body cl h rest' r' x'⟩) lay' P' X' where
  bad := hbad
  bnd := by obtain ⟨a, b, h1, h2⟩ := hK.bnd; obtain ⟨a', b', h3, h4⟩ := hF.bnd a b h1; exact ⟨a', b', h3, h4.trans h2⟩
  file := hfile
  log := by obtain ⟨l, h1, h2⟩ := hK.log; exact hlog l h1 h2
  str := hstr
  quiet := by
    intro j hj hf
    have ht : t < ts.length := by
      rcases Nat.lt_or_ge t ts.length with h | h
      · exact h
      · rw [List.getElem?_eq_none h] at hth; cases hth
    by_cases ej : j = i
    · subst ej
      have := hf _ (List.mem_of_getElem? (List.getElem?_set_self ht))
      rcases hq with h1 | ⟨_, h1⟩
      · exact absurd h1 this
      · exact h1
    · have q := hK.quiet j hj (by
        intro th hm
        obtain ⟨u, hu⟩ := List.getElem?_of_mem hm
        by_cases hut : u = t
        · subst hut
          rw [hth] at hu
          injection hu with hu
          subst hu
          show workOn x ≠ some j
          rcases hx with h1 | h1
          · rw [h1]; intro e1; injection e1 with e1; exact ej e1.symm
          · rw [h1]; simp
        · exact hf th (List.mem_of_getElem? (i := u) (by rw [get_set hth, if_neg hut]; exact hu)))
      rw [hX j ej, hP j ej]
      refine ⟨q.1, ?_, ?_⟩
      · intro k hk; rw [hreg j ej]; exact q.2.1 k hk
      · intro hm k hk; rw [hreg j ej, hF.cont hm k (by rw [hk]; exact ej)]; exact q.2.2 hm k hk
  thok := by
    intro u id' cl' h' rs r'' y hu
    rw [get_set hth] at hu
    split at hu
    · injection hu with hu
      injection hu with e1 e2
      injection e2 with e2 e3 e4 e5 e6
      subst e2; subst e3; subst e4; subst e5; subst e6
      refine ⟨hnew, fun j hj => ?_⟩
      rcases hq with h1 | ⟨h1, _⟩
      · rw [h1] at hj; injection hj with hj; rw [← hj]; exact ⟨hi, hw, hs⟩
      · rw [h1] at hj; cases hj
    · rename_i hne
      have h0 := hK.thok u _ _ _ _ _ _ hu
      refine ⟨h0.1.frame fun j hj => ?_, h0.2⟩
      have ej : j ≠ i := by intro e1; rw [e1] at hj; exact hK.notBucket hL hloc hth hs hw hu hne hj
      have hjn := bucketOf_lt hK hr hu hj
      exact ⟨hF.bkt j ej, hP j ej, hX j ej, hreg j ej, hK.str.keepP hF hi hjn ej, fun o r ho hr => hK.str.keepX hF hi hjn ej ho hr,
        fun hm k hk => hF.cont hm k (by rw [hk]; exact ej)⟩
  count := by
    rw [List.map_set, List.map_set, Tiny.Conc.sum_set_int _ t (pn x) _ (by rw [List.getElem?_map, hth]; rfl),
      Tiny.Conc.sum_set_int _ t (pe x) _ (by rw [List.getElem?_map, hth]; rfl)]
    have := hcnt ((ts.map pnT).sum - pn x) ((ts.map peT).sum - pe x) (by
      have h1 := hK.count
      rwa [show m.num + (pn x + ((ts.map pnT).sum - pn x)) = m.num + (ts.map pnT).sum by omega,
        show m.eff + (pe x + ((ts.map peT).sum - pe x)) = m.eff + (ts.map peT).sum by omega])
    have e1 : m'.num + ((ts.map pnT).sum - pn x + pnT ⟨id, .body cl h rest' r' x'⟩) = m'.num + (pn x' + ((ts.map pnT).sum - pn x)) := by
      simp only [pnT]; omega
    have e2 : m'.eff + ((ts.map peT).sum - pe x + peT ⟨id, .body cl h rest' r' x'⟩) = m'.eff + (pe x' + ((ts.map peT).sum - pe x)) := by
      simp only [peT]; omega
    rw [e1, e2]; exact this

/-- A thread moves on and changes at most the counters. -/
theorem KK.move (hK : KK L e c pre mid log0 D0 b0 m reg ts lay P X) {t : Nat} {th th' : Thread ρ (Inner ρ)} (hth : ts[t]? = some th)
    (hx : workT th = none) (hx' : workT th' = none)
    (hok : ∀ cl h rest r x, th'.pc = .body cl h rest r x → InOk e c lay P X reg cl.writable rest r x)
    (hbad : m'.bad = false) (hfile : m'.file = m.file) (hlog : m'.log = m.log) (hfbp : m'.fbp = m.fbp)
    (hn : m'.num + pnT th' = m.num + pnT th) (he : m'.eff + peT th' = m.eff + peT th) :
    KK L e c pre mid log0 D0 b0 m' reg (ts.set t th') lay P X where
  bad := hbad
  bnd := hK.bnd
  file := hfile.trans hK.file
  log := by rw [hlog]; exact hK.log
  str := by rw [hfbp]; exact hK.str
  quiet := by
    intro j hj hf
    refine hK.quiet j hj ?_
    intro th2 hm
    obtain ⟨u, hu⟩ := List.getElem?_of_mem hm
    by_cases hut : u = t
    · subst hut
      rw [hth] at hu
      injection hu with hu
      rw [← hu, hx]; simp
    · exact hf th2 (List.mem_of_getElem? (i := u) (by rw [get_set hth, if_neg hut]; exact hu))
  thok := by
    intro u id' cl' h' rs r'' y hu
    rw [get_set hth] at hu
    split at hu
    · injection hu with hu
      have h1 := hok cl' h' rs r'' y (by rw [hu])
      refine ⟨h1, fun i hi => ?_⟩
      have : workT th' = some i := by rw [hu]; exact hi
      rw [hx'] at this; cases this
    · exact hK.thok u _ _ _ _ _ _ hu
  count := by
    rw [List.map_set, List.map_set, Tiny.Conc.sum_set_int _ t (pnT th) _ (by rw [List.getElem?_map, hth]; rfl),
      Tiny.Conc.sum_set_int _ t (peT th) _ (by rw [List.getElem?_map, hth]; rfl)]
    have := hK.count
    rwa [show m'.num + ((ts.map pnT).sum - pnT th + pnT th') = m.num + (ts.map pnT).sum by omega,
      show m'.eff + ((ts.map peT).sum - peT th + peT th') = m.eff + (ts.map peT).sum by omega]

end
end Verif.Hash.Conc
