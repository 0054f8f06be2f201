import Verif.BTree.Conc
import Verif.Tiny.ConcProps
/-
Concurrent calls of BabyDBM and TreeDBM as an instance of two-phase locking: the parts of the records are the single keys, and the slot of a key is the leaf it is in.
-/
namespace Verif.BTree.Conc
open Verif
open Verif.TwoPhase (Call HEv Locks MInv SP SerialR ThOk OpOk MMem aBody Explains Serial get_set)

/-! ### Keys as numbers -/

/-- The number of a key. -/
def enc : Bytes → Nat
  | [] => 0
  | b :: l => b.toNat + 256 * enc l + 1

/-- The key of a number. -/
def dec : Nat → Bytes
  | 0 => []
  | n + 1 => UInt8.ofNat (n % 256) :: dec (n / 256)
termination_by n => n
decreasing_by omega

theorem dec_enc (k : Bytes) : dec (enc k) = k := by
  induction k with
  | nil => simp [enc, dec]
  | cons b l ih =>
    have hb : b.toNat < 256 := b.toNat_lt
    rw [enc, dec]
    have e1 : (b.toNat + 256 * enc l) % 256 = b.toNat := by omega
    have e2 : (b.toNat + 256 * enc l) / 256 = enc l := by omega
    rw [e1, e2, ih]
    simp

theorem enc_dec (n : Nat) : enc (dec n) = n := by
  induction n using Nat.strongRecOn with
  | ind n ih =>
    cases n with
    | zero => simp [dec, enc]
    | succ n =>
      rw [dec, enc, ih (n / 256) (by omega)]
      have : (UInt8.ofNat (n % 256)).toNat = n % 256 := by
        rw [UInt8.toNat_ofNat']
        omega
      rw [this]
      omega

/-! ### One record -/

section
variable {ρ : Type}

/-- What a processor does to the value under its key. (The update log is followed apart from this.) -/
def opT (x : Option Bytes) (_ : Bytes) (w : Bool) (p : ProcR ρ) : Option (Option Bytes × ρ × List LogOp) :=
  some (match w, (p x).1, x with
    | true, .set v, _ => (some v, (p x).2, [])
    | true, .remove, some _ => (none, (p x).2, [])
    | _, _, _ => (x, (p x).2, []))

theorem opT_ok : OpOk (opT (ρ := ρ)) := by
  have hl : ∀ (x : Option Bytes) (k : Bytes) (w : Bool) (p : ProcR ρ) y, opT x k w p = some y → y.2.2 = [] := by
    intro x k w p y h
    simp only [opT, Option.some.injEq] at h
    subst h
    split <;> rfl
  refine ⟨fun x k p y h => ⟨?_, hl x k false p y h⟩, fun x k w p y h e he => ?_⟩
  · simp only [opT, Option.some.injEq] at h
    subst h
    rfl
  · rw [hl x k w p y h] at he; cases he

theorem opT_log {x : Option Bytes} {k : Bytes} {w : Bool} {p : ProcR ρ} {y : Option Bytes × ρ × List LogOp} (h : opT x k w p = some y) : y.2.2 = [] := by
  simp only [opT, Option.some.injEq] at h
  subst h
  split <;> rfl

theorem opT_process {lt : Bytes → Bytes → Bool} (hw : StrictWeak lt) (hi : ∀ a b, eqv lt a b = true → a = b) {m : List Rec} (hm : OrdMap.Sorted lt m) (k : Bytes) (w : Bool)
    (p : ProcR ρ) : ∃ y, opT (OMap.dict lt m k) k w p = some y ∧ (OMap.process lt m k w fun _ => p).2.2 = y.2.1 ∧
      OMap.dict lt (OMap.process lt m k w fun _ => p).1 = (OMap.dict lt m).upd k y.1 := by
  refine ⟨_, rfl, ?_⟩
  have h := OMap.process_log hw hi hm k w (fun _ => p)
  rw [h]
  have hself : ∀ (d : Dict) (x : Option Bytes), d k = x → d = d.upd k x := by
    intro d x hx; funext j; simp only [Dict.upd]; split
    · rename_i e; rw [e, hx]
    · rfl
  have hd : OMap.dict lt m k = (OMap.get lt k m).map (·.2) := rfl
  clear h
  unfold OMap.process
  generalize OMap.dict lt m = d at hd ⊢
  cases hg : OMap.get lt k m with
  | none =>
    rw [hg] at hd
    simp only [Option.map_none] at hd
    rw [hd]
    have hs := hself d none hd
    cases w with
    | false => cases ha : (p none).1 <;> simp [Dict.replay] <;> exact hs
    | true =>
      cases ha : (p none).1 with
      | noop => simp [Dict.replay]; exact hs
      | remove => simp [Dict.replay]; exact hs
      | set v => exact ⟨rfl, rfl⟩
  | some r =>
    rw [hg] at hd
    simp only [Option.map_some] at hd
    rw [hd]
    have hs := hself d _ hd
    cases w with
    | false => cases ha : (p (some r.2)).1 <;> simp [Dict.replay, ha] <;> exact hs
    | true =>
      cases ha : (p (some r.2)).1 with
      | noop => simp [Dict.replay, ha]; exact hs
      | remove => simp [Dict.replay, ha, Dict.applyLog]
      | set v => simp [Dict.replay, ha, Dict.applyLog]

/-! ### The locks -/

theorem mem_insertId (k x : Nat) (l : List Nat) : x ∈ insertId k l ↔ x = k ∨ x ∈ l := by
  induction l with
  | nil => simp [insertId]
  | cons y l ih =>
    simp only [insertId]
    split
    · simp
    · split
      · rename_i h; subst h; simp
      · simp only [List.mem_cons, ih]
        constructor
        · rintro (h | h | h)
          · exact .inr (.inl h)
          · exact .inl h
          · exact .inr (.inr h)
        · rintro (h | h | h)
          · exact .inr (.inl h)
          · exact .inl h
          · exact .inr (.inr h)

theorem mem_lockOrder (x : Nat) (ids : List Nat) : x ∈ lockOrder ids ↔ x ∈ ids := by
  have key : ∀ (l acc : List Nat), x ∈ l.foldl (fun l k => insertId k l) acc ↔ x ∈ l ∨ x ∈ acc := by
    intro l
    induction l with
    | nil => simp
    | cons k l ih =>
      intro acc
      rw [List.foldl_cons, ih, mem_insertId, List.mem_cons]
      constructor
      · rintro (h | h | h)
        · exact .inl (.inr h)
        · exact .inl (.inl h)
        · exact .inr h
      · rintro ((h | h) | h)
        · exact .inr (.inl h)
        · exact .inl h
        · exact .inr (.inr h)
  unfold lockOrder
  rw [key]
  simp

/-- The leaf of a key. -/
def leafOf (c : Cfg) (L : Layer) (k : Bytes) : Nat := (locate c.lt k L).getD 0

/-- The leaves that a call locks. -/
def orderOf (c : Cfg) (L : Layer) (cl : Call ρ) : List Nat := lockOrder ((cl.pairs.map (·.1)).map (leafOf c L))

/-- The locking rule for the present leaves. -/
def locks (c : Cfg) (L : Layer) : Locks ρ := ⟨enc, fun n => leafOf c L (dec n), orderOf c L, orderOf c L⟩

theorem locks_ok (c : Cfg) (L : Layer) : (locks (ρ := ρ) c L).Ok := by
  refine ⟨fun _ _ h => h, fun cl kp h => ?_⟩
  show leafOf c L (dec (enc kp.1)) ∈ orderOf c L cl
  rw [dec_enc]
  unfold orderOf
  rw [mem_lockOrder]
  exact List.mem_map.2 ⟨kp.1, List.mem_map.2 ⟨kp, h, rfl⟩, rfl⟩

/-! ### The abstraction -/

def absPc (c : Cfg) (L : Layer) : Pc ρ → TwoPhase.Pc ρ Unit
  | .idle => .idle
  | .begin cl | .reorg cl | .enter cl => .locking cl [] (orderOf c L cl)
  | .search cl _ _ => .locking cl [] (orderOf c L cl)
  | .load cl _ _ _ => .locking cl [] (orderOf c L cl)
  | .add cl _ _ _ _ => .locking cl [] (orderOf c L cl)
  | .lock cl _ got todo => .locking cl got todo
  | .body cl _ h _ rest r => .body cl h rest r ()
  | .unlock cl _ h r => .unlocking cl h r
  | .leave cl _ r => .unlocking cl [] r

def absTh (c : Cfg) (L : Layer) (th : Thread ρ) : TwoPhase.Thread ρ Unit := ⟨th.id, absPc c L th.pc⟩

def absMem (c : Cfg) (L : Layer) (t : State) : MMem (Option Bytes) := ⟨fun n => OMap.dict c.lt (contents t.leaves L) (dec n), [], false⟩

def absSys (c : Cfg) (L : Layer) (s : Sys ρ) : TwoPhase.Sys (MMem (Option Bytes)) ρ Unit :=
  ⟨absMem c L s.mem.tree, s.threads.map (absTh c L), s.next, s.hist⟩

theorem canLock_eq (c : Cfg) (L : Layer) (ts : List (Thread ρ)) (i k : Nat) (w : Bool) :
    TwoPhase.canLock (ts.map (absTh c L)) i k w = canLock ts i k w := by
  unfold TwoPhase.canLock canLock
  rw [List.length_map]
  congr 1
  funext j
  rw [List.getElem?_map]
  cases ts[j]? with
  | none => rfl
  | some th =>
    obtain ⟨id, pc⟩ := th
    cases pc <;> simp [absTh, absPc, TwoPhase.held, TwoPhase.writer, Pc.held, Pc.writer]

/-- What a thread relies on. -/
def TOk (P : Par) (L : Layer) (m : Mem) : Pc ρ → Prop
  | .idle | .begin _ | .reorg _ | .enter _ => True
  | .search cl ids todo => ∃ dn, cl.pairs.map (·.1) = dn ++ todo ∧ ids = dn.map (leafOf P.cfg L)
  | .load cl ids id todo => P.paged = true ∧ (m.disk id).isSome = true ∧
      ∃ dn k, cl.pairs.map (·.1) = dn ++ k :: todo ∧ ids = dn.map (leafOf P.cfg L) ∧ locate P.cfg.lt k L = some id
  | .add cl ids id page todo => P.paged = true ∧ (m.cached id = false → m.tree.leaves id = some page) ∧
      ∃ dn k, cl.pairs.map (·.1) = dn ++ k :: todo ∧ ids = dn.map (leafOf P.cfg L) ∧ locate P.cfg.lt k L = some id
  | .lock cl ids _ _ => ids = (cl.pairs.map (·.1)).map (leafOf P.cfg L)
  | .body cl ids _ jobs rest _ => ids = (cl.pairs.map (·.1)).map (leafOf P.cfg L) ∧ jobs = (rest.map (·.1)).map (leafOf P.cfg L) ∧ ∃ dn, cl.pairs = dn ++ rest
  | .unlock _ _ _ _ | .leave _ _ _ => True

structure CInv (P : Par) (A0 : Nat → Option Bytes) (its : Nat → Option Bytes) (s : Sys ρ) (L : Layer) (ord : List (Nat × Call ρ × ρ)) (A : Nat → Option Bytes) (lgA : List LogOp) : Prop where
  inv : Inv P.cfg s.mem.tree L
  minv : MInv (locks P.cfg L) opT A0 (absSys P.cfg L s) ord A lgA
  fault : s.mem.fault = false
  clean : P.paged = true → ∀ i, s.mem.cached i = false → s.mem.disk i = s.mem.tree.leaves i
  refs : P.paged = true → ∀ th ∈ s.threads, ∀ id ∈ th.pc.refs, s.mem.cached id = true
  thr : ∀ th ∈ s.threads, TOk P L s.mem th.pc
  lastOk : s.mem.tree.lastOk = true
  iters : ∀ i, (s.mem.tree.iters i).key = its i
  logd : Dict.empty.replay s.mem.tree.log = OMap.dict P.cfg.lt (contents s.mem.tree.leaves L)

theorem map_set (f : Thread ρ → TwoPhase.Thread ρ Unit) (ts : List (Thread ρ)) (i : Nat) (x : Thread ρ) : (ts.set i x).map f = (ts.map f).set i (f x) := by
  rw [List.map_set]

end

end Verif.BTree.Conc
