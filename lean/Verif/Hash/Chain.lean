import Verif.Hash.Layout
import Verif.Dbm.Counted
/-
Record operations on the structured file, and the chains of records in it.
-/
namespace Verif.Hash

/-- Reading the structured file. -/
def layReader (c : Cfg) (L : Lay) : Reader :=
  { size := recordBase c + totalSize c L.recs
    bucket := fun i => L.buckets[i]?
    record := fun off => (recAt c (recordBase c) L.recs off).map fun r =>
      { op := r.op, child := r.child, key := r.key, value := some r.value, size := r.size c } }

/-- Writing the structured file. -/
def applyL (c : Cfg) (L : Lay) : Wr → Lay
  | .append r => { L with recs := L.recs ++ [r] }
  | .record off r => { L with recs := setAt c (recordBase c) L.recs off r }
  | .child off ch =>
    match recAt c (recordBase c) L.recs off with
    | none => L
    | some r => { L with recs := setAt c (recordBase c) L.recs off { r with child := ch } }
  | .bucket bi v => { L with buckets := L.buckets.set bi v }

def applyLs (c : Cfg) (L : Lay) (ws : List Wr) : Lay := ws.foldl (applyL c) L

/-- The chain that starts at an offset. -/
def Path (c : Cfg) (rs : List Rec) : Nat → List (Nat × Rec) → Prop
  | o, [] => o = 0
  | o, (o', r) :: rest => o = o' ∧ recAt c (recordBase c) rs o = some r ∧ Path c rs r.child rest

/-- The offset of the last element of a chain, or 0. -/
def lastOff (a : List (Nat × Rec)) (d : Nat) : Nat :=
  match a with
  | [] => d
  | x :: xs => lastOff xs x.1

variable {c : Cfg}

theorem recordBase_pos : 0 < recordBase c := by
  unfold recordBase alignNumber metadataSize
  split <;> omega

theorem Path.at {rs : List Rec} {o p} (h : Path c rs o p) : ∀ x ∈ p, recAt c (recordBase c) rs x.1 = some x.2 := by
  induction p generalizing o with
  | nil => simp
  | cons a p ih =>
    obtain ⟨o', r⟩ := a
    obtain ⟨rfl, h1, h2⟩ := h
    intro x hx
    rcases List.mem_cons.1 hx with rfl | hx
    · exact h1
    · exact ih h2 x hx

theorem Path.zero {rs : List Rec} {p} (h : Path c rs 0 p) : p = [] := by
  cases p with
  | nil => rfl
  | cons a p =>
    obtain ⟨o', r⟩ := a
    obtain ⟨rfl, h1, _⟩ := h
    have := recAt_ge h1
    have := recordBase_pos (c := c); omega

theorem Path.head {rs : List Rec} {o p} (h : Path c rs o p) : o = 0 ∨ ∃ r, recAt c (recordBase c) rs o = some r := by
  cases p with
  | nil => exact Or.inl h
  | cons a p => obtain ⟨o', r⟩ := a; exact Or.inr ⟨r, h.2.1⟩

/-- A path is determined by its start. -/
theorem Path.unique {rs : List Rec} {o p q} (h : Path c rs o p) (h' : Path c rs o q) : p = q := by
  induction p generalizing o q with
  | nil => have e : o = 0 := h; subst e; exact h'.zero.symm
  | cons a p ih =>
    obtain ⟨o', r⟩ := a
    obtain ⟨rfl, h1, h2⟩ := h
    cases q with
    | nil =>
      have e : o = 0 := h'
      have := recAt_ge h1; have := recordBase_pos (c := c); omega
    | cons b q =>
      obtain ⟨o'', r'⟩ := b
      obtain ⟨rfl, h1', h2'⟩ := h'
      rw [h1] at h1'; cases h1'
      rw [ih h2 h2']

/-- The chains survive an append. -/
theorem Path.append {rs : List Rec} {o p} (h : Path c rs o p) (r : Rec) : Path c (rs ++ [r]) o p := by
  induction p generalizing o with
  | nil => exact h
  | cons a p ih =>
    obtain ⟨o', x⟩ := a
    exact ⟨h.1, recAt_append_left _ h.2.1, ih h.2.2⟩

/-- A write elsewhere leaves a chain alone. -/
theorem Path.setAt {rs : List Rec} {o p} (h : Path c rs o p) {off r r'} (hr : recAt c (recordBase c) rs off = some r)
    (hs : r'.size c = r.size c) (hn : off ∉ p.map (·.1)) : Path c (setAt c (recordBase c) rs off r') o p := by
  induction p generalizing o with
  | nil => exact h
  | cons a p ih =>
    obtain ⟨o', x⟩ := a
    simp only [List.map_cons, List.mem_cons, not_or] at hn
    obtain ⟨rfl, h1, h2⟩ := h
    refine ⟨rfl, ?_, ih h2 hn.2⟩
    rw [recAt_setAt_other hr hs (Ne.symm hn.1)]; exact h1

/-- Replace the record at an offset in a chain. -/
def repl (off : Nat) (r' : Rec) (x : Nat × Rec) : Nat × Rec := if x.1 = off then (off, r') else x

theorem repl_fst (off r') (p : List (Nat × Rec)) : (p.map (repl off r')).map (·.1) = p.map (·.1) := by
  rw [List.map_map]
  apply List.map_congr_left
  intro x _
  simp only [Function.comp, repl]; split
  · rename_i e; exact e.symm
  · rfl

theorem repl_notin {off r'} {p : List (Nat × Rec)} (h : off ∉ p.map (·.1)) : p.map (repl off r') = p := by
  induction p with
  | nil => rfl
  | cons a p ih =>
    simp only [List.map_cons, List.mem_cons, not_or] at h
    simp only [List.map_cons, ih h.2, repl, if_neg (Ne.symm h.1)]

/-- Overwriting a record without changing its child keeps the chains. -/
theorem Path.repl {rs : List Rec} {o p} (h : Path c rs o p) {off r r'} (hr : recAt c (recordBase c) rs off = some r)
    (hs : r'.size c = r.size c) (hc : r'.child = r.child) :
    Path c (Hash.setAt c (recordBase c) rs off r') o (p.map (repl off r')) := by
  induction p generalizing o with
  | nil => exact h
  | cons a p ih =>
    obtain ⟨o', x⟩ := a
    obtain ⟨rfl, h1, h2⟩ := h
    simp only [List.map_cons]
    by_cases e : o = off
    · subst e
      rw [hr] at h1; cases h1
      simp only [Hash.repl, if_true]
      exact ⟨rfl, recAt_setAt_self hr hs, hc ▸ ih h2⟩
    · simp only [Hash.repl, if_neg e]
      exact ⟨rfl, (recAt_setAt_other hr hs e).trans h1, ih h2⟩

theorem lastOff_mem (a : List (Nat × Rec)) (d : Nat) (h : a ≠ []) : lastOff a d ∈ a.map (·.1) := by
  induction a generalizing d with
  | nil => exact absurd rfl h
  | cons x a ih =>
    simp only [lastOff, List.map_cons, List.mem_cons]
    cases a with
    | nil => left; rfl
    | cons y a => right; exact ih x.1 (by simp)

/-- Changing the child of the last record of a part of a chain. -/
theorem Path.relink {rs : List Rec} {o a rest} (h : Path c rs o (a ++ rest)) (hne : a ≠ []) (d : Nat)
    (hnd : (a.map (·.1)).Nodup) {x q} (hq : Path c rs x q) (hnq : lastOff a d ∉ q.map (·.1)) :
    ∃ pr, recAt c (recordBase c) rs (lastOff a d) = some pr ∧
      Path c (Hash.setAt c (recordBase c) rs (lastOff a d) { pr with child := x }) o
        (a.map (Hash.repl (lastOff a d) { pr with child := x }) ++ q) := by
  induction a generalizing o d with
  | nil => exact absurd rfl hne
  | cons y a ih =>
    obtain ⟨o', r⟩ := y
    obtain ⟨rfl, h1, h2⟩ := h
    cases a with
    | nil =>
      simp only [lastOff] at *
      refine ⟨r, h1, ?_⟩
      simp only [List.map_cons, List.map_nil, List.cons_append, List.nil_append, Hash.repl, if_true]
      exact ⟨rfl, recAt_setAt_self h1 rfl, hq.setAt h1 rfl hnq⟩
    | cons z a =>
      simp only [List.map_cons, List.nodup_cons] at hnd
      simp only [lastOff] at ih hnq ⊢
      obtain ⟨pr, e1, e2⟩ := ih h2 (by simp) o (by simpa using hnd.2) hnq
      refine ⟨pr, e1, ?_⟩
      have hm : lastOff a z.1 ∈ (z :: a).map (·.1) := lastOff_mem (z :: a) o (by simp)
      have hne : o ≠ lastOff a z.1 := by rintro e; rw [← e] at hm; exact hnd.1 (by simpa using hm)
      rw [List.map_cons]
      simp only [Hash.repl, if_neg hne] at e2 ⊢
      exact ⟨rfl, (recAt_setAt_other (r' := { pr with child := x }) e1 rfl hne).trans h1, e2⟩

/-- The part of a chain behind a record is the chain of its child. -/
theorem Path.tail {rs : List Rec} {o a cur r b} (h : Path c rs o (a ++ (cur, r) :: b)) : Path c rs r.child b := by
  induction a generalizing o with
  | nil => exact h.2.2
  | cons y a ih => obtain ⟨o', x⟩ := y; exact ih h.2.2

/-- A record as the reader presents it. -/
def recR (c : Cfg) (r : Rec) : RecR := { op := r.op, child := r.child, key := r.key, value := some r.value, size := r.size c }

theorem layReader_record (L : Lay) (off : Nat) :
    (layReader c L).record off = (recAt c (recordBase c) L.recs off).map (recR c) := rfl

/-- The walk does not find a key that is not in the chain. -/
theorem findRec_none {L : Lay} {k : Bytes} {o p} (h : Path c L.recs o p) (fuel : Nat) (hf : p.length ≤ fuel)
    (parent : Nat) (hk : ∀ x ∈ p, x.2.key ≠ k) : findRec (layReader c L) k fuel parent o = some none := by
  induction p generalizing o fuel parent with
  | nil =>
    have e : o = 0 := h
    subst e
    cases fuel <;> simp [findRec]
  | cons a p ih =>
    obtain ⟨o', r⟩ := a
    obtain ⟨rfl, h1, h2⟩ := h
    have : o ≠ 0 := by have := recAt_ge h1; have := recordBase_pos (c := c); omega
    cases fuel with
    | zero => simp at hf
    | succ fuel =>
      simp only [findRec, if_neg this, layReader_record, h1, Option.map_some, recR]
      rw [if_neg (fun e => hk (o, r) (by simp) e.symm)]
      exact ih h2 fuel (by simpa using hf) o (fun x hx => hk x (List.mem_cons_of_mem _ hx))

/-- The walk finds the first record of a key in the chain, and its predecessor. -/
theorem findRec_some {L : Lay} {k : Bytes} {o a cur r b} (h : Path c L.recs o (a ++ (cur, r) :: b)) (fuel : Nat)
    (hf : (a ++ (cur, r) :: b).length ≤ fuel) (parent : Nat) (hk : ∀ x ∈ a, x.2.key ≠ k) (hr : r.key = k) :
    findRec (layReader c L) k fuel parent o = some (some (lastOff a parent, cur, recR c r)) := by
  induction a generalizing o fuel parent with
  | nil =>
    obtain ⟨rfl, h1, h2⟩ := h
    have : o ≠ 0 := by have := recAt_ge h1; have := recordBase_pos (c := c); omega
    cases fuel with
    | zero => simp at hf
    | succ fuel =>
      simp only [findRec, if_neg this, layReader_record, h1, Option.map_some, lastOff]
      rw [if_pos (by simp [recR, hr])]
  | cons y a ih =>
    obtain ⟨o', x⟩ := y
    obtain ⟨rfl, h1, h2⟩ := h
    have : o ≠ 0 := by have := recAt_ge h1; have := recordBase_pos (c := c); omega
    cases fuel with
    | zero => simp at hf
    | succ fuel =>
      simp only [findRec, if_neg this, layReader_record, h1, Option.map_some, lastOff, recR]
      rw [if_neg (fun e => hk (o, x) (by simp) e.symm)]
      exact ih h2 fuel (by simpa using hf) o (fun x hx => hk x (List.mem_cons_of_mem _ hx))

theorem nodup_length_le (n : Nat) : ∀ l : List Nat, l.Nodup → (∀ x ∈ l, x < n) → l.length ≤ n := by
  induction n with
  | zero =>
    intro l _ h
    cases l with
    | nil => simp
    | cons a l => exact absurd (h a (by simp)) (by omega)
  | succ n ih =>
    intro l hn h
    have h1 := ih (l.erase n) (hn.erase n) (by
      intro x hx
      have h2 := h x (List.mem_of_mem_erase hx)
      have h3 := (hn.mem_erase_iff.1 hx).1
      omega)
    have := List.length_erase (a := n) (l := l)
    split at this <;> omega

/-- A chain that ends does not come back to a place. -/
theorem Path.nodup {rs : List Rec} {o p} (h : Path c rs o p) : (p.map (·.1)).Nodup := by
  have key : ∀ {o p}, Path c rs o p → ∀ x ∈ p, ∃ q, Path c rs x.1 q ∧ q.length ≤ p.length := by
    intro o p h
    induction p generalizing o with
    | nil => intro x hx; simp at hx
    | cons a p ih =>
      obtain ⟨o', r⟩ := a
      intro x hx
      rcases List.mem_cons.1 hx with rfl | hx
      · obtain ⟨rfl, h1, h2⟩ := h
        exact ⟨(o, r) :: p, ⟨rfl, h1, h2⟩, Nat.le_refl _⟩
      · obtain ⟨q, h1, h2⟩ := ih h.2.2 x hx
        exact ⟨q, h1, by simp only [List.length_cons]; omega⟩
  induction p generalizing o with
  | nil => simp
  | cons a p ih =>
    obtain ⟨o', r⟩ := a
    obtain ⟨rfl, h1, h2⟩ := h
    rw [List.map_cons, List.nodup_cons]
    refine ⟨?_, ih h2⟩
    intro hm
    obtain ⟨x, hx, ex⟩ := List.mem_map.1 hm
    obtain ⟨q, hq, hl⟩ := key h2 x hx
    have ex : x.1 = o := ex
    rw [ex] at hq
    have := Path.unique (p := (o, r) :: p) ⟨rfl, h1, h2⟩ hq
    rw [← this] at hl
    simp only [List.length_cons] at hl; omega

/-- A chain without repetition is not longer than the file. -/
theorem Path.length_le {L : Lay} {o p} (h : Path c L.recs o p) (hn : (p.map (·.1)).Nodup) :
    p.length ≤ (layReader c L).size := by
  have hsub : (p.map (·.1)) ⊆ List.range (layReader c L).size := by
    intro o ho
    obtain ⟨x, hx, rfl⟩ := List.mem_map.1 ho
    have := recAt_lt (h.at x hx)
    have := size_pos (c := c) x.2
    simp only [List.mem_range, layReader]; omega
  have := nodup_length_le _ _ hn (fun x hx => List.mem_range.1 (hsub hx))
  simpa using this

end Verif.Hash
