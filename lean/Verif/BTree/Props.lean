import Verif.BTree.Cfgs
import Verif.Dbm.OrderedFacts
import Verif.Dbm.ApiProps
import Verif.Codec.Num
/-
The properties of BabyDBM (C13) and TreeDBM (C15).
-/
namespace Verif.BTree
open Verif

/-! ### Any history -/

theorem history_any {c : Cfg} (hc : c.Ok) {ω : Type} (own : Bool) (l : List (OMap.Call ω)) :
    ∃ s outs t, calls c own (init c) l = some (s, outs) ∧ outs.map (·.1) = l ∧ OMap.History c.lt c.firstWrites OMap.St.empty outs t ∧
      OrdMap.Sorted c.lt t.recs ∧ s.log = t.log := by
  obtain ⟨s, outs, L, t, h1, h2, h3, h4, hk⟩ := calls_sim hc own l (init c) _ _ (init_sim c) (fun _ _ _ => rfl)
  exact ⟨s, outs, t, h1, h2, h3, h4.recs ▸ contents_sorted hc.weak h4.inv.lower, h4.log⟩

/-- C13: in every history of calls of a BabyDBM and of its iterators, with any comparator, no call follows a dangling pointer, and every result is one the
specification of an ordered database allows; the records are in strictly ascending order. -/
theorem C13_history {lt : Bytes → Bytes → Bool} (hw : StrictWeak lt) (pick : List (Nat × Bytes) → Nat) {ω : Type} (l : List (OMap.Call ω)) :
    ∃ s outs t, calls (babyCfg lt pick) true (init (babyCfg lt pick)) l = some (s, outs) ∧ outs.map (·.1) = l ∧
      OMap.History lt true OMap.St.empty outs t ∧ OrdMap.Sorted lt t.recs ∧ s.log = t.log :=
  history_any (babyCfg_ok hw pick) true l

/-- C15: the same for TreeDBM, with any page size and number of branches; here a read-only `ProcessFirst` writes nothing. -/
theorem C15_history {lt : Bytes → Bytes → Bool} (hw : StrictWeak lt) (maxPage branch : Nat) (pick : List (Nat × Bytes) → Nat) {ω : Type} (l : List (OMap.Call ω)) :
    ∃ s outs t, calls (treeCfg lt maxPage branch pick) false (init (treeCfg lt maxPage branch pick)) l = some (s, outs) ∧ outs.map (·.1) = l ∧
      OMap.History lt false OMap.St.empty outs t ∧ OrdMap.Sorted lt t.recs ∧ s.log = t.log :=
  history_any (treeCfg_ok hw maxPage branch pick) false l

/-! ### Scans -/

theorem scan_any {c : Cfg} (hc : c.Ok) (own : Bool) (l : List (OMap.Call Rec)) (tail : List (OMap.Call Rec)) :
    ∃ s a b t t', calls c own (init c) (l ++ tail) = some (s, a ++ b) ∧ a.map (·.1) = l ∧ b.map (·.1) = tail ∧
      OMap.History c.lt c.firstWrites OMap.St.empty a t ∧ OrdMap.Sorted c.lt t.recs ∧ OMap.History c.lt c.firstWrites t b t' := by
  have split : ∀ (x y : List (OMap.Call Rec)) (s : State), calls c own s (x ++ y) = (calls c own s x).bind fun z => (calls c own z.1 y).map fun w => (w.1, z.2 ++ w.2) := by
    intro x
    induction x with
    | nil =>
      intro y s
      simp only [List.nil_append, calls, Option.bind_some]
      cases calls c own s y <;> rfl
    | cons q x ih =>
      intro y s
      simp only [List.cons_append, calls, Option.bind_eq_bind]
      cases call c own s q with
      | none => rfl
      | some r =>
        simp only [Option.bind_some, ih]
        cases calls c own r.1 x with
        | none => rfl
        | some z =>
          simp only [Option.bind_some]
          cases calls c own z.1 y <;> rfl
  obtain ⟨s1, a, L1, t1, h1, h2, h3, h4, hk⟩ := calls_sim hc own l (init c) _ _ (init_sim c) (fun _ _ _ => rfl)
  obtain ⟨s2, b, L2, t2, h5, h6, h7, h8, _⟩ := calls_sim hc own tail s1 _ _ h4 (fun _ _ _ => hk rfl)
  exact ⟨s2, a, b, t1, t2, by rw [split, h1]; simp [h5], h2, h6, h3, h4.recs ▸ contents_sorted hc.weak h4.inv.lower, h7⟩

/-- C13: after any history, an iterator that starts at the first record and is moved with `Next` sees every record once, in ascending order, and then nothing. -/
theorem C13_scan_ascending {lt : Bytes → Bytes → Bool} (hw : StrictWeak lt) (pick : List (Nat × Bytes) → Nat) (l : List (OMap.Call Rec)) (i n : Nat) :
    ∃ s a b t, calls (babyCfg lt pick) true (init (babyCfg lt pick)) (l ++ .iterFirst i :: OMap.forth i n) = some (s, a ++ b) ∧ a.map (·.1) = l ∧
      OMap.History lt true OMap.St.empty a t ∧ OrdMap.Sorted lt t.recs ∧ OMap.results b = (t.recs.take n).map some ++ List.replicate (n - t.recs.length) none := by
  obtain ⟨s, a, b, t, t', h1, h2, h3, h4, h5, h6⟩ := scan_any (babyCfg_ok hw pick) true l (.iterFirst i :: OMap.forth i n)
  exact ⟨s, a, b, t, h1, h2, h4, h5, OMap.scan_forth hw h5 h3 h6⟩

/-- C13: the same from the last record with `Previous`, in descending order. -/
theorem C13_scan_descending {lt : Bytes → Bytes → Bool} (hw : StrictWeak lt) (pick : List (Nat × Bytes) → Nat) (l : List (OMap.Call Rec)) (i n : Nat) :
    ∃ s a b t, calls (babyCfg lt pick) true (init (babyCfg lt pick)) (l ++ .iterLast i :: OMap.back i n) = some (s, a ++ b) ∧ a.map (·.1) = l ∧
      OMap.History lt true OMap.St.empty a t ∧ OrdMap.Sorted lt t.recs ∧ OMap.results b = (t.recs.reverse.take n).map some ++ List.replicate (n - t.recs.length) none := by
  obtain ⟨s, a, b, t, t', h1, h2, h3, h4, h5, h6⟩ := scan_any (babyCfg_ok hw pick) true l (.iterLast i :: OMap.back i n)
  exact ⟨s, a, b, t, h1, h2, h4, h5, OMap.scan_back hw h5 h3 h6⟩

/-- C15: a scan with `Next`. -/
theorem C15_scan_ascending {lt : Bytes → Bytes → Bool} (hw : StrictWeak lt) (maxPage branch : Nat) (pick : List (Nat × Bytes) → Nat) (l : List (OMap.Call Rec)) (i n : Nat) :
    ∃ s a b t, calls (treeCfg lt maxPage branch pick) false (init (treeCfg lt maxPage branch pick)) (l ++ .iterFirst i :: OMap.forth i n) = some (s, a ++ b) ∧ a.map (·.1) = l ∧
      OMap.History lt false OMap.St.empty a t ∧ OrdMap.Sorted lt t.recs ∧ OMap.results b = (t.recs.take n).map some ++ List.replicate (n - t.recs.length) none := by
  obtain ⟨s, a, b, t, t', h1, h2, h3, h4, h5, h6⟩ := scan_any (treeCfg_ok hw maxPage branch pick) false l (.iterFirst i :: OMap.forth i n)
  exact ⟨s, a, b, t, h1, h2, h4, h5, OMap.scan_forth hw h5 h3 h6⟩

/-- C15: a scan with `Previous`. -/
theorem C15_scan_descending {lt : Bytes → Bytes → Bool} (hw : StrictWeak lt) (maxPage branch : Nat) (pick : List (Nat × Bytes) → Nat) (l : List (OMap.Call Rec)) (i n : Nat) :
    ∃ s a b t, calls (treeCfg lt maxPage branch pick) false (init (treeCfg lt maxPage branch pick)) (l ++ .iterLast i :: OMap.back i n) = some (s, a ++ b) ∧ a.map (·.1) = l ∧
      OMap.History lt false OMap.St.empty a t ∧ OrdMap.Sorted lt t.recs ∧ OMap.results b = (t.recs.reverse.take n).map some ++ List.replicate (n - t.recs.length) none := by
  obtain ⟨s, a, b, t, t', h1, h2, h3, h4, h5, h6⟩ := scan_any (treeCfg_ok hw maxPage branch pick) false l (.iterLast i :: OMap.back i n)
  exact ⟨s, a, b, t, h1, h2, h4, h5, OMap.scan_back hw h5 h3 h6⟩

/-! ### As a dictionary -/

/-- The records along the list of leaves. -/
def walk (s : State) : Nat → Option Nat → List Rec
  | _, none => []
  | 0, some _ => []
  | n + 1, some id =>
    match s.leaves id with
    | none => []
    | some l => l.recs ++ walk s n l.next

/-- The records of a database. -/
def records (s : State) : List Rec := walk s (s.numLeaf + 1) (some s.first)

theorem walk_spec {s : State} : ∀ (n : Nat) (Q : Layer) (p : Option Nat), Linked s.leaves p Q none → Q.length ≤ n → walk s n (headId Q none) = contents s.leaves Q
  | n, [], p, _, _ => by cases n <;> rfl
  | 0, e :: Q, p, _, hn => by simp at hn
  | n + 1, e :: Q, p, h, hn => by
    obtain ⟨⟨l, h1, h2, h3⟩, h4⟩ := h
    simp only [headId_cons, walk, h1, contents_cons, recsAt_some h1]
    rw [h3, walk_spec n Q _ h4 (by simpa using hn)]

theorem records_eq {c : Cfg} {s : State} {L : Layer} (h : Inv c s L) : records s = contents s.leaves L := by
  have hlen := layer_length h.lower
  unfold records
  rw [show some s.first = headId L none from h.lower.first.symm]
  exact walk_spec _ L none h.lower.linked (by omega)

/-- The database as an object with `Process` and `ProcessMulti`; `none` stands for undefined behaviour. -/
def impl (c : Cfg) : DbmImpl (Option State) where
  process := fun s k w p =>
    match s.bind fun s => process c s k w (fun _ => p) with
    | some x => (some x.1, x.2)
    | none => (none, (p none).2)
  processMulti := fun s l w r =>
    match s.bind fun s => processMulti c s l w r with
    | some x => (some x.1, x.2)
    | none => (none, r)

/-- The database is in a good state. -/
def Good (c : Cfg) (o : Option State) : Prop := ∃ s L, o = some s ∧ Inv c s L

/-- The dictionary a database stands for. -/
def view (c : Cfg) (o : Option State) : Dict := OMap.dict c.lt ((o.map records).getD [])

theorem impl_lawful {c : Cfg} (hc : c.Ok) (hi : ∀ a b, eqv c.lt a b = true → a = b) : Lawful (impl c) (Good c) (view c) (fun _ _ => True) := by
  have hv : ∀ {s : State} {L : Layer} (h : Inv c s L), view c (some s) = OMap.dict c.lt (contents s.leaves L) := fun h => by
    simp only [view, Option.map_some, Option.getD_some, records_eq h]
  have sim : ∀ {s : State} {L : Layer} (h : Inv c s L), Sim c s L ⟨contents s.leaves L, fun i => (s.iters i).key, s.log⟩ := fun h => ⟨h, rfl, fun _ => rfl, rfl⟩
  refine ⟨?_, ?_, ?_, ?_⟩
  · rintro τ o k w p ⟨s, L, rfl, h⟩ _
    obtain ⟨s', L', h1, h2⟩ := process_sim hc (sim h) k w (fun _ => p)
    simp only [impl, Option.bind_some, h1]
    exact ⟨s', L', rfl, h2.inv⟩
  · rintro τ o k w p ⟨s, L, rfl, h⟩ _
    obtain ⟨s', L', h1, h2⟩ := process_sim hc (sim h) k w (fun _ => p)
    have := OMap.process_dict hc.weak hi (contents_sorted hc.weak h.lower) k w p
    simp only [impl, Option.bind_some, h1]
    rw [hv h2.inv, hv h, h2.recs]
    exact this
  · rintro ρ o l w r ⟨s, L, rfl, h⟩ _
    obtain ⟨s', L', h1, h2⟩ := processMulti_sim hc (sim h) l w r
    simp only [impl, Option.bind_some, h1]
    exact ⟨s', L', rfl, h2.inv⟩
  · rintro ρ o l w r ⟨s, L, rfl, h⟩ _
    obtain ⟨s', L', h1, h2⟩ := processMulti_sim hc (sim h) l w r
    have := OMap.multi_dict hc.weak hi w l r (contents_sorted hc.weak h.lower)
    simp only [impl, Option.bind_some, h1]
    rw [hv h2.inv, hv h, h2.recs]
    exact this

theorem init_good (c : Cfg) : Good c (some (init c)) ∧ view c (some (init c)) = Dict.empty := by
  obtain ⟨h1, h2⟩ := init_inv c [] false
  have h1 : Inv c (init c) [(none, c.leafBase)] := h1
  refine ⟨⟨_, _, rfl, h1⟩, ?_⟩
  simp only [view, Option.map_some, Option.getD_some, records_eq h1, h2]
  rfl

/-- C13: with the lexical comparator, a BabyDBM is a dictionary for `Process` and `ProcessMulti`, so everything proved of such databases holds (C19–C22, C58). -/
theorem C13_dictionary (pick : List (Nat × Bytes) → Nat) :
    Lawful (impl (babyCfg bytesLt pick)) (Good (babyCfg bytesLt pick)) (view (babyCfg bytesLt pick)) (fun _ _ => True) ∧
      Good (babyCfg bytesLt pick) (some (init (babyCfg bytesLt pick))) ∧ view (babyCfg bytesLt pick) (some (init (babyCfg bytesLt pick))) = Dict.empty :=
  ⟨impl_lawful (babyCfg_ok bytesLt_weak pick) fun a b h => (bytesLt_eqv a b).1 h, init_good _⟩

/-- C15: the same for a TreeDBM. -/
theorem C15_dictionary (maxPage branch : Nat) (pick : List (Nat × Bytes) → Nat) :
    Lawful (impl (treeCfg bytesLt maxPage branch pick)) (Good (treeCfg bytesLt maxPage branch pick)) (view (treeCfg bytesLt maxPage branch pick)) (fun _ _ => True) ∧
      Good (treeCfg bytesLt maxPage branch pick) (some (init (treeCfg bytesLt maxPage branch pick))) ∧
      view (treeCfg bytesLt maxPage branch pick) (some (init (treeCfg bytesLt maxPage branch pick))) = Dict.empty :=
  ⟨impl_lawful (treeCfg_ok bytesLt_weak maxPage branch pick) fun a b h => (bytesLt_eqv a b).1 h, init_good _⟩

/-! ### The update log (C25), and calls that only read (C54) -/

/-- C25 (BabyDBM as the source): replaying what the update logger was told, on an empty dictionary, gives the contents. -/
theorem C25_baby_log (pick : List (Nat × Bytes) → Nat) {ω : Type} (l : List (OMap.Call ω)) :
    ∃ s outs t, calls (babyCfg bytesLt pick) true (init (babyCfg bytesLt pick)) l = some (s, outs) ∧
      OMap.History bytesLt true OMap.St.empty outs t ∧ OMap.dict bytesLt t.recs = Dict.empty.replay s.log := by
  obtain ⟨s, outs, t, h1, _, h3, _, h5⟩ := C13_history bytesLt_weak pick l
  have := OMap.history_logged bytesLt_weak (fun a b h => (bytesLt_eqv a b).1 h) outs OMap.St.empty t ⟨List.Pairwise.nil, rfl⟩ h3
  exact ⟨s, outs, t, h1, h3, by rw [h5]; exact this.2⟩

/-- C25 (TreeDBM as the source). -/
theorem C25_tree_log (maxPage branch : Nat) (pick : List (Nat × Bytes) → Nat) {ω : Type} (l : List (OMap.Call ω)) :
    ∃ s outs t, calls (treeCfg bytesLt maxPage branch pick) false (init (treeCfg bytesLt maxPage branch pick)) l = some (s, outs) ∧
      OMap.History bytesLt false OMap.St.empty outs t ∧ OMap.dict bytesLt t.recs = Dict.empty.replay s.log := by
  obtain ⟨s, outs, t, h1, _, h3, _, h5⟩ := C15_history bytesLt_weak maxPage branch pick l
  have := OMap.history_logged bytesLt_weak (fun a b h => (bytesLt_eqv a b).1 h) outs OMap.St.empty t ⟨List.Pairwise.nil, rfl⟩ h3
  exact ⟨s, outs, t, h1, h3, by rw [h5]; exact this.2⟩

theorem reads_any {c : Cfg} (hc : c.Ok) {ω : Type} (own : Bool) (l q : List (OMap.Call ω)) (hq : ∀ x ∈ q, x.reads = true ∧ (c.firstWrites = true → x.isFirst = false)) :
    ∃ s a s' b, calls c own (init c) l = some (s, a) ∧ calls c own s q = some (s', b) ∧ records s' = records s ∧ s'.log = s.log := by
  obtain ⟨s1, a, L1, t1, h1, h2, h3, h4, hk⟩ := calls_sim hc own l (init c) _ _ (init_sim c) (fun _ _ _ => rfl)
  obtain ⟨s2, b, L2, t2, h5, h6, h7, h8, _⟩ := calls_sim hc own q s1 _ _ h4 (fun _ _ _ => hk rfl)
  have hr := OMap.history_reads b t1 t2 (fun x hx => hq x.1 (by rw [← h6]; exact List.mem_map_of_mem hx)) h7
  refine ⟨s1, a, s2, b, h1, h5, ?_, ?_⟩
  · rw [records_eq h8.inv, records_eq h4.inv, h8.recs, h4.recs, hr.1]
  · rw [h8.log, h4.log, hr.2]

/-- C54 (TreeDBM): after any history, calls that say they do not write leave the records and the log as they are. -/
theorem C54_tree_read_only {lt : Bytes → Bytes → Bool} (hw : StrictWeak lt) (maxPage branch : Nat) (pick : List (Nat × Bytes) → Nat) {ω : Type}
    (l q : List (OMap.Call ω)) (hq : ∀ x ∈ q, x.reads = true) :
    ∃ s a s' b, calls (treeCfg lt maxPage branch pick) false (init (treeCfg lt maxPage branch pick)) l = some (s, a) ∧
      calls (treeCfg lt maxPage branch pick) false s q = some (s', b) ∧ records s' = records s ∧ s'.log = s.log :=
  reads_any (treeCfg_ok hw maxPage branch pick) false l q fun x hx => ⟨hq x hx, fun h => by cases h⟩

/-- C54 (BabyDBM), for the calls other than `ProcessFirst` (see `C54_baby_first_violated`). -/
theorem C54_baby_read_only_partial {lt : Bytes → Bytes → Bool} (hw : StrictWeak lt) (pick : List (Nat × Bytes) → Nat) {ω : Type}
    (l q : List (OMap.Call ω)) (hq : ∀ x ∈ q, x.reads = true ∧ x.isFirst = false) :
    ∃ s a s' b, calls (babyCfg lt pick) true (init (babyCfg lt pick)) l = some (s, a) ∧
      calls (babyCfg lt pick) true s q = some (s', b) ∧ records s' = records s ∧ s'.log = s.log :=
  reads_any (babyCfg_ok hw pick) true l q fun x hx => ⟨(hq x hx).1, fun _ => (hq x hx).2⟩

/-! ### Where the code does not do what one expects -/

/-- Storing a value. -/
def put (k v : Bytes) : OMap.Call Rec := .process k true fun k _ => (.set v, (k, v))

/-- Removing a record. -/
def del (k : Bytes) : OMap.Call Rec := .process k true fun k _ => (.remove, (k, []))

/-- The outputs of a history of a BabyDBM / of a TreeDBM with default parameters, both with the lexical comparator. -/
def babyOuts (l : List (OMap.Call Rec)) : Option (List (OMap.Out Rec)) :=
  (calls (babyCfg bytesLt fun _ => 0) true (init (babyCfg bytesLt fun _ => 0)) l).map fun x => x.2.map (·.2)

@[inherit_doc babyOuts]
def treeOuts (l : List (OMap.Call Rec)) : Option (List (OMap.Out Rec)) :=
  (calls (treeCfg bytesLt 8130 256 fun _ => 0) false (init (treeCfg bytesLt 8130 256 fun _ => 0)) l).map fun x => x.2.map (·.2)

/-- A non-trivial history: three records, one of them overwritten, one removed, a scan to the end, and back. -/
example : babyOuts [put [3] [30], put [1] [10], put [2] [20], put [1] [11], del [2], .count, .iterFirst 0, OMap.look 0, .iterNext 0, OMap.look 0, .iterPrevious 0, OMap.look 0,
    .iterNext 0, .iterNext 0, OMap.look 0] =
    some [.res (some ([3], [30])), .res (some ([1], [10])), .res (some ([2], [20])), .res (some ([1], [11])), .res (some ([2], [])), .num 2, .code .success,
      .res (some ([1], [11])), .code .success, .res (some ([3], [30])), .code .success, .res (some ([1], [11])), .code .success, .code .success, .res none] := by
  decide +kernel

/-- A tree of several levels: pages of 40 bytes and two branches.  All records are seen in order. -/
example : ((calls (treeCfg bytesLt 40 2 fun _ => 0) false (init (treeCfg bytesLt 40 2 fun _ => 0))
    ((List.range 40).map (fun i => put [UInt8.ofNat (i * 7 % 41)] [1, 2, 3, 4, 5]) ++ .iterFirst 0 :: OMap.forth 0 41)).map fun x =>
      (decide (3 ≤ x.1.level), OMap.results (x.2.drop 40))) =
    some (true, ((List.range 41).filter fun i => i ≠ 34).map (fun i => some ([UInt8.ofNat i], [1, 2, 3, 4, 5])) ++ [none]) := by
  decide +kernel

/-- Two records, `Jump` beyond them, `Previous`, look. -/
def prevHistory : List (OMap.Call Rec) := [put [1] [10], put [2] [20], .iterJump 0 [3], .iterPrevious 0, OMap.look 0]

/-- C13: `Previous` is not exact.  After `Jump` to a key beyond the last record, `Previous` leaves the iterator nowhere, although there are smaller records:
the specification has it at the last record. -/
theorem C13_previous_violated : babyOuts prevHistory ≠ some (OMap.ideal bytesLt true OMap.St.empty prevHistory) ∧
    (babyOuts prevHistory).bind List.getLast? = some (.res none) ∧ (OMap.ideal bytesLt true OMap.St.empty prevHistory).getLast? = some (.res (some ([2], [20]))) := by
  decide +kernel

/-- C15: the same for TreeDBM. -/
theorem C15_previous_violated : treeOuts prevHistory ≠ some (OMap.ideal bytesLt false OMap.St.empty prevHistory) ∧
    (treeOuts prevHistory).bind List.getLast? = some (.res none) ∧ (OMap.ideal bytesLt false OMap.St.empty prevHistory).getLast? = some (.res (some ([2], [20]))) := by
  decide +kernel

/-- The same after a removal: the iterator is at the last record, the record is removed, `Previous`, look. -/
def removedHistory : List (OMap.Call Rec) := [put [1] [10], put [2] [20], put [3] [30], .iterLast 0, del [3], .iterPrevious 0, OMap.look 0]

theorem C13_previous_removed_violated : (babyOuts removedHistory).bind List.getLast? = some (.res none) ∧
    (OMap.ideal bytesLt true OMap.St.empty removedHistory).getLast? = some (.res (some ([2], [20]))) := by
  decide +kernel

theorem C15_previous_removed_violated : (treeOuts removedHistory).bind List.getLast? = some (.res none) ∧
    (OMap.ideal bytesLt false OMap.St.empty removedHistory).getLast? = some (.res (some ([2], [20]))) := by
  decide +kernel

/-- `Jump` to a key that is not there, with or without looking at the record before `Next`. -/
def jumpHistory (looking : Bool) : List (OMap.Call Rec) :=
  [put [1] [10], put [3] [30], put [5] [50], .iterJump 0 [2]] ++ (if looking then [OMap.look 0] else []) ++ [.iterNext 0, OMap.look 0]

/-- C13: the record `Next` goes to after a `Jump` depends on whether the record was looked at in between: with a look the iterator goes on to the next record,
without one it stays at the record that `Jump` found. -/
theorem C13_jump_next_violated : (babyOuts (jumpHistory true)).bind List.getLast? = some (.res (some ([5], [50]))) ∧
    (babyOuts (jumpHistory false)).bind List.getLast? = some (.res (some ([3], [30]))) := by
  decide +kernel

/-- C15: the same for TreeDBM. -/
theorem C15_jump_next_violated : (treeOuts (jumpHistory true)).bind List.getLast? = some (.res (some ([5], [50]))) ∧
    (treeOuts (jumpHistory false)).bind List.getLast? = some (.res (some ([3], [30]))) := by
  decide +kernel

/-- A `ProcessFirst` that says it does not write, with a processor that asks for removal. -/
def firstHistory : List (OMap.Call Rec) := [put [1] [10], .first false fun k v => (.remove, (k, v.getD [])), .count]

/-- C54: BabyDBM's `ProcessFirst` writes although `writable` is false. -/
theorem C54_baby_first_violated : (babyOuts firstHistory).bind List.getLast? = some (.num 0) ∧
    (OMap.ideal bytesLt false OMap.St.empty firstHistory).getLast? = some (.num 1) := by
  decide +kernel

/-- Records so large that two do not fit in a page, so that each has its own leaf; then one is removed. -/
def bigHistory (v : Bytes) : List (OMap.Call Rec) := [put [1] v, put [2] v, put [3] v, del [3]]

/-- C15: `ProcessImpl` takes the front of an empty vector when the only record of a leaf is removed. -/
theorem C15_front_of_empty_violated : ((calls (treeCfg bytesLt 26 256 fun _ => 0) false (init (treeCfg bytesLt 26 256 fun _ => 0))
    (bigHistory [1, 2, 3, 4, 5, 6, 7, 8, 9, 10])).map fun x => x.1.ub) = some true := by
  decide +kernel

/-- 258 records, so that there are two leaves, then `ProcessEach` that removes everything. -/
def eachHistory : List (OMap.Call Rec) :=
  (List.range 258).map (fun i => put [UInt8.ofNat ((257 - i) / 256), UInt8.ofNat (257 - i)] [1]) ++ [.each true (fun r _ _ => (.remove, r)) ([], [])]

/-- C13: the same in BabyDBM: `ProcessEach` that removes all records of more than one leaf (a queue that is emptied with `PopFirst` does the same). -/
theorem C13_front_of_empty_violated : ((calls (babyCfg bytesLt fun _ => 0) true (init (babyCfg bytesLt fun _ => 0)) eachHistory).map fun x => x.1.ub) = some true := by
  decide +kernel

end Verif.BTree
