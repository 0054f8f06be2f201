import Verif.Cache.Props
import Verif.File.FlatFold
/-
C28 for CacheDBM: the file that `Synchronize` and `Close` write, opened again.
-/
namespace Verif.Cache
open Verif

/-- `CacheSlot::ExportRecords` (tkrzw_dbm_cache.cc 539-556) for `n` partitions from `i` on (tkrzw_dbm_cache.cc 986-991): from the least recently used record of each;
`none` stands for a dangling pointer. -/
def exportFrom (s : State) : (n i : Nat) → Option (List (Bytes × Bytes))
  | 0, _ => some []
  | n + 1, i => (Linked.toList (s.slots i).map).bind fun l => (exportFrom s n (i + 1)).map fun rest => l ++ rest

/-- The file that `ExportRecords` writes (tkrzw_dbm_cache.cc 957-998), `info` standing for the serialized metadata, which holds the wall time. -/
def saved (info : Bytes) (s : State) : Option Bytes := (exportFrom s numSlots 0).map (Flat.saveFile info)

/-- The storing step of `ImportRecords` (tkrzw_dbm_cache.cc 946-950). What the setter stores in its status is not looked at. -/
def importSet (E : Env) (s : State) (k v : Bytes) : State × Code := ((s.process E k true (fun _ => (Action.set v, ()))).1, .success)

/-- The database object after `Close` (tkrzw_dbm_cache.cc 652-670): empty partitions, and the capacities it had. -/
def closed (s : State) : State :=
  { slots := fun _ => Slot.init (slotCapRec s.capRec) (slotCapMem s.capMem), capRec := s.capRec, capMem := s.capMem, log := s.log, bad := s.bad }

theorem exportFrom_eq {E : Env} {s : State} {P : Nat → List (Bytes × Bytes)} (h : StateOk E s P) : ∀ n i,
    exportFrom s n i = some ((List.range' i n).flatMap P)
  | 0, i => rfl
  | n + 1, i => by
    simp only [exportFrom, toList_spec (h.slot i), exportFrom_eq h n (i + 1), Option.bind_some, Option.map_some, List.range'_succ, List.flatMap_cons]

theorem closed_ok {E : Env} {s : State} {P : Nat → List (Bytes × Bytes)} (h : StateOk E s P) : StateOk E (closed s) (fun _ => []) :=
  ⟨h.good, fun _ => init_spec E _ _, fun _ => rfl, fun _ => rfl, fun _ _ h => (List.not_mem_nil h).elim, h.pos⟩

/-- The records of a partition among all of them. -/
theorem part_all {E : Env} {s : State} {P : Nat → List (Bytes × Bytes)} (h : StateOk E s P) (i : Nat) (js : List Nat) (hj : js.Nodup) :
    ((js.flatMap P).filter fun e => E.slotOf e.1 = i) = if i ∈ js then P i else [] := by
  induction js with
  | nil => rfl
  | cons j js ih =>
    rw [List.nodup_cons] at hj
    rw [List.flatMap_cons, List.filter_append, ih hj.2]
    by_cases hij : i = j
    · subst hij
      rw [if_neg hj.1, if_pos List.mem_cons_self, List.append_nil]
      exact List.filter_eq_self.2 fun e he => by simpa using h.home i e he
    · have : (P j).filter (fun e => E.slotOf e.1 = i) = [] := by
        rw [List.filter_eq_nil_iff]
        intro e he hc
        rw [h.home j e he] at hc
        simp only [decide_eq_true_eq] at hc
        exact hij hc.symm
      rw [this, List.nil_append]
      simp [hij]

theorem part_eq {E : Env} {s : State} {P : Nat → List (Bytes × Bytes)} (h : StateOk E s P) (i : Nat) :
    (((List.range' 0 numSlots).flatMap P).filter fun e => E.slotOf e.1 = i) = P i := by
  rw [part_all h i _ List.nodup_range']
  split
  · rfl
  · rename_i hi
    cases hp : P i with
    | nil => rfl
    | cons e l =>
      have := h.home i e (by rw [hp]; exact List.mem_cons_self)
      have hlt := slotOf_lt E e.1
      rw [this] at hlt
      exact absurd (by simp [List.mem_range', hlt]) hi

theorem dataSize_nonneg (l : List (Bytes × Bytes)) : 0 ≤ Spec.dataSize l := by
  induction l with
  | nil => simp [Spec.dataSize]
  | cons e l ih => rw [dataSize_cons]; omega

theorem over_prefix {a b : Int} {l m : List (Bytes × Bytes)} (h : ¬ Spec.Over a b (l ++ m)) : ¬ Spec.Over a b l := by
  intro hc
  refine h ?_
  have := dataSize_nonneg m
  unfold Spec.Over Spec.usage at hc ⊢
  rw [dataSize_append, List.length_append]
  omega

theorem import_ok {E : Env} {full : List (Bytes × Bytes)} {a b : Int} (hnd : ∀ i, ((full.filter fun e => E.slotOf e.1 = i).map (·.1)).Nodup)
    (hov : ∀ i, ¬ Spec.Over (slotCapRec a) (slotCapMem b) (full.filter fun e => E.slotOf e.1 = i)) (hfit : ∀ e ∈ full, recFits e.1 e.2) :
    ∀ (l done : List (Bytes × Bytes)) (s : State), done ++ l = full → StateOk E s (fun i => done.filter fun e => E.slotOf e.1 = i) → s.capRec = a → s.capMem = b →
      StateOk E (l.foldl (fun s x => (importSet E s x.1 x.2).1) s) (fun i => full.filter fun e => E.slotOf e.1 = i) ∧
      (l.foldl (fun s x => (importSet E s x.1 x.2).1) s).capRec = a ∧ (l.foldl (fun s x => (importSet E s x.1 x.2).1) s).capMem = b
  | [], done, s, hd, h, ha, hb => by
    rw [List.append_nil] at hd
    subst hd
    exact ⟨h, ha, hb⟩
  | (k, v) :: l, done, s, hd, h, ha, hb => by
    obtain ⟨-, -, h3, h4, h5⟩ := h.processAt k true (fun _ => (Action.set v, ())) (fun _ => hfit (k, v) (by rw [← hd]; simp))
    have hsplit : (full.filter fun e => E.slotOf e.1 = E.slotOf k) =
        ((done.filter fun e => E.slotOf e.1 = E.slotOf k) ++ [(k, v)]) ++ (l.filter fun e => E.slotOf e.1 = E.slotOf k) := by
      rw [← hd, List.filter_append, List.filter_cons_of_pos (by simp), List.append_assoc, List.singleton_append]
    have hget : Spec.get (done.filter fun e => E.slotOf e.1 = E.slotOf k) k = none := by
      rw [get_none_iff]
      intro hk
      have := hnd (E.slotOf k)
      rw [hsplit, List.append_assoc, List.map_append, List.nodup_append] at this
      exact this.2.2 k hk k (by simp) rfl
    have hno : ¬ Spec.Over (slotCapRec a) (slotCapMem b) ((done.filter fun e => E.slotOf e.1 = E.slotOf k) ++ [(k, v)]) := by
      have := hov (E.slotOf k)
      rw [hsplit] at this
      exact over_prefix this
    have hstep : setPart (fun i => done.filter fun e => E.slotOf e.1 = i) (E.slotOf k)
        (Spec.step (slotCapRec s.capRec) (slotCapMem s.capMem) (done.filter fun e => E.slotOf e.1 = E.slotOf k) k true (fun _ => Action.set v)) =
        fun i => (done ++ [(k, v)]).filter fun e => E.slotOf e.1 = i := by
      funext i
      simp only [setPart, List.filter_append]
      split
      · rename_i hi
        subst hi
        simp only [Spec.step, hget, if_true, ha, hb]
        rw [if_neg hno, List.filter_cons_of_pos (by simp), List.filter_nil]
      · rename_i hi
        rw [List.filter_cons_of_neg (by simpa using fun h => hi h.symm), List.filter_nil, List.append_nil]
    rw [List.foldl_cons]
    refine import_ok hnd hov hfit l (done ++ [(k, v)]) _ (by simpa using hd) ?_ (h3.trans ha) (h4.trans hb)
    rw [hstep] at h5
    exact h5

/-! ### The sizes of the records stored -/

theorem step_fits {a b : Int} {l : List (Bytes × Bytes)} {k : Bytes} {w : Bool} {f : Option Bytes → Action} (hl : ∀ e ∈ l, recFits e.1 e.2)
    (hf : w = true → ∀ o, ActFits recFits k (f o)) : ∀ e ∈ Spec.step a b l k w f, recFits e.1 e.2 := by
  intro e h
  have hwo : e ∈ Spec.without l k → e ∈ l := fun h => (List.mem_filter.mp h).1
  have hset : ∀ o v, (if w then f o else Action.noop) = .set v → recFits k v := by
    intro o v hv
    cases w with
    | false => cases hv
    | true => have := hf rfl o; simp only [if_true] at hv; rw [hv] at this; exact this
  unfold Spec.step at h
  split at h
  · rename_i v hg
    split at h
    · rcases List.mem_append.1 h with h | h
      · exact hl e (hwo h)
      · simp only [List.mem_singleton] at h; subst h; exact hl _ (get_mem hg)
    · exact hl e (hwo h)
    · rename_i hx
      rcases List.mem_append.1 h with h | h
      · exact hl e (hwo h)
      · simp only [List.mem_singleton] at h; subst h; exact hset _ _ hx
  · split at h
    · rename_i v' hx
      have : e ∈ l ++ [(k, v')] := by
        split at h
        · exact List.mem_of_mem_tail h
        · exact h
      rcases List.mem_append.1 this with h | h
      · exact hl e h
      · simp only [List.mem_singleton] at h; subst h; exact hset _ _ hx
    · exact hl e h

theorem reached_fits (E : Env) (capRec capMem : Int) (h : List Op) (hf : Fits h) :
    ∃ P, Reached E h (run E (State.new capRec capMem) h) P ∧ ∀ i, ∀ e ∈ P i, recFits e.1 e.2 := by
  have key : ∀ (h : List Op) (s : State) (P : Nat → List (Bytes × Bytes)), StateOk E s P → (∀ i, ∀ e ∈ P i, recFits e.1 e.2) → Fits h →
      ∃ P', StateOk E (run E s h) P' ∧ ∀ i, ∀ e ∈ P' i, recFits e.1 e.2 := by
    intro h
    induction h with
    | nil => exact fun s P hs hP _ => ⟨P, hs, hP⟩
    | cons op h ih =>
      intro s P hs hP hf
      have hf1 : Fits [op] := fun k p hm => hf k p (by simp only [List.mem_singleton] at hm; simp [hm])
      refine ih _ _ (step_ok hs op hf1).1 ?_ (fun k p hm => hf k p (List.mem_cons_of_mem _ hm))
      cases op with
      | process k w p =>
        intro i e he
        simp only [partStep, setPart] at he
        split at he
        · refine step_fits (hP _) (fun hw o => ?_) e he
          subst hw
          exact hf k p (by simp) o
        · exact hP i e he
      | clear => intro i e he; exact (List.not_mem_nil he).elim
      | rebuild a b =>
        intro i e he
        simp only [partStep] at he
        obtain ⟨n, hn, _⟩ := keep_prefix (slotCapRec (newCap a s.capRec)) (slotCapMem (newCap b s.capMem)) (P i) []
        rw [hn, List.nil_append] at he
        exact hP i e (List.mem_of_mem_take he)
  obtain ⟨P, r⟩ := reached E capRec capMem h hf
  obtain ⟨P', h1, h2⟩ := key h _ _ (StateOk.new E capRec capMem) (fun _ _ h => (List.not_mem_nil h).elim) hf
  have : P = P' := by
    funext i
    have e1 := toList_spec (r.slot i)
    rw [toList_spec (h1.slot i)] at e1
    exact (Option.some.inj e1).symm
  subst this
  exact ⟨P, r, h2⟩

/-- Two databases with the same lists and capacities behave alike. -/
theorem same_future {E : Env} : ∀ (h : List Op) (s s' : State) (P : Nat → List (Bytes × Bytes)), StateOk E s P → StateOk E s' P → s.capRec = s'.capRec → s.capMem = s'.capMem →
    Fits h → ∃ P', StateOk E (run E s h) P' ∧ StateOk E (run E s' h) P'
  | [], s, s', P, h1, h2, _, _, _ => ⟨P, h1, h2⟩
  | op :: h, s, s', P, h1, h2, hr, hm, hf => by
    have hf1 : Fits [op] := fun k p hm => hf k p (by simp only [List.mem_singleton] at hm; simp [hm])
    obtain ⟨a1, _, a3⟩ := step_ok h1 op hf1
    obtain ⟨b1, _, b3⟩ := step_ok h2 op hf1
    rw [← hr, ← hm] at b1 b3
    have hc := a3.trans b3.symm
    exact same_future h _ _ _ a1 b1 (congrArg Prod.fst hc) (congrArg Prod.snd hc) (fun k p hm => hf k p (List.mem_cons_of_mem _ hm))

/-- The records that `ProcessEach` presents, in its order. -/
def listed (s : State) : List (Bytes × Bytes) := (exportFrom s numSlots 0).getD []

/-- C28 (CacheDBM): after any history of calls, the database is saved to a file, which can be opened again: it holds the same records, with the same order of use,
so that every further history of calls leaves the same records in both, also if records are evicted; provided that no partition uses more memory than its share
(an update can make it so, `C11_memory_violated`) and that the value written last is not empty (`Flat.C28_violated`). -/
theorem C28_cache_save_load_partial (E : Env) (capRec capMem : Int) (h : List Op) (hf : Fits h) (info : Bytes) (hinfo : info ≠ []) (hsz : info.length < 2 ^ 49)
    {s : State} (hs : run E (State.new capRec capMem) h = s) (hmem : ∀ i, (s.slots i).memUsage ≤ slotCapMem s.capMem)
    (hlast : ∀ x, (listed s).getLast? = some x → x.2 ≠ []) :
    ∃ file s', saved info s = some file ∧ Flat.importFile file (importSet E) (closed s) = some (s', .success) ∧ s'.bad = false ∧
      s'.count = s.count ∧ s'.effSize = s.effSize ∧ listed s' = listed s ∧
      ∀ more, Fits more → ∀ k, look E (run E s' more) k = look E (run E s more) k := by
  obtain ⟨P, r, hfit⟩ := reached_fits E capRec capMem h hf
  rw [hs] at r
  have hex := exportFrom_eq r.toStateOk numSlots 0
  have hl : listed s = (List.range' 0 numSlots).flatMap P := by unfold listed; rw [hex]; rfl
  rw [hl] at hlast
  have hpart := part_eq r.toStateOk
  have hall : ∀ e ∈ (List.range' 0 numSlots).flatMap P, recFits e.1 e.2 := by
    intro e he
    obtain ⟨i, _, hi⟩ := List.mem_flatMap.1 he
    exact hfit i e hi
  have himp := import_ok (E := E) (full := (List.range' 0 numSlots).flatMap P) (a := s.capRec) (b := s.capMem)
    (fun i => by rw [hpart]; exact (r.slot i).nodup)
    (fun i => by
      rw [hpart]
      intro hov
      rcases hov with hov | hov
      · have := r.bound i; omega
      · have h1 := (r.slot i).usage
        rw [r.capR i] at h1
        have h2 := hmem i
        rw [h1] at h2
        omega)
    hall _ [] (closed s) (List.nil_append _) (closed_ok r.toStateOk) rfl rfl
  have hP : (fun i => ((List.range' 0 numSlots).flatMap P).filter fun e => E.slotOf e.1 = i) = P := funext hpart
  rw [hP] at himp
  obtain ⟨g1, g2, g3⟩ := himp
  have hsmall : Flat.Small ((List.range' 0 numSlots).flatMap P) := by
    intro e he
    have := hall e he
    unfold recFits blkSize at this
    omega
  generalize hfull : (List.range' 0 numSlots).flatMap P = full at *
  generalize hgen : full.foldl (fun s x => (importSet E s x.1 x.2).1) (closed s) = s' at *
  refine ⟨_, s', by rw [saved, hex]; rfl, by rw [Flat.importFile_fold (fun _ _ _ => rfl) info hinfo hsz _ hsmall hlast _, hgen], g1.good, ?_, ?_, ?_, ?_⟩
  · unfold State.count
    rw [foldl_len P _ _ _ (fun j _ => (g1.slot j).num), foldl_len P _ _ _ (fun j _ => (r.slot j).num)]
  · unfold State.effSize
    rw [foldl_size P _ _ _ (fun j _ => (g1.slot j).eff), foldl_size P _ _ _ (fun j _ => (r.slot j).eff)]
  · unfold listed
    rw [exportFrom_eq g1, hex, hfull]
  · intro more hm k
    obtain ⟨P', k1, k2⟩ := same_future more _ _ P r.toStateOk g1 g2.symm g3.symm hm
    rw [(look_eq k1 k).1, (look_eq k2 k).1]

end Verif.Cache
