import Verif.Cache.EachProps
import Verif.Dbm.SearchProps
import Verif.Hashing.Real
import Verif.Std.EachProps
import Verif.Text.ComparatorsProps
import Verif.Tiny.Props
/-
C56: the modes of `SearchDBMModal`, on the databases.
-/
namespace Verif.Dbm.Search
open Verif Verif.Codec Verif.Text Verif.Split Verif.Search

section
variable {σ : Type} {R : Reader} {d : Dict} {C : Cursor.Impl σ}

/-- A line of a pattern that is not empty. -/
def Line (pat p : Bytes) : Prop := p ≠ [] ∧ p ∈ splitChar pat 10 false

theorem patterns_mem (pat p : Bytes) : p ∈ patterns pat ↔ Line pat p := by
  unfold patterns Line
  rw [(C39_split_skip pat [] [] 10).1, List.mem_filter]
  simp [and_comm]

/-- C56: the modes that test all keys find the keys that contain the pattern, begin or end with it, contain it regardless of case, or contain it as words, or
contain one of the lines of the pattern in that way. -/
theorem C56_modes (hR : R.Reads d) (ordered : Bool) (S : Heap.StdHeap bytesLt) (fuel : Nat) (s : σ) (pat : Bytes) (matched : List Bytes) (capacity : Nat) :
    let found (mode : String) (m : Bytes → Prop) :=
      ∃ res, modal R C ordered S fuel s (asc mode) pat matched capacity = some (.success, res) ∧ Found d m (capOf capacity) res
    found "contain" (fun k => ∃ i, Occurs k pat i) ∧
    (ordered = false → found "begin" (fun k => ∃ r, k = pat ++ r)) ∧
    found "end" (fun k => ∃ r, k = r ++ pat) ∧
    found "containcase" (fun k => ∃ i, Occurs (lowered k) (lowered pat) i) ∧
    (pat ≠ [] → found "containword" (fun k => ∃ i, WordOccurs k pat i)) ∧
    (pat ≠ [] → found "containcaseword" (fun k => ∃ i, WordOccurs (lowered k) (lowered pat) i)) ∧
    found "contain*" (fun k => ∃ p, Line pat p ∧ ∃ i, Occurs k p i) ∧
    found "containcase*" (fun k => ∃ p, Line pat p ∧ ∃ i, Occurs (lowered k) (lowered p) i) ∧
    found "containword*" (fun k => ∃ p, Line pat p ∧ ∃ i, WordOccurs k p i) ∧
    found "containcaseword*" (fun k => ∃ p, Line pat p ∧ ∃ i, WordOccurs (lowered k) (lowered p) i) := by
  intro found
  have go : ∀ (mode : String) (t : Bytes → Bool) (m : Bytes → Prop), modal R C ordered S fuel s (asc mode) pat matched capacity = some (.success, search R t capacity) →
      (∀ k, t k = true ↔ m k) → found mode m := by
    intro mode t m e h
    exact ⟨_, e, found_congr h (C56_search hR t capacity)⟩
  refine ⟨go _ _ _ rfl fun k => C56_contains k pat, ?_, go _ _ _ rfl fun k => C56_ends_with k pat, go _ _ _ rfl fun k => (C56_case_search k pat).isSome,
    fun hp => go _ _ _ rfl fun k => (C56_word_search k pat hp).isSome, fun hp => go _ _ _ rfl fun k => (C56_case_word_search k pat hp).isSome, ?_, ?_, ?_, ?_⟩
  · rintro rfl
    exact go _ _ _ rfl fun k => C56_begins_with k pat
  · refine go _ _ _ rfl fun k => ?_
    rw [(C56_batch k _).1]
    constructor
    · rintro ⟨p, hp, h⟩
      exact ⟨p, (patterns_mem pat p).1 hp, (C56_contains k p).1 h⟩
    · rintro ⟨p, hp, h⟩
      exact ⟨p, (patterns_mem pat p).2 hp, (C56_contains k p).2 h⟩
  · refine go _ _ _ rfl fun k => ?_
    rw [(C56_batch k _).2.1]
    constructor
    · rintro ⟨p, hp, h⟩
      exact ⟨p, (patterns_mem pat p).1 hp, (C56_case_search k p).isSome.1 h⟩
    · rintro ⟨p, hp, h⟩
      exact ⟨p, (patterns_mem pat p).2 hp, (C56_case_search k p).isSome.2 h⟩
  · refine go _ _ _ rfl fun k => ?_
    rw [(C56_batch k _).2.2.1]
    constructor
    · rintro ⟨p, hp, h⟩
      have := (patterns_mem pat p).1 hp
      exact ⟨p, this, (C56_word_search k p this.1).isSome.1 h⟩
    · rintro ⟨p, hp, h⟩
      exact ⟨p, (patterns_mem pat p).2 hp, (C56_word_search k p hp.1).isSome.2 h⟩
  · refine go _ _ _ rfl fun k => ?_
    rw [C56_batch_lower, (C56_batch k _).2.2.2]
    constructor
    · rintro ⟨p, hp, h⟩
      have := (patterns_mem pat p).1 hp
      exact ⟨p, this, (C56_case_word_search k p this.1).isSome.1 h⟩
    · rintro ⟨p, hp, h⟩
      exact ⟨p, (patterns_mem pat p).2 hp, (C56_case_word_search k p hp.1).isSome.2 h⟩

/-- C56: the modes by edit distance use the least number of insertions, removals and replacements of characters, or of bytes; of the pairs of pattern and key the
lengths plus one must have a product below 2^31. -/
theorem C56_edit_modes (hR : R.Reads d) (ordered : Bool) (S : Heap.StdHeap bytesLt) (fuel : Nat) (s : σ) (pat : Bytes) (matched : List Bytes) (capacity : Nat)
    (hs : ∀ k, (d k).isSome → (pat.length + 1) * (k.length + 1) < 2 ^ 31)
    (hu : ∀ k, (d k).isSome → ((utf8ToUcs4 pat).length + 1) * ((utf8ToUcs4 k).length + 1) < 2 ^ 31) :
    let nearest (mode : String) (Ed : Nat → Bytes → Prop) :=
      ∃ (res : List Bytes) (D : Bytes → Nat), modal R C ordered S fuel s (asc mode) pat matched capacity = some (.success, res) ∧
        (∀ k, (d k).isSome → Ed (D k) k ∧ ∀ n, Ed n k → D k ≤ n) ∧
        res.Nodup ∧ (∀ k ∈ res, (d k).isSome) ∧ res.length ≤ capOf capacity ∧
        (res.length < capOf capacity → ∀ k, (d k).isSome → k ∈ res) ∧
        res.Pairwise (fun a b => D a < D b ∨ (D a = D b ∧ a < b)) ∧
        ∀ a ∈ res, ∀ b, (d b).isSome → b ∉ res → D a < D b ∨ (D a = D b ∧ a < b)
    nearest "edit" (fun n k => EditDistance.Edits n (utf8ToUcs4 pat) (utf8ToUcs4 k)) ∧ nearest "editbin" (fun n k => EditDistance.Edits n pat k) := by
  intro nearest
  constructor
  · obtain ⟨res, h1, h2⟩ := C56_edit hR S (charDist pat) (fun k => (charDist pat k).getD 0) (fun k hk => by
      obtain ⟨n, h, _⟩ := EditDistance.C40_edit_distance (utf8ToUcs4 pat) (utf8ToUcs4 k) (hu k hk)
      unfold charDist
      rw [h]
      rfl) capacity
    refine ⟨res, _, ?_, fun k hk => ?_, h2⟩
    · have e : modal R C ordered S fuel s (asc "edit") pat matched capacity = (searchEdit R S (charDist pat) capacity).map fun l => (.success, l) := rfl
      rw [e, h1]
      rfl
    · obtain ⟨n, h, g1, g2⟩ := EditDistance.C40_edit_distance (utf8ToUcs4 pat) (utf8ToUcs4 k) (hu k hk)
      unfold charDist
      simp only [h, Option.getD_some]
      exact ⟨g1, g2⟩
  · obtain ⟨res, h1, h2⟩ := C56_edit hR S (byteDist pat) (fun k => (byteDist pat k).getD 0) (fun k hk => by
      obtain ⟨n, h, _⟩ := EditDistance.C40_edit_distance pat k (hs k hk)
      unfold byteDist
      rw [h]
      rfl) capacity
    refine ⟨res, _, ?_, fun k hk => ?_, h2⟩
    · have e : modal R C ordered S fuel s (asc "editbin") pat matched capacity = (searchEdit R S (byteDist pat) capacity).map fun l => (.success, l) := rfl
      rw [e, h1]
      rfl
    · obtain ⟨n, h, g1, g2⟩ := EditDistance.C40_edit_distance pat k (hs k hk)
      unfold byteDist
      simp only [h, Option.getD_some]
      exact ⟨g1, g2⟩

/-- C56: "upper", "upperinc", "lower" and "lowerinc" of an ordered database, with a capacity that is not zero and an empty vector; "begin" with the lexical order;
a mode that is unknown is refused. -/
theorem C56_order_modes_partial {lt : Bytes → Bytes → Bool} {ks : List Bytes} {ok : σ → Prop} {pos : σ → Option Bytes} (hC : Cursor.Ordered C lt ks ok pos) (hw : StrictWeak lt)
    (S : Heap.StdHeap bytesLt) (s : σ) (ho : ok s) (pat : Bytes) (capacity fuel : Nat) (hf : ks.length < fuel) :
    let res (mode : String) := modal R C true S fuel s (asc mode) pat [] capacity
    res "upper" = some (.success, (ks.filter fun k => lt pat k).take capacity) ∧
    res "upperinc" = some (.success, (ks.filter fun k => !lt k pat).take capacity) ∧
    res "lower" = some (.success, (ks.reverse.filter fun k => lt k pat).take capacity) ∧
    res "lowerinc" = some (.success, (ks.reverse.filter fun k => !lt pat k).take capacity) ∧
    (lt = bytesLt → res "begin" = some (.success, (ks.filter fun k => beginsWith k pat).take (capOf capacity))) ∧
    res "no such mode" = some (.invalidArgument, []) := by
  intro res
  refine ⟨?_, ?_, ?_, ?_, ?_, rfl⟩
  · show some (searchOrder C fuel s pat true false [] capacity) = _
    rw [C56_upper_partial hC hw s ho pat false [] capacity fuel hf]
    simp
  · show some (searchOrder C fuel s pat true true [] capacity) = _
    rw [C56_upper_partial hC hw s ho pat true [] capacity fuel hf]
    simp
  · show some (searchOrder C fuel s pat false false [] capacity) = _
    rw [C56_lower_partial hC hw s ho pat false [] capacity fuel hf]
    simp
  · show some (searchOrder C fuel s pat false true [] capacity) = _
    rw [C56_lower_partial hC hw s ho pat true [] capacity fuel hf]
    simp
  · rintro rfl
    show some (forwardMatch R C true fuel s pat capacity) = _
    rw [C56_begin_ordered R hC s ho pat capacity fuel hf]

end

/-! ### Where it fails -/

/-- The order of keys regardless of case (the order of `LexicalCaseKeyComparator`, by `C41_lexical_case_partial`). -/
def caseLt (a b : Bytes) : Bool := bytesLt (a.map Cmp.lower) (b.map Cmp.lower)

theorem caseLt_weak : StrictWeak caseLt where
  irrefl a := bytesLt_weak.irrefl _
  trans a b c := bytesLt_weak.trans _ _ _
  cotrans a b c := bytesLt_weak.cotrans _ _ _

/-- The keys "b0" and "B1". -/
def caseKeys : List Bytes := [[98, 48], [66, 49]]

/-- C56 does not hold of "begin" on an ordered database with another order than the lexical one: with keys ordered regardless of case, the search for keys that begin
with "B" stops at "b0" and does not find "B1". -/
theorem C56_begin_violated : Cursor.Ordered (Cursor.ofList caseLt caseKeys) caseLt caseKeys (fun p => ∀ x, p = some x → x ∈ caseKeys) (fun p => p) ∧
    (∃ r, ([66, 49] : Bytes) = [66] ++ r) ∧ [66, 49] ∈ caseKeys ∧
    ∀ R, forwardMatch R (Cursor.ofList caseLt caseKeys) true 9 none [66] 0 = (.success, []) := by
  refine ⟨Cursor.ofList_ordered caseLt_weak (by decide), ⟨[49], rfl⟩, by decide, fun R => ?_⟩
  have : forwardMatch ⟨fun _ _ r => r⟩ (Cursor.ofList caseLt caseKeys) true 9 none [66] 0 = (.success, []) := by decide +kernel
  exact this

/-- C56 does not hold of "upper" and "lower" with the capacity zero, which is documented to mean that there is no limit: nothing is found, whatever the keys. And what the
vector held is neither removed nor left out of the count. -/
theorem C56_order_violated {lt : Bytes → Bytes → Bool} {ks : List Bytes} {σ : Type} {C : Cursor.Impl σ} {ok : σ → Prop} {pos : σ → Option Bytes}
    (hC : Cursor.Ordered C lt ks ok pos) (hw : StrictWeak lt) (s : σ) (ho : ok s) (pat : Bytes) (upper inclusive : Bool) (fuel : Nat) (hf : ks.length < fuel) :
    searchOrder C fuel s pat upper inclusive [] 0 = (.success, []) ∧
    ∀ matched : List Bytes, ∀ capacity, capacity ≤ matched.length → searchOrder C fuel s pat upper inclusive matched capacity = (.success, matched) := by
  have key : ∀ matched : List Bytes, ∀ capacity, capacity ≤ matched.length → searchOrder C fuel s pat upper inclusive matched capacity = (.success, matched) := by
    intro matched capacity h
    cases upper with
    | true =>
      rw [C56_upper_partial hC hw s ho pat inclusive matched capacity fuel hf, show capacity - matched.length = 0 by omega]
      simp
    | false =>
      rw [C56_lower_partial hC hw s ho pat inclusive matched capacity fuel hf, show capacity - matched.length = 0 by omega]
      simp
  exact ⟨key [] 0 (Nat.le_refl _), key⟩

/-! ### The databases -/

/-- `ProcessEach` of TinyDBM. -/
def tinyReader (s : Tiny.State) : Reader := ⟨fun p emp r => (Tiny.processEach s false p emp r).2⟩

/-- `ProcessEach` of StdHashDBM and StdTreeDBM. -/
def stdReader (s : Std.State) : Reader := ⟨fun p emp r => (s.processEach false p emp r).2⟩

/-- `ProcessEach` of CacheDBM. -/
def cacheReader (E : Cache.Env) (s : Cache.State) : Reader := ⟨fun p emp r => (Cache.processEach E s false p emp r).2⟩

/-- C56: the readers of TinyDBM, StdHashDBM, StdTreeDBM and CacheDBM present their records. -/
theorem C56_tiny_reads {hash : Bytes → Nat → Nat} (hr : Tiny.InRange hash) {s : Tiny.State} (hi : Tiny.Inv hash s) : (tinyReader s).Reads (Tiny.view hash s) := by
  intro ρ p emp r hp
  obtain ⟨_, rs, h1, _, h3⟩ := Tiny.C10_tiny_each hr s false p emp r hi (fun k r v => by rw [hp]; trivial)
  exact ⟨rs, h1, h3⟩

theorem C56_std_reads {K : Std.Kind} {s : Std.State} (hi : Std.Inv K s) : (stdReader s).Reads (Std.view s) := by
  intro ρ p emp r hp
  obtain ⟨rs, h1, _, _, _, h3⟩ := Std.C10_std_each hi false p emp r
  exact ⟨rs, h1, h3⟩

theorem C56_cache_reads (E : Cache.Env) (capRec capMem : Int) (h : List Cache.Op) (hh : Cache.Fits h) :
    (cacheReader E (Cache.run E (Cache.State.new capRec capMem) h)).Reads (Cache.look E (Cache.run E (Cache.State.new capRec capMem) h)) := by
  intro ρ p emp r hp
  obtain ⟨rs, h1, _, _, h3, _⟩ := Cache.C10_cache_each E capRec capMem h hh false p (fun k r v => by rw [hp]; trivial) emp r
  exact ⟨rs, h1, h3⟩

/-- The iterator `i` of StdTreeDBM; `Get` is `Process` with a processor that reads (tkrzw_dbm.h 985-993). -/
def stdCursor (i : Nat) : Cursor.Impl Std.State where
  first s := s.first i
  last s := s.last .tree i
  jump k s := s.jump .tree i k
  jumpLower k b s := s.jumpLower .tree i k b
  jumpUpper k b s := s.jumpUpper .tree i k b
  next s := s.next i
  prev s := s.previous .tree i
  key s := match (s.iterProcess i false fun k _ => (.noop, k)).2 with | none => (.notFound, []) | some k => (.success, k)

theorem moves_ok {s s0 : Std.State} {i : Nat} (ev : Std.Ev) {t : Std.State × Code} (e : Std.evStep .tree s ev = t.1)
    (h : Std.Inv .tree s ∧ s.has i ∧ s.map = s0.map) (hm : t.1.map = s.map ∧ t.1.iters.map (·.1) = s.iters.map (·.1)) :
    Std.Inv .tree t.1 ∧ t.1.has i ∧ t.1.map = s0.map :=
  ⟨e ▸ Std.evStep_inv (K := .tree) trivial h.1 ev, by show i ∈ _; rw [hm.2]; exact h.2.1, hm.1.trans h.2.2⟩

theorem move_keeps (s : Std.State) (i : Nat) (q : Std.Pos) : (s.move i q).map = s.map ∧ (s.move i q).iters.map (·.1) = s.iters.map (·.1) := by
  refine ⟨rfl, ?_⟩
  show List.map _ (List.map _ _) = _
  rw [List.map_map]
  congr 1
  funext x
  simp only [Function.comp]
  split <;> simp_all

theorem moveOpt_keeps (s : Std.State) (i : Nat) (q : Option Std.Pos) : (s.moveOpt i q).map = s.map ∧ (s.moveOpt i q).iters.map (·.1) = s.iters.map (·.1) := by
  cases q with
  | none => exact ⟨rfl, rfl⟩
  | some q => exact move_keeps s i q

theorem least_of {P Q : Bytes → Prop} {q : Std.Pos} (h : Std.Least P q) (e : ∀ k, P k ↔ Q k) : Cursor.Least bytesLt Q q := by
  cases q with
  | none => exact fun k hk => h k ((e k).2 hk)
  | some k => exact ⟨(e k).1 h.1, fun k' hk' => by simpa [bytesLt] using h.2 k' ((e k').2 hk')⟩

theorem greatest_of {P Q : Bytes → Prop} {q : Std.Pos} (h : Std.Greatest P q) (e : ∀ k, P k ↔ Q k) : Cursor.Greatest bytesLt Q q := by
  cases q with
  | none => exact fun k hk => h k ((e k).2 hk)
  | some k => exact ⟨(e k).1 h.1, fun k' hk' => by simpa [bytesLt] using h.2 k' ((e k').2 hk')⟩

/-- C56: the iterator of StdTreeDBM moves over the keys of the database in the lexical order. -/
theorem C56_std_cursor {s0 : Std.State} (hi : Std.Inv .tree s0) (i : Nat) :
    Cursor.Ordered (stdCursor i) bytesLt (Std.keys s0.map) (fun s => Std.Inv .tree s ∧ s.has i ∧ s.map = s0.map) (fun s => s.at i) where
  sorted := (Std.tree_sorted hi).imp (by intro a b h; simpa [bytesLt] using h)
  first s h := ⟨moves_ok (.first i) rfl h (move_keeps s i _), rfl, least_of (Std.C14_tree_first h.1 h.2.1) fun k => by rw [Std.view_isSome, h.2.2]⟩
  last s h := by
    refine ⟨moves_ok (.last i) rfl h ?_, (Std.C14_tree_last h.1 h.2.1).2.1, greatest_of (Std.C14_tree_last h.1 h.2.1).1 fun k => by rw [Std.view_isSome, h.2.2]⟩
    simp only [stdCursor, Std.State.last]
    split
    · exact move_keeps s i _
    · exact moveOpt_keeps s i _
  jump x s h := ⟨moves_ok (.jump i x) rfl h (move_keeps s i _), rfl, least_of (Std.C14_tree_jump h.1 h.2.1 x).1 fun k => by
    rw [Std.view_isSome, h.2.2]; simp [bytesLt]⟩
  jumpUpper x incl s h := ⟨moves_ok (.jumpUpper i x incl) rfl h (move_keeps s i _), rfl, least_of (Std.C14_tree_jump_upper h.1 h.2.1 x incl) fun k => by
    rw [Std.view_isSome, h.2.2]
    cases incl with
    | false => simp [bytesLt]
    | true =>
      simp only [bytesLt, decide_eq_false_iff_not, if_true, true_and]
      refine and_congr_right fun _ => ⟨fun g => ?_, fun g => ?_⟩
      · rcases g with g | g
        · exact fun g' => List.lt_irrefl _ (List.lt_trans g g')
        · rw [g]; exact List.lt_irrefl _
      · rcases bytes_trichotomy x k with g' | g' | g'
        · exact .inl g'
        · exact .inr g'.symm
        · exact absurd g' g⟩
  jumpLower x incl s h := by
    refine ⟨moves_ok (.jumpLower i x incl) rfl h (moveOpt_keeps s i _), rfl, greatest_of (Std.C14_tree_jump_lower h.1 h.2.1 x incl).1 fun k => ?_⟩
    rw [Std.view_isSome, h.2.2]
    cases incl with
    | false => simp [bytesLt]
    | true =>
      simp only [bytesLt, decide_eq_false_iff_not, if_true, true_and]
      refine and_congr_right fun _ => ⟨fun g => ?_, fun g => ?_⟩
      · rcases g with g | g
        · exact fun g' => List.lt_irrefl _ (List.lt_trans g g')
        · rw [g]; exact List.lt_irrefl _
      · rcases bytes_trichotomy x k with g' | g' | g'
        · exact absurd g' g
        · exact .inr g'.symm
        · exact .inl g'
  next s x h hx := by
    refine ⟨moves_ok (.next i) rfl h ?_, (Std.C14_tree_next h.1 h.2.1 x hx).2, least_of (Std.C14_tree_next h.1 h.2.1 x hx).1 fun k => by
      rw [Std.view_isSome, h.2.2]; simp [bytesLt]⟩
    simp only [stdCursor, Std.State.next, hx]
    exact moveOpt_keeps s i _
  prev s x h hx := by
    refine ⟨moves_ok (.previous i) rfl h ?_, (Std.C14_tree_previous h.1 h.2.1 x hx).2.1, greatest_of (Std.C14_tree_previous h.1 h.2.1 x hx).1 fun k => by
      rw [Std.view_isSome, h.2.2]; simp [bytesLt]⟩
    simp only [stdCursor, Std.State.previous, hx]
    split
    · exact move_keeps s i _
    · exact moveOpt_keeps s i _
  nowhere s h hx := by
    simp only [stdCursor, Std.State.previous, Std.State.next, hx]
    exact ⟨h, trivial, trivial, h, trivial, trivial⟩
  key s x h hx := by
    obtain ⟨v, hv⟩ := h.1.at_lookup hx
    simp [stdCursor, Std.State.iterProcess, hx, hv]
  keyNone s h hx := by simp [stdCursor, Std.State.iterProcess, hx]
  member s x h hx := by
    have := h.1.valid _ (Std.at_mem hx) x rfl
    rwa [h.2.2] at this

/-! ### The hypotheses are met -/

/-- Four records and an iterator. -/
def stdSample : Std.State := Std.evRun .tree {}
  [.db (.set [97, 98] [1] true), .db (.set [97, 97] [2] true), .db (.set [66] [3] true), .db (.set [97] [4] true), .make 0]

example : Std.Inv .tree stdSample ∧ stdSample.has 0 ∧ Std.keys stdSample.map = [[66], [97], [97, 97], [97, 98]] :=
  ⟨Std.C14_reachable (K := .tree) trivial _, by show 0 ∈ _; decide, by decide⟩

example : modal (stdReader stdSample) (stdCursor 0) true (Heap.descHeap bytesLt_total) 9 stdSample (asc "begin") [97] [] 2 = some (.success, [[97], [97, 97]]) ∧
    modal (stdReader stdSample) (stdCursor 0) true (Heap.descHeap bytesLt_total) 9 stdSample (asc "upper") [97] [] 5 = some (.success, [[97, 97], [97, 98]]) ∧
    modal (stdReader stdSample) (stdCursor 0) true (Heap.descHeap bytesLt_total) 9 stdSample (asc "lowerinc") [97] [] 5 = some (.success, [[97], [66]]) ∧
    modal (stdReader stdSample) (stdCursor 0) true (Heap.descHeap bytesLt_total) 9 stdSample (asc "containcase") [98] [] 0 = some (.success, [[66], [97, 98]]) := by
  decide +kernel

/-- In every reachable state of StdTreeDBM the modes find the keys they should. -/
example (evs : List Std.Ev) (S : Heap.StdHeap bytesLt) (pat : Bytes) (capacity : Nat) :
    ∃ res, modal (stdReader (Std.evRun .tree {} evs)) (stdCursor 0) true S 0 {} (asc "contain") pat [] capacity = some (.success, res) ∧
      Found (Std.view (Std.evRun .tree {} evs)) (fun k => ∃ i, Occurs k pat i) (capOf capacity) res :=
  (C56_modes (C56_std_reads (Std.C14_reachable (K := .tree) trivial evs)) (C := stdCursor 0) true S 0 {} pat [] capacity).1

end Verif.Dbm.Search
