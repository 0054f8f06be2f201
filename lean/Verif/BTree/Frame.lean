import Verif.BTree.Lower
/-
A node that is not marked dirty after a call is as it was before the call, and a node that was not there before has a new number.
-/
namespace Verif.BTree
open Verif

/-- The change of a memory whose next free address was `k` and is `k'`; `d` says whether a node is marked dirty. -/
def MFrame {α : Type} (d : α → Bool) (k k' : Nat) (f f' : Nat → Option α) : Prop :=
  ∀ i x, f' i = some x → (d x = false → f i = some x) ∧ (f i = none → k ≤ i ∧ i < k')

theorem MFrame.refl {α : Type} {d : α → Bool} {k k' : Nat} {f : Nat → Option α} : MFrame d k k' f f :=
  fun i x h => ⟨fun _ => h, fun h' => by rw [h] at h'; cases h'⟩

theorem MFrame.trans {α : Type} {d : α → Bool} {k k' k'' : Nat} {f f' f'' : Nat → Option α} (h1 : MFrame d k k' f f') (h2 : MFrame d k' k'' f' f'')
    (hk : k ≤ k') (hk' : k' ≤ k'') : MFrame d k k'' f f'' := fun i x h => by
  obtain ⟨a, b⟩ := h2 i x h
  refine ⟨fun hd => ((h1 i x (a hd)).1 hd), fun hn => ?_⟩
  cases h' : f' i with
  | none => exact ⟨Nat.le_trans hk (b h').1, (b h').2⟩
  | some y => exact ⟨((h1 i y h').2 hn).1, Nat.lt_of_lt_of_le ((h1 i y h').2 hn).2 hk'⟩

theorem MFrame.upd_some {α : Type} {d : α → Bool} {k k' : Nat} {f f' : Nat → Option α} (h : MFrame d k k' f f') (i : Nat) (x : α) (hd : d x = true)
    (hi : f' i ≠ none ∨ k ≤ i ∧ i < k') : MFrame d k k' f (upd f' i (some x)) := fun j y hj => by
  unfold upd at hj
  split at hj
  · rename_i he
    subst he
    cases hj
    refine ⟨fun h' => (by rw [hd] at h'; cases h'), fun hn => ?_⟩
    rcases hi with hi | hi
    · cases hf : f' j with
      | none => exact absurd hf hi
      | some z => exact (h j z hf).2 hn
    · exact hi
  · exact h j y hj

theorem MFrame.upd_none {α : Type} {d : α → Bool} {k k' : Nat} {f f' : Nat → Option α} (h : MFrame d k k' f f') (i : Nat) : MFrame d k k' f (upd f' i none) :=
    fun j y hj => by
  unfold upd at hj
  split at hj
  · cases hj
  · exact h j y hj

/-- A leaf node whose field `page_size` is the size of its page and whose links are ids given out so far. -/
structure LFine (c : Cfg) (nl : Nat) (i : Nat) (l : Leaf) : Prop where
  page : l.page = c.base + recsSize c l.recs
  id : 1 ≤ i ∧ i < nl
  prev : ∀ j, l.prev = some j → 1 ≤ j ∧ j < nl
  next : ∀ j, l.next = some j → 1 ≤ j ∧ j < nl

/-- Every leaf node is like that. -/
def Paid (c : Cfg) (nl : Nat) (lv : Nat → Option Leaf) : Prop := ∀ i l, lv i = some l → LFine c nl i l

theorem Paid.upd_some {c : Cfg} {nl : Nat} {lv : Nat → Option Leaf} (h : Paid c nl lv) {i : Nat} {l : Leaf} (hl : LFine c nl i l) :
    Paid c nl (upd lv i (some l)) := fun j x hj => by
  unfold upd at hj
  split at hj
  · rename_i he; cases hj; rw [he]; exact hl
  · exact h j x hj

theorem Paid.upd_none {c : Cfg} {nl : Nat} {lv : Nat → Option Leaf} (h : Paid c nl lv) (i : Nat) : Paid c nl (upd lv i none) := fun j x hj => by
  unfold upd at hj
  split at hj
  · cases hj
  · exact h j x hj

theorem LFine.mono {c : Cfg} {nl nl' i : Nat} {l : Leaf} (h : LFine c nl i l) (hn : nl ≤ nl') : LFine c nl' i l :=
  ⟨h.page, ⟨h.id.1, Nat.lt_of_lt_of_le h.id.2 hn⟩, fun j hj => ⟨(h.prev j hj).1, Nat.lt_of_lt_of_le (h.prev j hj).2 hn⟩,
    fun j hj => ⟨(h.next j hj).1, Nat.lt_of_lt_of_le (h.next j hj).2 hn⟩⟩

theorem Paid.mono {c : Cfg} {nl nl' : Nat} {lv : Nat → Option Leaf} (h : Paid c nl lv) (hn : nl ≤ nl') : Paid c nl' lv := fun i l hl => (h i l hl).mono hn

/-- An inner node whose links are ids given out so far. -/
structure IFine (nl ni : Nat) (i : Nat) (n : Inner) : Prop where
  id : i < ni
  heir : n.heir < nl ∨ n.heir < ni
  links : ∀ k ∈ n.links, k.2 < nl ∨ k.2 < ni

/-- Every inner node is like that. -/
def Bound (nl ni : Nat) (inn : Nat → Option Inner) : Prop := ∀ i n, inn i = some n → IFine nl ni i n

theorem Bound.upd_some {nl ni : Nat} {inn : Nat → Option Inner} (h : Bound nl ni inn) {i : Nat} {n : Inner} (hn : IFine nl ni i n) :
    Bound nl ni (upd inn i (some n)) := fun j x hj => by
  unfold upd at hj
  split at hj
  · rename_i he; cases hj; rw [he]; exact hn
  · exact h j x hj

theorem Bound.upd_none {nl ni : Nat} {inn : Nat → Option Inner} (h : Bound nl ni inn) (i : Nat) : Bound nl ni (upd inn i none) := fun j x hj => by
  unfold upd at hj
  split at hj
  · cases hj
  · exact h j x hj

theorem bound_mono {nl nl' ni ni' j : Nat} (h : j < nl ∨ j < ni) (hl : nl ≤ nl') (hi : ni ≤ ni') : j < nl' ∨ j < ni' := by omega

theorem Bound.mono {nl nl' ni ni' : Nat} {inn : Nat → Option Inner} (h : Bound nl ni inn) (hl : nl ≤ nl') (hi : ni ≤ ni') : Bound nl' ni' inn := fun i n hn =>
  ⟨Nat.lt_of_lt_of_le (h i n hn).id hi, bound_mono (h i n hn).heir hl hi, fun k hk => bound_mono ((h i n hn).links k hk) hl hi⟩

/-- All nodes are like that. -/
structure Fine (c : Cfg) (s : State) : Prop where
  leaves : Paid c s.numLeaf s.leaves
  inners : Bound s.numLeaf s.numInner s.inners
  pos : 1 ≤ s.numLeaf

/-- What a call does to the nodes. -/
structure Frame (c : Cfg) (s s' : State) : Prop where
  leaf : MFrame Leaf.dirty s.numLeaf s'.numLeaf s.leaves s'.leaves
  inner : MFrame Inner.dirty s.numInner s'.numInner s.inners s'.inners
  numLeaf : s.numLeaf ≤ s'.numLeaf
  numInner : s.numInner ≤ s'.numInner
  lastOk : s'.lastOk = s.lastOk
  fine : Fine c s → Fine c s'

theorem Frame.refl {c : Cfg} (s : State) : Frame c s s := ⟨MFrame.refl, MFrame.refl, Nat.le_refl _, Nat.le_refl _, rfl, fun hP => hP⟩

theorem Frame.trans {c : Cfg} {s s' s'' : State} (h1 : Frame c s s') (h2 : Frame c s' s'') : Frame c s s'' :=
  ⟨h1.leaf.trans h2.leaf h1.numLeaf h2.numLeaf, h1.inner.trans h2.inner h1.numInner h2.numInner, Nat.le_trans h1.numLeaf h2.numLeaf, Nat.le_trans h1.numInner h2.numInner,
    h2.lastOk.trans h1.lastOk, fun h => h2.fine (h1.fine h)⟩

/-- Only the nodes and their numbers matter. -/
theorem Frame.of_eq {c : Cfg} {s s' s'' : State} (h : Frame c s s') (h1 : s''.leaves = s'.leaves) (h2 : s''.inners = s'.inners) (h3 : s''.numLeaf = s'.numLeaf)
    (h4 : s''.numInner = s'.numInner) (h5 : s''.lastOk = s'.lastOk) : Frame c s s'' :=
  ⟨by rw [h1, h3]; exact h.leaf, by rw [h2, h4]; exact h.inner, by rw [h3]; exact h.numLeaf, by rw [h4]; exact h.numInner, h5.trans h.lastOk,
    fun hF => ⟨by rw [h1, h3]; exact (h.fine hF).leaves, by rw [h2, h3, h4]; exact (h.fine hF).inners, by rw [h3]; exact (h.fine hF).pos⟩⟩

theorem frame_setLeaf {c : Cfg} {s s' : State} {id : Nat} {l l' : Leaf} (hl : s.leaves id = some l) (h1 : s'.leaves = upd s.leaves id (some l'))
    (h2 : s'.inners = s.inners) (h3 : s'.numLeaf = s.numLeaf) (h4 : s'.numInner = s.numInner) (h5 : s'.lastOk = s.lastOk) (hd : l'.dirty = true)
    (hp : l.page = c.base + recsSize c l.recs → l'.page = c.base + recsSize c l'.recs) (hpr : l'.prev = l.prev) (hnx : l'.next = l.next) :
    Frame c s s' :=
  ⟨by rw [h1]; exact MFrame.refl.upd_some _ _ hd (Or.inl (by rw [hl]; simp)), by rw [h2]; exact MFrame.refl, by rw [h3]; exact Nat.le_refl _, by rw [h4]; exact Nat.le_refl _, h5,
    fun hF => ⟨by rw [h1, h3]; exact hF.leaves.upd_some ⟨hp (hF.leaves _ _ hl).page, (hF.leaves _ _ hl).id, by rw [hpr]; exact (hF.leaves _ _ hl).prev, by rw [hnx]; exact (hF.leaves _ _ hl).next⟩,
      by rw [h2, h3, h4]; exact hF.inners, by rw [h3]; exact hF.pos⟩⟩

theorem request_frame {c : Cfg} {s s' : State} (h : Frame c s s') (id : Nat) (x : Bytes) : Frame c s (request s' id x) := by
  unfold request
  split
  · exact h
  · exact h.of_eq rfl rfl rfl rfl rfl

theorem frontKey_frame {c : Cfg} {s s' : State} (h : Frame c s s') (recs : List Rec) (e : Bytes) : Frame c s (frontKey s' recs e).1 := by
  unfold frontKey
  split
  · exact h.of_eq rfl rfl rfl rfl rfl
  · exact h

theorem hit_lower {lt : Bytes → Bytes → Bool} {k : Bytes} {recs : List Rec} {r : Rec} (h : hit lt k recs = some r) :
    OrdMap.lowerBound lt k recs = r :: (OrdMap.lowerBound lt k recs).drop 1 := by
  unfold hit at h
  split at h
  · cases h
  · rename_i hb
    split at h
    · cases h
    · cases h; rw [hb]; rfl

theorem size_split (c : Cfg) (k : Bytes) (recs : List Rec) :
    recsSize c recs = recsSize c (below c.lt k recs) + recsSize c (OrdMap.lowerBound c.lt k recs) := by
  rw [← recsSize_append, below_append]

theorem size_hit {c : Cfg} {k : Bytes} {recs : List Rec} {r : Rec} (h : hit c.lt k recs = some r) :
    recsSize c recs = recsSize c (below c.lt k recs) + (c.recSize r + recsSize c ((OrdMap.lowerBound c.lt k recs).drop 1)) := by
  rw [← recsSize_cons, ← hit_lower h]
  exact size_split c k recs

theorem removeRec_frame {c : Cfg} {s : State} {id : Nat} {l : Leaf} {k : Bytes} {r : Rec} (hl : s.leaves id = some l) (hh : hit c.lt k l.recs = some r) : Frame c s (removeRec c s id l k r) := by
  have key : ∀ (s1 : State) (n e : Int), Frame c s s1 → Frame c s { s1 with count := n, eff := e } := fun s1 n e h => h.of_eq rfl rfl rfl rfl rfl
  have hp : l.page = c.base + recsSize c l.recs →
      l.page - c.recSize r = c.base + recsSize c (below c.lt k l.recs ++ (OrdMap.lowerBound c.lt k l.recs).drop 1) := fun h => by
    have := size_hit hh
    rw [recsSize_append]
    omega
  unfold removeRec
  dsimp only
  refine key _ _ _ ?_
  split
  · exact request_frame (frontKey_frame (frame_setLeaf hl (by rfl) (by rfl) (by rfl) (by rfl) (by rfl) (by rfl) hp (by rfl) (by rfl)) _ _) _ _
  · exact frame_setLeaf hl (by rfl) (by rfl) (by rfl) (by rfl) (by rfl) (by rfl) hp (by rfl) (by rfl)

theorem processImpl_frame {τ : Type} {c : Cfg} {s s' : State} {id : Nat} {k : Bytes} {w : Bool} {p : Bytes → ProcR τ} {o : τ}
    (h : processImpl c s id k w p = some (s', o)) : Frame c s s' := by
  simp only [processImpl, Option.bind_eq_bind] at h
  cases hl : s.leaves id with
  | none => rw [hl] at h; simp at h
  | some l =>
    rw [hl] at h
    simp only [Option.bind_some] at h
    split at h
    · rename_i r hh
      simp only [Option.some.injEq, Prod.mk.injEq] at h
      rw [← h.1]
      split
      · exact removeRec_frame hl hh
      · rename_i _ _ v _
        have hp : l.page = c.base + recsSize c l.recs → l.page + (c.recSize (r.1, v) - c.recSize r) =
            c.base + recsSize c (below c.lt k l.recs ++ (r.1, v) :: (OrdMap.lowerBound c.lt k l.recs).drop 1) := fun h => by
          have := size_hit hh
          rw [recsSize_append, recsSize_cons]
          omega
        simp only [modifyRec]
        have : ∀ (s1 : State), Frame c s s1 → ∀ (b : Bool) x, Frame c s (if b then request s1 id x else s1) := fun s1 h1 b x => by
          split
          · exact request_frame h1 _ _
          · exact h1
        split
        · exact this _ (frame_setLeaf hl (by rfl) (by rfl) (by rfl) (by rfl) (by rfl) (by rfl) hp (by rfl) (by rfl)) _ _
        · split
          · exact this _ (frame_setLeaf hl (by rfl) (by rfl) (by rfl) (by rfl) (by rfl) (by rfl) hp (by rfl) (by rfl)) _ _
          · exact frame_setLeaf hl (by rfl) (by rfl) (by rfl) (by rfl) (by rfl) (by rfl) hp (by rfl) (by rfl)
      · exact Frame.refl s
    · simp only [Option.some.injEq, Prod.mk.injEq] at h
      rw [← h.1]
      split
      · rename_i _ _ v _
        have hp : l.page = c.base + recsSize c l.recs → l.page + c.recSize (k, v) =
            c.base + recsSize c (below c.lt k l.recs ++ (k, v) :: OrdMap.lowerBound c.lt k l.recs) := fun h => by
          have := size_split c k l.recs
          rw [recsSize_append, recsSize_cons]
          omega
        simp only [insertRec]
        split
        · exact request_frame (frame_setLeaf hl (by rfl) (by rfl) (by rfl) (by rfl) (by rfl) (by rfl) hp (by rfl) (by rfl)) _ _
        · exact frame_setLeaf hl (by rfl) (by rfl) (by rfl) (by rfl) (by rfl) (by rfl) hp (by rfl) (by rfl)
      · exact Frame.refl s

theorem addLink_mem {lt : Bytes → Bytes → Bool} {links : List (Bytes × Nat)} {k : Bytes} {ch : Nat} {e : Bytes × Nat} (h : e ∈ addLink lt links k ch) :
    e ∈ links ∨ e.2 = ch := by
  unfold addLink at h
  rcases List.mem_append.1 h with h | h
  · exact Or.inl ((List.takeWhile_subset _) h)
  · rcases List.mem_cons.1 h with h | h
    · exact Or.inr (by rw [h])
    · exact Or.inl ((List.dropWhile_suffix _).subset h)

theorem foldl_addLink_mem {lt : Bytes → Bytes → Bool} {Q : Nat → Prop} : ∀ (l acc : List (Bytes × Nat)), (∀ e ∈ l, Q e.2) → (∀ e ∈ acc, Q e.2) →
    ∀ e ∈ l.foldl (fun acc l => addLink lt acc l.1 l.2) acc, Q e.2
  | [], acc, _, h, e, he => h e he
  | x :: l, acc, hl, ha, e, he => by
    refine foldl_addLink_mem l _ (fun e he => hl e (by simp [he])) (fun e he => ?_) e he
    rcases addLink_mem he with h | h
    · exact ha e h
    · rw [h]; exact hl x (by simp)

theorem addUp_frame {c : Cfg} : ∀ (hist : List Nat) (s s' : State) (heir ch : Nat) (k : Bytes), addUp c s hist heir ch k = some s' →
    (Fine c s → (heir < s.numLeaf ∨ heir < s.numInner) ∧ (ch < s.numLeaf ∨ ch < s.numInner)) → Frame c s s'
  | [], s, s', heir, ch, k, h, hb => by
    simp only [addUp, Option.some.injEq] at h
    subst h
    refine ⟨MFrame.refl, MFrame.refl.upd_some _ _ rfl (Or.inr ⟨Nat.le_refl _, Nat.lt_succ_self _⟩), Nat.le_refl _, Nat.le_succ _, rfl, fun hF => ⟨hF.leaves, ?_, hF.pos⟩⟩
    refine (hF.inners.mono (Nat.le_refl _) (Nat.le_succ _)).upd_some ⟨Nat.lt_succ_self _, bound_mono (hb hF).1 (Nat.le_refl _) (Nat.le_succ _), fun e he => ?_⟩
    rcases addLink_mem he with h | h
    · cases h
    · rw [h]; exact bound_mono (hb hF).2 (Nat.le_refl _) (Nat.le_succ _)
  | id :: hist, s, s', heir, ch, k, h, hb => by
    simp only [addUp, Option.bind_eq_bind] at h
    cases hn : s.inners id with
    | none => rw [hn] at h; simp at h
    | some nd =>
      rw [hn] at h
      simp only [Option.bind_some] at h
      have hlk : Fine c s → ∀ e ∈ addLink c.lt nd.links k ch, e.2 < s.numLeaf ∨ e.2 < s.numInner := fun hF e he => by
        rcases addLink_mem he with h | h
        · exact (hF.inners _ _ hn).links e h
        · rw [h]; exact (hb hF).2
      split at h
      · simp only [Option.some.injEq] at h
        subst h
        exact ⟨MFrame.refl, MFrame.refl.upd_some _ _ rfl (Or.inl (by rw [hn]; simp)), Nat.le_refl _, Nat.le_refl _, rfl,
          fun hF => ⟨hF.leaves, hF.inners.upd_some ⟨(hF.inners _ _ hn).id, (hF.inners _ _ hn).heir, hlk hF⟩, hF.pos⟩⟩
      · cases hm : (addLink c.lt nd.links k ch)[(addLink c.lt nd.links k ch).length / 2]? with
        | none => rw [hm] at h; simp at h
        | some m =>
          rw [hm] at h
          simp only [Option.bind_some] at h
          refine Frame.trans ?_ (addUp_frame hist _ s' _ _ _ h fun hF => ⟨Or.inr ?_, Or.inr (Nat.lt_succ_self _)⟩)
          · refine ⟨MFrame.refl, (MFrame.refl.upd_some _ _ rfl (Or.inl (by rw [hn]; simp))).upd_some _ _ rfl (Or.inr ⟨Nat.le_refl _, Nat.lt_succ_self _⟩), Nat.le_refl _, Nat.le_succ _, rfl,
              fun hF => ⟨hF.leaves, ?_, hF.pos⟩⟩
            have hs : s.numInner ≤ s.numInner + 1 := Nat.le_succ _
            refine ((hF.inners.mono (Nat.le_refl _) hs).upd_some ⟨?_, ?_, fun e he => ?_⟩).upd_some ⟨Nat.lt_succ_self _, ?_, ?_⟩
            · exact Nat.lt_succ_of_lt (hF.inners _ _ hn).id
            · exact bound_mono (hF.inners _ _ hn).heir (Nat.le_refl _) hs
            · exact bound_mono (hlk hF e (List.mem_of_mem_take he)) (Nat.le_refl _) hs
            · exact bound_mono (hlk hF m (List.mem_of_getElem? hm)) (Nat.le_refl _) hs
            · exact foldl_addLink_mem (Q := fun j => j < s.numLeaf ∨ j < s.numInner + 1) _ _
                (fun e he => bound_mono (hlk hF e (List.mem_of_mem_drop he)) (Nat.le_refl _) hs) (by simp)
          · have := hF.inners id
            simp only [upd] at this
            by_cases he : id = s.numInner
            · simp only [he, if_true] at this
              rw [he]
              exact Nat.lt_succ_self _
            · simp only [if_neg he, if_true] at this
              exact (this _ rfl).id

theorem setPrev_frame {k k' : Nat} {f lv lv' : Nat → Option Leaf} {id p : Option Nat} (h : setPrev lv id p = some lv') (hf : MFrame Leaf.dirty k k' f lv) :
    MFrame Leaf.dirty k k' f lv' := by
  cases id with
  | none => simp only [setPrev, Option.some.injEq] at h; rw [← h]; exact hf
  | some n =>
    simp only [setPrev, Option.map_eq_some_iff] at h
    obtain ⟨l, h1, h2⟩ := h
    rw [← h2]
    exact hf.upd_some _ _ rfl (Or.inl (by rw [h1]; simp))

theorem setPrev_paid {c : Cfg} {nl : Nat} {lv lv' : Nat → Option Leaf} {id p : Option Nat} (h : setPrev lv id p = some lv') (hf : Paid c nl lv)
    (hp : ∀ j, p = some j → 1 ≤ j ∧ j < nl) : Paid c nl lv' := by
  cases id with
  | none => simp only [setPrev, Option.some.injEq] at h; rw [← h]; exact hf
  | some n =>
    simp only [setPrev, Option.map_eq_some_iff] at h
    obtain ⟨l, h1, h2⟩ := h
    rw [← h2]
    exact hf.upd_some ⟨(hf n l h1).page, (hf n l h1).id, hp, (hf n l h1).next⟩

/-- A link back leaves the records and sizes as they are. -/
theorem setPrev_recs {lv lv' : Nat → Option Leaf} {id p : Option Nat} (h : setPrev lv id p = some lv') {i : Nat} {l' : Leaf} (hl : lv' i = some l') :
    ∃ l, lv i = some l ∧ l'.recs = l.recs ∧ l'.page = l.page := by
  cases id with
  | none => simp only [setPrev, Option.some.injEq] at h; exact ⟨l', h ▸ hl, rfl, rfl⟩
  | some n =>
    simp only [setPrev, Option.map_eq_some_iff] at h
    obtain ⟨l, h1, h2⟩ := h
    rw [← h2] at hl
    unfold upd at hl
    split at hl
    · rename_i he; cases hl; exact ⟨l, he ▸ h1, rfl, rfl⟩
    · exact ⟨l', hl, rfl, rfl⟩

theorem setNext_paid {c : Cfg} {nl : Nat} {lv lv' : Nat → Option Leaf} {id p : Option Nat} (h : setNext lv id p = some lv') (hf : Paid c nl lv)
    (hp : ∀ j, p = some j → 1 ≤ j ∧ j < nl) : Paid c nl lv' := by
  cases id with
  | none => simp only [setNext, Option.some.injEq] at h; rw [← h]; exact hf
  | some n =>
    simp only [setNext, Option.map_eq_some_iff] at h
    obtain ⟨l, h1, h2⟩ := h
    rw [← h2]
    exact hf.upd_some ⟨(hf n l h1).page, (hf n l h1).id, (hf n l h1).prev, hp⟩

theorem setNext_frame {k k' : Nat} {f lv lv' : Nat → Option Leaf} {id p : Option Nat} (h : setNext lv id p = some lv') (hf : MFrame Leaf.dirty k k' f lv) :
    MFrame Leaf.dirty k k' f lv' := by
  cases id with
  | none => simp only [setNext, Option.some.injEq] at h; rw [← h]; exact hf
  | some n =>
    simp only [setNext, Option.map_eq_some_iff] at h
    obtain ⟨l, h1, h2⟩ := h
    rw [← h2]
    exact hf.upd_some _ _ rfl (Or.inl (by rw [h1]; simp))

theorem divide_frame {c : Cfg} {s s' : State} {id : Nat} {x : Bytes} (h : divide c s id x = some s') : Frame c s s' := by
  simp only [divide, Option.bind_eq_bind] at h
  obtain ⟨t, _, h⟩ := Option.bind_eq_some_iff.1 h
  split at h
  · cases h
  obtain ⟨r, h1, h⟩ := Option.bind_eq_some_iff.1 h
  simp only [divideLeaf, Option.bind_eq_bind] at h1
  obtain ⟨l, hl, h1⟩ := Option.bind_eq_some_iff.1 h1
  obtain ⟨m, _, h1⟩ := Option.bind_eq_some_iff.1 h1
  obtain ⟨lv, h2, h1⟩ := Option.bind_eq_some_iff.1 h1
  obtain ⟨l1, h3, h1⟩ := Option.bind_eq_some_iff.1 h1
  simp only [Option.some.injEq] at h1
  refine Frame.trans ?_ (addUp_frame _ _ _ _ _ _ h fun hF => ⟨Or.inl ?_, Or.inl ?_⟩)
  · rw [← h1]
    refine ⟨(setPrev_frame h2 (MFrame.refl.upd_some _ _ rfl (Or.inr ⟨Nat.le_refl _, Nat.lt_succ_self _⟩))).upd_some _ _ rfl (Or.inl (by rw [h3]; simp)), MFrame.refl, Nat.le_succ _, Nat.le_refl _, rfl, fun hF => ?_⟩
    have hs : s.numLeaf ≤ s.numLeaf + 1 := Nat.le_succ _
    have h4 := hF.leaves _ _ hl
    have hP : Paid c (s.numLeaf + 1) lv := setPrev_paid h2 ((hF.leaves.mono hs).upd_some
      ⟨rfl, ⟨hF.pos, Nat.lt_succ_self _⟩, fun j hj => (by cases hj; exact (h4.mono hs).id), (h4.mono hs).next⟩) fun j hj => by cases hj; exact ⟨hF.pos, Nat.lt_succ_self _⟩
    refine ⟨hP.upd_some ⟨?_, (h4.mono hs).id, (hP _ _ h3).prev, fun j hj => (by cases hj; exact ⟨hF.pos, Nat.lt_succ_self _⟩)⟩, hF.inners.mono hs (Nat.le_refl _), Nat.le_succ_of_le hF.pos⟩
    have h5 : recsSize c l.recs = recsSize c (l.recs.take (l.recs.length / 2)) + recsSize c (l.recs.drop (l.recs.length / 2)) := by
      rw [← recsSize_append, List.take_append_drop]
    have h6 := h4.page
    show l.page - recsSize c (l.recs.drop (l.recs.length / 2)) = c.base + recsSize c (l.recs.take (l.recs.length / 2))
    omega
  · have := hF.leaves id
    rw [← h1] at this ⊢
    simp only [upd, if_true] at this
    exact (this _ rfl).id.2
  · rw [← h1]
    exact Nat.lt_succ_self _

theorem joinPrev_mem {links : List (Bytes × Nat)} {ch : Nat} {e : Bytes × Nat} (h : e ∈ joinPrev links ch) : e ∈ links := List.mem_of_mem_eraseP h

theorem joinNextLinks_mem {ch nx : Nat} : ∀ {links links' : List (Bytes × Nat)}, joinNextLinks ch nx links = some links' → ∀ e ∈ links', e ∈ links ∨ e.2 = nx
  | [], links', h, e, he => by
    simp only [joinNextLinks, Option.some.injEq] at h
    rw [← h] at he
    cases he
  | l :: rest, links', h, e, he => by
    simp only [joinNextLinks] at h
    split at h
    · split at h
      · cases h
      · cases h
        rcases List.mem_cons.1 he with rfl | he
        · exact Or.inr rfl
        · exact Or.inl (by simp [he])
    · simp only [Option.map_eq_some_iff] at h
      obtain ⟨r, h1, h2⟩ := h
      rw [← h2] at he
      rcases List.mem_cons.1 he with rfl | he
      · exact Or.inl (by simp)
      · rcases joinNextLinks_mem h1 e he with h | h
        · exact Or.inl (by simp [h])
        · exact Or.inr h

theorem joinNext_fine {nl ni i : Nat} {n n' : Inner} {ch nx : Nat} (h : joinNext n ch nx = some n') (hn : IFine nl ni i n) (hx : nx < nl ∨ nx < ni) : IFine nl ni i n' := by
  unfold joinNext at h
  split at h
  · split at h
    · cases h
    · rename_i hl
      cases h
      exact ⟨hn.id, hx, fun k hk => hn.links k (by rw [hl]; simp [hk])⟩
  · simp only [Option.map_eq_some_iff] at h
    obtain ⟨l, h1, h⟩ := h
    rw [← h]
    refine ⟨hn.id, hn.heir, fun k hk => ?_⟩
    rcases joinNextLinks_mem h1 k hk with h | h
    · exact hn.links k h
    · rw [h]; exact hx

theorem mergePrev_frame {c : Cfg} {s s' : State} {pid id a : Nat} {p : Inner} {nx : Option Nat} (hp : s.inners pid = some p)
    (h : mergePrev c s pid p id a nx = some s') : Frame c s s' := by
  simp only [mergePrev, Option.bind_eq_bind] at h
  obtain ⟨l, hl, h⟩ := Option.bind_eq_some_iff.1 h
  obtain ⟨la, ha, h⟩ := Option.bind_eq_some_iff.1 h
  obtain ⟨lv, h2, h⟩ := Option.bind_eq_some_iff.1 h
  simp only [Option.some.injEq] at h
  rw [← h]
  refine ⟨(setPrev_frame h2 (MFrame.refl.upd_some _ _ rfl (Or.inl (by rw [ha]; simp)))).upd_none _, MFrame.refl.upd_some _ _ rfl (Or.inl (by rw [hp]; simp)), Nat.le_refl _, Nat.le_refl _, rfl,
    fun hF => ⟨(setPrev_paid h2 (hF.leaves.upd_some ⟨?_, (hF.leaves _ _ ha).id, (hF.leaves _ _ ha).prev, (hF.leaves _ _ hl).next⟩)
      fun j hj => (by cases hj; exact (hF.leaves _ _ ha).id)).upd_none _,
      hF.inners.upd_some ⟨(hF.inners _ _ hp).id, (hF.inners _ _ hp).heir, fun k hk => (hF.inners _ _ hp).links k (joinPrev_mem hk)⟩, hF.pos⟩⟩
  have h3 := (hF.leaves _ _ hl).page
  have h4 := (hF.leaves _ _ ha).page
  show la.page + (l.page - c.base) = c.base + recsSize c (la.recs ++ l.recs)
  rw [recsSize_append]
  omega

theorem joinNext_dirty {n n' : Inner} {ch nx : Nat} (h : joinNext n ch nx = some n') : n'.dirty = true := by
  unfold joinNext at h
  split at h
  · split at h
    · cases h
    · cases h; rfl
  · simp only [Option.map_eq_some_iff] at h
    obtain ⟨_, _, h⟩ := h
    rw [← h]

theorem mergeNext_frame {c : Cfg} {s s' : State} {pid id b : Nat} {p : Inner} {pv : Option Nat} (hp : s.inners pid = some p)
    (h : mergeNext c s pid p id b pv = some s') : Frame c s s' := by
  simp only [mergeNext, Option.bind_eq_bind] at h
  obtain ⟨l, hl, h⟩ := Option.bind_eq_some_iff.1 h
  obtain ⟨lb, hb, h⟩ := Option.bind_eq_some_iff.1 h
  obtain ⟨lv, h2, h⟩ := Option.bind_eq_some_iff.1 h
  obtain ⟨p', h3, h⟩ := Option.bind_eq_some_iff.1 h
  simp only [Option.some.injEq] at h
  rw [← h]
  refine ⟨(setNext_frame h2 (MFrame.refl.upd_some _ _ rfl (Or.inl (by rw [hb]; simp)))).upd_none _, MFrame.refl.upd_some _ _ (joinNext_dirty h3) (Or.inl (by rw [hp]; simp)),
    Nat.le_refl _, Nat.le_refl _, rfl, 
    fun hF => ⟨(setNext_paid h2 (hF.leaves.upd_some ⟨?_, (hF.leaves _ _ hb).id, (hF.leaves _ _ hl).prev, (hF.leaves _ _ hb).next⟩)
      fun j hj => (by cases hj; exact (hF.leaves _ _ hb).id)).upd_none _,
      hF.inners.upd_some (joinNext_fine h3 (hF.inners _ _ hp) (Or.inl (hF.leaves _ _ hb).id.2)), hF.pos⟩⟩
  have h4 := (hF.leaves _ _ hl).page
  have h5 := (hF.leaves _ _ hb).page
  show lb.page + (l.page - c.base) = c.base + recsSize c (l.recs ++ lb.recs)
  rw [recsSize_append]
  omega

theorem mergeInner_frame {c : Cfg} {s s' : State} {pid a b : Nat} {k : Bytes} (h : mergeInner s pid a b k = some s') : Frame c s s' := by
  simp only [mergeInner, Option.bind_eq_bind] at h
  obtain ⟨p, hp, h⟩ := Option.bind_eq_some_iff.1 h
  obtain ⟨na, ha, h⟩ := Option.bind_eq_some_iff.1 h
  obtain ⟨nb, hb, h⟩ := Option.bind_eq_some_iff.1 h
  simp only [Option.some.injEq] at h
  rw [← h]
  refine ⟨MFrame.refl, ((MFrame.refl.upd_some _ _ rfl (Or.inl (by rw [ha]; simp))).upd_some _ _ rfl (Or.inl (by
    unfold upd
    split
    · simp
    · rw [hp]; simp))).upd_none _, Nat.le_refl _, Nat.le_refl _, rfl, fun hF => ⟨hF.leaves, Bound.upd_none (Bound.upd_some (Bound.upd_some hF.inners ?_) ?_) _, hF.pos⟩⟩
  · refine ⟨(hF.inners _ _ ha).id, (hF.inners _ _ ha).heir, fun e he => ?_⟩
    rcases List.mem_append.1 he with he | he
    · exact (hF.inners _ _ ha).links e he
    · rcases List.mem_cons.1 he with rfl | he
      · exact (hF.inners _ _ hb).heir
      · exact (hF.inners _ _ hb).links e he
  · exact ⟨(hF.inners _ _ hp).id, (hF.inners _ _ hp).heir, fun e he => (hF.inners _ _ hp).links e (joinPrev_mem he)⟩

theorem mergeStep_frame {c : Cfg} {s s' : State} {pid id : Nat} (h : mergeStep s pid id = some s') : Frame c s s' := by
  simp only [mergeStep, Option.bind_eq_bind] at h
  obtain ⟨p, hp, h⟩ := Option.bind_eq_some_iff.1 h
  split at h
  · cases h; exact Frame.refl s
  · exact mergeInner_frame h
  · exact mergeInner_frame h
  · obtain ⟨na, _, h⟩ := Option.bind_eq_some_iff.1 h
    obtain ⟨nb, _, h⟩ := Option.bind_eq_some_iff.1 h
    split at h
    · exact mergeInner_frame h
    · exact mergeInner_frame h

theorem mergeUp_frame {c : Cfg} : ∀ (up : List Nat) (s s' : State) (id : Nat), mergeUp c s id up = some s' → Frame c s s'
  | [], s, s', id, h => by
    simp only [mergeUp, Option.bind_eq_bind] at h
    obtain ⟨nd, _, h⟩ := Option.bind_eq_some_iff.1 h
    split at h
    · split at h
      · cases h
        exact ⟨MFrame.refl, MFrame.refl.upd_none _, Nat.le_refl _, Nat.le_refl _, rfl, fun hF => ⟨hF.leaves, hF.inners.upd_none _, hF.pos⟩⟩
      · cases h; exact Frame.refl s
    · cases h; exact Frame.refl s
  | pid :: up, s, s', id, h => by
    simp only [mergeUp, Option.bind_eq_bind] at h
    obtain ⟨nd, _, h⟩ := Option.bind_eq_some_iff.1 h
    split at h
    · obtain ⟨s1, h1, h⟩ := Option.bind_eq_some_iff.1 h
      exact (mergeStep_frame h1).trans (mergeUp_frame up s1 s' pid h)
    · cases h; exact Frame.refl s

theorem merge_frame {c : Cfg} {s s' : State} {id : Nat} {x : Bytes} (h : merge c s id x = some s') : Frame c s s' := by
  simp only [merge, Option.bind_eq_bind] at h
  obtain ⟨t, _, h⟩ := Option.bind_eq_some_iff.1 h
  split at h
  · cases h
  split at h
  · cases h
  · rename_i pid up _
    obtain ⟨p, hp, h⟩ := Option.bind_eq_some_iff.1 h
    obtain ⟨s1, h1, h⟩ := Option.bind_eq_some_iff.1 h
    refine Frame.trans ?_ (mergeUp_frame _ _ _ _ h)
    unfold mergeLeaf at h1
    split at h1
    · cases h1; exact Frame.refl s
    · exact mergePrev_frame hp h1
    · exact mergeNext_frame hp h1
    · simp only [Option.bind_eq_bind] at h1
      obtain ⟨la, _, h1⟩ := Option.bind_eq_some_iff.1 h1
      obtain ⟨lb, _, h1⟩ := Option.bind_eq_some_iff.1 h1
      split at h1
      · exact mergePrev_frame hp h1
      · exact mergeNext_frame hp h1

theorem reorgLoop_frame {c : Cfg} : ∀ (n : Nat) (s s' : State) (done : List Nat), reorgLoop c n s done = some s' → Frame c s s'
  | 0, s, s', done, h => by cases h; exact Frame.refl s
  | n + 1, s, s', done, h => by
    simp only [reorgLoop, Option.bind_eq_bind] at h
    split at h
    · cases h; exact Frame.refl s
    · split at h
      · have := reorgLoop_frame n _ s' done h
        exact Frame.trans (Frame.of_eq (Frame.refl s) (by rfl) (by rfl) (by rfl) (by rfl) (by rfl)) this
      · obtain ⟨s2, h1, h⟩ := Option.bind_eq_some_iff.1 h
        refine Frame.trans ?_ (reorgLoop_frame n s2 s' _ h)
        have key : ∀ {s1 : State}, s1.leaves = s.leaves → s1.inners = s.inners → s1.numLeaf = s.numLeaf → s1.numInner = s.numInner →
            s1.lastOk = s.lastOk → Frame c s1 s2 → Frame c s s2 := fun a b c d e h => ((Frame.refl s).of_eq a b c d e).trans h
        simp only [reorgOne, Option.bind_eq_bind] at h1
        obtain ⟨l, _, h1⟩ := Option.bind_eq_some_iff.1 h1
        split at h1
        · exact key (by rfl) (by rfl) (by rfl) (by rfl) (by rfl) (divide_frame h1)
        · split at h1
          · exact key (by rfl) (by rfl) (by rfl) (by rfl) (by rfl) (merge_frame h1)
          · cases h1; exact Frame.of_eq (Frame.refl _) rfl rfl rfl rfl rfl

theorem reorgIf_frame {c : Cfg} {s s' : State} {w : Bool} (h : reorgIf c s w = some s') : Frame c s s' := by
  unfold reorgIf at h
  split at h
  · exact reorgLoop_frame _ _ _ _ h
  · cases h; exact Frame.refl s

theorem process_frame {τ : Type} {c : Cfg} {s s' : State} {k : Bytes} {w : Bool} {p : Bytes → ProcR τ} {o : τ} (h : process c s k w p = some (s', o)) : Frame c s s' := by
  simp only [process, Option.bind_eq_bind] at h
  obtain ⟨s1, h1, h⟩ := Option.bind_eq_some_iff.1 h
  obtain ⟨id, _, h⟩ := Option.bind_eq_some_iff.1 h
  exact (reorgIf_frame h1).trans (processImpl_frame h)

theorem append_frame {c : Cfg} {s s' : State} {k v d : Bytes} (h : append c s k v d = some s') : Frame c s s' := by
  simp only [append, Option.bind_eq_bind] at h
  obtain ⟨s1, h1, h⟩ := Option.bind_eq_some_iff.1 h
  obtain ⟨id, _, h⟩ := Option.bind_eq_some_iff.1 h
  rw [appendImpl_eq, Option.map_eq_some_iff] at h
  obtain ⟨⟨s2, u⟩, h2, h3⟩ := h
  cases h3
  have f2 := processImpl_frame (c := { c with eager := false }) h2
  exact (reorgIf_frame h1).trans ⟨f2.leaf, f2.inner, f2.numLeaf, f2.numInner, f2.lastOk,
    fun hF => (by
      have := f2.fine ⟨fun i l h => (by obtain ⟨a, b, c, d⟩ := hF.leaves i l h; exact ⟨a, b, c, d⟩), hF.inners, hF.pos⟩
      exact ⟨fun i l h => (by obtain ⟨a, b, c, d⟩ := this.leaves i l h; exact ⟨a, b, c, d⟩), this.inners, this.pos⟩)⟩

theorem processAll_frame {ρ : Type} {c : Cfg} {w : Bool} : ∀ (l : List (Bytes × ProcS ρ)) (ids : List Nat) (s s' : State) (r r' : ρ),
    processAll c w s ids l r = some (s', r') → Frame c s s'
  | [], ids, s, s', r, r', h => by
    cases ids <;> (simp only [processAll, Option.some.injEq, Prod.mk.injEq] at h; rw [← h.1]; exact Frame.refl s)
  | (k, p) :: l, [], s, s', r, r', h => by
    simp only [processAll, Option.some.injEq, Prod.mk.injEq] at h; rw [← h.1]; exact Frame.refl s
  | (k, p) :: l, id :: ids, s, s', r, r', h => by
    simp only [processAll, Option.bind_eq_bind] at h
    obtain ⟨⟨s1, r1⟩, h1, h⟩ := Option.bind_eq_some_iff.1 h
    exact (processImpl_frame h1).trans (processAll_frame l ids s1 s' _ _ h)

theorem processMulti_frame {ρ : Type} {c : Cfg} {s s' : State} {l : List (Bytes × ProcS ρ)} {w : Bool} {r r' : ρ}
    (h : processMulti c s l w r = some (s', r')) : Frame c s s' := by
  simp only [processMulti, Option.bind_eq_bind] at h
  obtain ⟨s1, h1, h⟩ := Option.bind_eq_some_iff.1 h
  obtain ⟨ids, _, h⟩ := Option.bind_eq_some_iff.1 h
  exact (reorgIf_frame h1).trans (processAll_frame _ _ _ _ _ _ h)

theorem processFirst_frame {τ : Type} {c : Cfg} {s s' : State} {w : Bool} {p : Bytes → ProcR τ} {o : Option τ} (h : processFirst c s w p = some (s', o)) :
    Frame c s s' := by
  simp only [processFirst, Option.bind_eq_bind] at h
  obtain ⟨s1, h1, h⟩ := Option.bind_eq_some_iff.1 h
  obtain ⟨q, _, h⟩ := Option.bind_eq_some_iff.1 h
  refine (reorgIf_frame h1).trans ?_
  split at h
  · simp only [Option.some.injEq, Prod.mk.injEq] at h; rw [← h.1]; exact Frame.refl _
  · obtain ⟨⟨s2, o2⟩, h2, h⟩ := Option.bind_eq_some_iff.1 h
    simp only [Option.some.injEq, Prod.mk.injEq] at h
    rw [← h.1]
    exact processImpl_frame h2

theorem eachKeys_frame {ρ : Type} {c : Cfg} {id : Nat} {p : ρ → Bytes → ProcR ρ} : ∀ (ks : List Bytes) (s s' : State) (r r' : ρ),
    eachKeys c id s ks p r = some (s', r') → Frame c s s'
  | [], s, s', r, r', h => by
    simp only [eachKeys, Option.some.injEq, Prod.mk.injEq] at h; rw [← h.1]; exact Frame.refl s
  | k :: ks, s, s', r, r', h => by
    simp only [eachKeys, Option.bind_eq_bind] at h
    obtain ⟨⟨s1, r1⟩, h1, h⟩ := Option.bind_eq_some_iff.1 h
    exact (processImpl_frame h1).trans (eachKeys_frame ks s1 s' _ _ h)

theorem eachLeaves_frame {ρ : Type} {c : Cfg} {w : Bool} {p : ρ → Bytes → ProcR ρ} : ∀ (n : Nat) (s s' : State) (id : Option Nat) (r r' : ρ),
    eachLeaves c w p n s id r = some (s', r') → Frame c s s'
  | n, s, s', none, r, r', h => by
    cases n <;> (simp only [eachLeaves, Option.some.injEq, Prod.mk.injEq] at h; rw [← h.1]; exact Frame.refl s)
  | 0, s, s', some id, r, r', h => by simp [eachLeaves] at h
  | n + 1, s, s', some id, r, r', h => by
    simp only [eachLeaves, Option.bind_eq_bind] at h
    obtain ⟨l, _, h⟩ := Option.bind_eq_some_iff.1 h
    split at h
    · obtain ⟨⟨s1, r1⟩, h1, h⟩ := Option.bind_eq_some_iff.1 h
      obtain ⟨l', _, h⟩ := Option.bind_eq_some_iff.1 h
      exact (eachKeys_frame _ _ _ _ _ h1).trans (eachLeaves_frame n s1 s' _ _ _ h)
    · exact eachLeaves_frame n s s' _ _ _ h

theorem processEach_frame {ρ : Type} {c : Cfg} {s s' : State} {w : Bool} {p : ρ → Bytes → ProcR ρ} {r r' : ρ} (h : processEach c s w p r = some (s', r')) :
    Frame c s s' := by
  simp only [processEach, Option.bind_eq_bind] at h
  obtain ⟨s1, h1, h⟩ := Option.bind_eq_some_iff.1 h
  exact (reorgIf_frame h1).trans (eachLeaves_frame _ _ _ _ _ _ h)

/-- The nodes are the same. -/
def Still (s s' : State) : Prop :=
  s'.leaves = s.leaves ∧ s'.inners = s.inners ∧ s'.numLeaf = s.numLeaf ∧ s'.numInner = s.numInner ∧ s'.root = s.root ∧ s'.first = s.first ∧ s'.last = s.last ∧
    s'.level = s.level ∧ s'.count = s.count ∧ s'.eff = s.eff ∧ s'.reorg = s.reorg ∧ s'.lastOk = s.lastOk

theorem Still.refl (s : State) : Still s s := ⟨rfl, rfl, rfl, rfl, rfl, rfl, rfl, rfl, rfl, rfl, rfl, rfl⟩

theorem Still.trans {s s' s'' : State} (a : Still s s') (b : Still s' s'') : Still s s'' := by
  obtain ⟨a1, a2, a3, a4, a5, a6, a7, a8, a9, a10, a11, a12⟩ := a
  obtain ⟨b1, b2, b3, b4, b5, b6, b7, b8, b9, b10, b11, b12⟩ := b
  exact ⟨b1.trans a1, b2.trans a2, b3.trans a3, b4.trans a4, b5.trans a5, b6.trans a6, b7.trans a7, b8.trans a8, b9.trans a9, b10.trans a10, b11.trans a11, b12.trans a12⟩

theorem Still.frame {c : Cfg} {s s' : State} (h : Still s s') : Frame c s s' := (Frame.refl s).of_eq h.1 h.2.1 h.2.2.1 h.2.2.2.1 h.2.2.2.2.2.2.2.2.2.2.2

theorem setIter_still (s : State) (i : Nat) (it : Iter) : Still s (s.setIter i it) := ⟨rfl, rfl, rfl, rfl, rfl, rfl, rfl, rfl, rfl, rfl, rfl, rfl⟩

theorem setFirst_still {s s' : State} {i : Nat} {f : Option Nat} {b : Bool} (h : setFirst s i f = some (s', b)) : Still s s' := by
  simp only [setFirst, Option.bind_eq_bind] at h
  obtain ⟨q, _, h⟩ := Option.bind_eq_some_iff.1 h
  split at h <;> (simp only [Option.some.injEq, Prod.mk.injEq] at h; rw [← h.1]) <;> first | exact Still.refl s | exact setIter_still s _ _

theorem setLast_still {s s' : State} {i : Nat} {f : Option Nat} {b : Bool} (h : setLast s i f = some (s', b)) : Still s s' := by
  simp only [setLast, Option.bind_eq_bind] at h
  obtain ⟨q, _, h⟩ := Option.bind_eq_some_iff.1 h
  split at h <;> (simp only [Option.some.injEq, Prod.mk.injEq] at h; rw [← h.1]) <;> first | exact Still.refl s | exact setIter_still s _ _

theorem nextImpl_still {c : Cfg} {s s' : State} {i : Nat} {x : Bytes} (h : nextImpl c s i x = some s') : Still s s' := by
  simp only [nextImpl, Option.bind_eq_bind] at h
  obtain ⟨id, _, h⟩ := Option.bind_eq_some_iff.1 h
  obtain ⟨l, _, h⟩ := Option.bind_eq_some_iff.1 h
  split at h
  · cases h; exact setIter_still s _ _
  · obtain ⟨⟨t, b⟩, h1, h⟩ := Option.bind_eq_some_iff.1 h
    simp only at h
    split at h
    · cases h; exact setFirst_still h1
    · cases h; exact setIter_still s _ _

theorem prevImpl_still {c : Cfg} {s s' : State} {i : Nat} {x : Bytes} (h : prevImpl c s i x = some s') : Still s s' := by
  simp only [prevImpl, Option.bind_eq_bind] at h
  obtain ⟨id, _, h⟩ := Option.bind_eq_some_iff.1 h
  obtain ⟨l, _, h⟩ := Option.bind_eq_some_iff.1 h
  split at h
  · cases h; exact setIter_still s _ _
  · obtain ⟨⟨t, b⟩, h1, h⟩ := Option.bind_eq_some_iff.1 h
    simp only at h
    split at h
    · cases h; exact setLast_still h1
    · cases h; exact setIter_still s _ _

theorem sync_still {c : Cfg} {s s' : State} {i : Nat} {x : Bytes} {q : Option (Nat × Rec)} (h : sync c s i x = some (s', q)) : Still s s' := by
  simp only [sync, Option.bind_eq_bind] at h
  obtain ⟨id, _, h⟩ := Option.bind_eq_some_iff.1 h
  obtain ⟨l, _, h⟩ := Option.bind_eq_some_iff.1 h
  split at h
  · simp only [Option.some.injEq, Prod.mk.injEq] at h; rw [← h.1]; exact setIter_still s _ _
  · obtain ⟨q', h1, h⟩ := Option.bind_eq_some_iff.1 h
    split at h <;> (simp only [Option.some.injEq, Prod.mk.injEq] at h; rw [← h.1]; exact setIter_still s _ _)

theorem iterProcess_frame {τ : Type} {c : Cfg} {s s' : State} {i : Nat} {w : Bool} {p : Bytes → ProcR τ} {o : Option τ}
    (h : iterProcess c s i w p = some (s', o)) : Frame c s s' := by
  simp only [iterProcess, Option.bind_eq_bind] at h
  obtain ⟨s1, h1, h⟩ := Option.bind_eq_some_iff.1 h
  refine (reorgIf_frame h1).trans ?_
  split at h
  · simp only [Option.some.injEq, Prod.mk.injEq] at h; rw [← h.1]; exact Frame.refl _
  · obtain ⟨⟨s2, q⟩, h2, h⟩ := Option.bind_eq_some_iff.1 h
    refine (sync_still h2).frame.trans ?_
    split at h
    · simp only [Option.some.injEq, Prod.mk.injEq] at h; rw [← h.1]; exact Frame.refl _
    · split at h
      · obtain ⟨⟨s3, o3⟩, h3, h⟩ := Option.bind_eq_some_iff.1 h
        simp only [Option.some.injEq, Prod.mk.injEq] at h
        rw [← h.1]
        exact processImpl_frame h3
      · simp only [Option.some.injEq, Prod.mk.injEq] at h; rw [← h.1]; exact Frame.refl _

theorem upperLoop_still {c : Cfg} {i : Nat} {x : Bytes} {incl : Bool} : ∀ (n : Nat) (s s' : State), upperLoop c i x incl n s = some s' → Still s s'
  | 0, s, s', h => by simp [upperLoop] at h
  | n + 1, s, s', h => by
    simp only [upperLoop, Option.bind_eq_bind] at h
    split at h
    · cases h; exact setIter_still s _ _
    · split at h
      · cases h; exact Still.refl s
      · obtain ⟨s1, h1, h⟩ := Option.bind_eq_some_iff.1 h
        exact (nextImpl_still h1).trans (upperLoop_still n s1 s' h)

theorem lowerLoop_still {c : Cfg} {i : Nat} {x : Bytes} {incl : Bool} : ∀ (n : Nat) (s s' : State), lowerLoop c i x incl n s = some s' → Still s s'
  | 0, s, s', h => by simp [lowerLoop] at h
  | n + 1, s, s', h => by
    simp only [lowerLoop, Option.bind_eq_bind] at h
    split at h
    · cases h; exact setIter_still s _ _
    · split at h
      · cases h; exact Still.refl s
      · obtain ⟨s1, h1, h⟩ := Option.bind_eq_some_iff.1 h
        exact (prevImpl_still h1).trans (lowerLoop_still n s1 s' h)

theorem jumpUpper_still {c : Cfg} {s s' : State} {i : Nat} {x : Bytes} {incl : Bool} (h : jumpUpper c s i x incl = some s') : Still s s' := by
  simp only [jumpUpper, Option.bind_eq_bind] at h
  obtain ⟨⟨s1, q⟩, h1, h⟩ := Option.bind_eq_some_iff.1 h
  refine (setIter_still s i _).trans ((sync_still h1).trans ?_)
  split at h
  · cases h; exact Still.refl _
  · exact upperLoop_still _ _ _ h

theorem jumpLower_still {c : Cfg} {s s' : State} {i : Nat} {x : Bytes} {incl : Bool} (h : jumpLower c s i x incl = some s') : Still s s' := by
  simp only [jumpLower, Option.bind_eq_bind] at h
  obtain ⟨⟨s1, q⟩, h1, h⟩ := Option.bind_eq_some_iff.1 h
  refine (setIter_still s i _).trans ((sync_still h1).trans ?_)
  split at h
  · obtain ⟨⟨t, b⟩, h2, h⟩ := Option.bind_eq_some_iff.1 h
    refine (setLast_still h2).trans ?_
    simp only at h
    split at h
    · exact lowerLoop_still _ _ _ h
    · cases h; exact Still.refl _
  · exact lowerLoop_still _ _ _ h

end Verif.BTree
