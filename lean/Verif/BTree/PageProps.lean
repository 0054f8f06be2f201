import Verif.BTree.PagedHist
import Verif.BTree.Props

/-!
# C16, C62, C63: TreeDBM with its node cache and its pages

The property theorems: pages and metadata survive being written and read; a TreeDBM whose nodes come and go between the cache and the file, that is synchronised, closed and opened, is still
the ordered map of C15, but for what a wrong `last_id` does to `Last` and `JumpLower`.
-/

namespace Verif.BTree

/-! ### Pages -/

/-- C16: the page of a leaf node, read again, is the leaf node.  The size that the node carries is right (`hp`), the page is smaller than 2 GiB, and the ids fit in six bytes; 0 is
no id. -/
theorem C16_leaf_page {l : Leaf} (hp : l.page = 12 + ((l.recs.map fun r => Codec.sizeVarNum r.1.length + r.1.length + Codec.sizeVarNum r.2.length + r.2.length).sum : Nat))
    (hlt : l.page < 2 ^ 31) (h1 : ∀ i, l.prev = some i → 0 < i ∧ i < 2 ^ 48) (h2 : ∀ i, l.next = some i → 0 < i ∧ i < 2 ^ 48) :
    ∃ b, saveLeaf l = some b ∧ (b.length : Int) = l.page ∧ loadLeaf b = .ok { l with dirty := false } := by
  have hlen : ((leafBytes l).length : Int) = l.page := by
    rw [hp, leafBytes_length]
    simp only [recBytes_length]
    omega
  have hid : ∀ o : Option Nat, (∀ i, o = some i → 0 < i ∧ i < 2 ^ 48) → idOf o < 2 ^ 48 ∧ o ≠ some 0 := by
    intro o ho
    cases o with
    | none => simp [idOf]
    | some i => exact ⟨(ho i rfl).2, fun h => by cases h; exact absurd (ho 0 rfl).1 (by omega)⟩
  obtain ⟨k1, k2⟩ := leaf_roundtrip (by omega) hlt (hid _ h1).1 (hid _ h2).1 (hid _ h1).2 (hid _ h2).2
  exact ⟨_, k1, hlen, k2⟩

/-- C16: the page of an inner node, read again, is the inner node. -/
theorem C16_inner_page {n : Inner} (hlt : 6 + (n.links.map fun k => Codec.sizeVarNum k.1.length + k.1.length + 6).sum < 2 ^ 31) (h1 : n.heir < 2 ^ 48)
    (h2 : ∀ k ∈ n.links, k.2 < 2 ^ 48) : ∃ b, saveInner n = some b ∧ loadInner b = .ok { n with dirty := false } := by
  obtain ⟨k1, k2⟩ := inner_roundtrip hlt h1 h2
  exact ⟨_, k1, k2⟩

/-- Two nodes never share a page. -/
theorem C16_pages_distinct {i j : Nat} (hi : i < 2 ^ 48) (hj : j < 2 ^ 48) (h : pageKey i = pageKey j) : i = j := pageKey_inj hi hj h

/-- C63: the metadata of every field but `last` and the opaque data survive. -/
theorem C63_metadata_partial {m : Meta} (h1 : m.numRecords < 2 ^ 48) (h2 : m.effDataSize < 2 ^ 48) (h3 : m.root < 2 ^ 48) (h4 : m.first < 2 ^ 48)
    (h6 : m.numLeaf < 2 ^ 48) (h7 : m.numInner < 2 ^ 48) (h8 : m.maxPage < 2 ^ 24) (h9 : m.branch < 2 ^ 24) (h10 : m.level < 2 ^ 8) (h11 : m.comp < 2 ^ 8) :
    parseMeta (saveMeta m) = some { m with last := m.first, opaqueData := m.opaqueData.take 10 ++ List.replicate (10 - (m.opaqueData.take 10).length) 0 } :=
  meta_roundtrip h1 h2 h3 h4 h6 h7 h8 h9 h10 h11

/-- A leaf node and an inner node that meet the conditions above. -/
example : let l : Leaf := { page := 22, prev := some 3, next := none, recs := [([1, 2], [3]), ([4], [5, 6])], dirty := true }
    l.page = 12 + ((l.recs.map fun r => Codec.sizeVarNum r.1.length + r.1.length + Codec.sizeVarNum r.2.length + r.2.length).sum : Nat) ∧
      saveLeaf l = some [0, 0, 0, 0, 0, 3, 0, 0, 0, 0, 0, 0, 2, 1, 2, 1, 3, 1, 4, 2, 5, 6] := by
  decide +kernel

example : saveInner ⟨5, [([1], 7), ([2], 300)], true⟩ = some [0, 0, 0, 0, 0, 5, 1, 1, 0, 0, 0, 0, 0, 7, 1, 2, 0, 0, 0, 0, 1, 44] := by decide +kernel

/-- C63: the metadata do not survive: `last_id` is read from the field of `first_id`. -/
theorem C63_metadata_violated : ∃ m : Meta, (m.numRecords < 2 ^ 48 ∧ m.last < 2 ^ 48 ∧ m.opaqueData.length = 10) ∧ (parseMeta (saveMeta m)).map (·.last) ≠ some m.last :=
  ⟨⟨2, 4, 3 * 2 ^ 46, 1, 2, 2, 1, 8130, 256, 2, 1, List.replicate 10 0⟩, by decide, by decide +kernel⟩

/-! ### Histories -/

/-- C63: every history of a new TreeDBM with calls, nodes being saved, nodes leaving the cache, `Synchronize`, and `Close` followed by `Open`, in any order, gives the results of an
ordered map that is not affected by anything but the calls, except that the iterators lose their positions when the database is closed.  A history may stop because a number does not fit
in its field (the number of nodes or records, the size of a page or of all records).
Missing: `Last` and `JumpLower` between an `Open` and the next `Clear` (`lastSafe`), which start from a wrong leaf (`C63_last_violated`). -/
theorem C63_history_partial (E : Env) {maxPage branch comp : Nat} (hw : StrictWeak (E.order comp)) (hm : 1 ≤ maxPage ∧ maxPage < 2 ^ 24) (hb : 2 ≤ branch ∧ branch < 2 ^ 24)
    (hc : comp ∈ compTypes ∨ comp = 255) (o : Bytes) {ω : Type} (l : List (Event ω)) (hl : lastSafe true l = true) :
    ∃ P, create E maxPage branch comp o = .ok P ∧
      (P.run E l = .error .overflow ∨ ∃ Q outs t, P.run E l = .ok (Q, outs) ∧ outs.map (·.1) = l ∧ PHistory (E.order comp) false OMap.St.empty outs t ∧
        OrdMap.Sorted (E.order comp) t.recs) := by
  obtain ⟨P, h1, h2, h3, _, _, h6⟩ := create_spec (E := E) ⟨hw, hm, hb, hc⟩ o
  refine ⟨P, h1, ?_⟩
  rcases run_spec l true h2 (fun _ => h3) hl with k | ⟨Q, outs, L', t', k1, k2, k3, k4, k5⟩
  · exact Or.inl k
  · refine Or.inr ⟨Q, outs, t', k1, k4, ?_, ?_⟩
    · rw [h6] at k5; exact k5
    · have := k2.sim.recs ▸ contents_sorted k2.ok.weak k2.sim.inv.lower
      have hlt : (Q.cfg E).lt = E.order comp := by
        show E.order Q.comp = _
        rw [k3.comp, h6]
      rw [hlt] at this
      exact this

/-- Is the database closed and opened in this history? -/
def reopens {ω : Type} : Event ω → Bool
  | .reopen => true
  | _ => false

theorem lastSafe_of_open {ω : Type} : ∀ l : List (Event ω), (∀ e ∈ l, reopens e = false) → lastSafe true l = true := by
  intro l
  induction l with
  | nil => intro _; rfl
  | cons e l ih =>
    intro h
    have h2 := ih fun x hx => h x (by simp [hx])
    have h1 := h e (by simp)
    cases e with
    | call x tl ti =>
      simp only [lastSafe]
      split
      · exact h2
      · simp [h2]
    | reopen => cases h1
    | saveLeaf i => exact h2
    | saveInner i => exact h2
    | evictLeaf i => exact h2
    | evictInner i => exact h2
    | synchronize => exact h2

/-- C63: as long as the database stays open, all calls (`Last` and `JumpLower` as well) are those of an ordered map, whatever nodes are saved or leave the cache in between. -/
theorem C63_cache (E : Env) {maxPage branch comp : Nat} (hw : StrictWeak (E.order comp)) (hm : 1 ≤ maxPage ∧ maxPage < 2 ^ 24) (hb : 2 ≤ branch ∧ branch < 2 ^ 24)
    (hc : comp ∈ compTypes ∨ comp = 255) (o : Bytes) {ω : Type} (l : List (Event ω)) (hl : ∀ e ∈ l, reopens e = false) :
    ∃ P, create E maxPage branch comp o = .ok P ∧
      (P.run E l = .error .overflow ∨ ∃ Q outs t, P.run E l = .ok (Q, outs) ∧ outs.map (·.1) = l ∧ PHistory (E.order comp) false OMap.St.empty outs t ∧
        OrdMap.Sorted (E.order comp) t.recs) :=
  C63_history_partial E hw hm hb hc o l (lastSafe_of_open l hl)

theorem run_append {ω : Type} (E : Env) : ∀ (l m : List (Event ω)) (P : Paged), P.run E (l ++ m) =
    match P.run E l with
    | .error f => .error f
    | .ok (Q, a) => match Q.run E m with
      | .error f => .error f
      | .ok (R, b) => .ok (R, a ++ b) := by
  intro l
  induction l with
  | nil =>
    intro m P
    simp only [List.nil_append, Paged.run]
    cases P.run E m with
    | error f => rfl
    | ok x => rfl
  | cons e l ih =>
    intro m P
    simp only [List.cons_append, Paged.run]
    cases P.step E e with
    | error f => rfl
    | ok x =>
      simp only [ih]
      cases x.1.run E l with
      | error f => rfl
      | ok y =>
        simp only
        cases y.1.run E m with
        | error f => rfl
        | ok z => rfl

theorem pHistory_append {ω : Type} {lt : Bytes → Bytes → Bool} {fw : Bool} {e : Event ω} {o : Option (OMap.Out ω)} (he : e = .synchronize) : ∀ (a : List (Event ω × Option (OMap.Out ω))) (t t' : OMap.St),
    PHistory lt fw t a t' → PHistory lt fw t (a ++ [(e, o)]) t' := by
  subst he
  intro a
  induction a with
  | nil => intro t t' h; exact h
  | cons x a ih =>
    intro t t' h
    obtain ⟨x, p⟩ := x
    cases x with
    | call x tl ti =>
      obtain ⟨r, u, h1, h2, h3⟩ := h
      exact ⟨r, u, h1, h2, ih u t' h3⟩
    | reopen => exact ih _ t' h
    | saveLeaf i => exact ih _ t' h
    | saveInner i => exact ih _ t' h
    | evictLeaf i => exact ih _ t' h
    | evictInner i => exact ih _ t' h
    | synchronize => exact ih _ t' h

/-- C63: what is in the file right after `Synchronize` is enough: a database opened from those pages and that metadata, without `Close`, has the records of that moment.  The calls made
on it are those of an ordered map that starts with those records. -/
theorem C63_synchronized_partial (E : Env) {maxPage branch comp : Nat} (hw : StrictWeak (E.order comp)) (hm : 1 ≤ maxPage ∧ maxPage < 2 ^ 24) (hb : 2 ≤ branch ∧ branch < 2 ^ 24)
    (hc : comp ∈ compTypes ∨ comp = 255) (o : Bytes) {ω : Type} (l : List (Event ω)) (hl : lastSafe true l = true) :
    ∃ P, create E maxPage branch comp o = .ok P ∧
      (P.run E (l ++ [.synchronize]) = .error .overflow ∨ ∃ Q outs t, P.run E (l ++ [.synchronize]) = .ok (Q, outs) ∧ PHistory (E.order comp) false OMap.St.empty outs t ∧
        ∃ R, openFile Q.disk Q.metaData [] false = .ok R ∧ ∀ (m : List (Event ω)), lastSafe false m = true →
          (R.run E m = .error .overflow ∨ ∃ S outs' t', R.run E m = .ok (S, outs') ∧ outs'.map (·.1) = m ∧ PHistory (E.order comp) false ⟨t.recs, fun _ => none, []⟩ outs' t')) := by
  obtain ⟨P, h1, h2, h3, _, _, h6⟩ := create_spec (E := E) ⟨hw, hm, hb, hc⟩ o
  refine ⟨P, h1, ?_⟩
  rw [run_append]
  rcases run_spec l true h2 (fun _ => h3) hl with k | ⟨Q, outs, L', t', k1, k2, k3, k4, k5⟩
  · rw [k]; exact Or.inl rfl
  rw [k1]
  simp only [Paged.run, Paged.step]
  rcases synchronize_spec k2 with j | ⟨S, L'', j1, j2, j3, j4, j5, j6, j7, j8⟩
  · rw [j]; exact Or.inl rfl
  rw [j1]
  rw [h6] at k5
  refine Or.inr ⟨S, _, t', rfl, pHistory_append rfl outs _ t' k5, ?_⟩
  obtain ⟨R, r1, r2, r3, _⟩ := openFile_spec j2 j5 j7 j8 [] false
  rw [j6]
  refine ⟨R, r1, fun m hm => ?_⟩
  rcases run_spec m false r2 (fun h => (by cases h)) hm with v | ⟨S', outs', L3, t3, v1, v2, v3, v4, v5⟩
  · exact Or.inl v
  · refine Or.inr ⟨S', outs', t3, v1, v4, ?_⟩
    rw [r3.comp, j3.comp, k3.comp, h6] at v5
    exact v5

/-- C62: after every history that was not stopped, `Count` is the number of records of the ordered map and `GetEffectiveDataSize` the sum of the sizes of their keys and values. -/
theorem C62_sizes (E : Env) {maxPage branch comp : Nat} (hw : StrictWeak (E.order comp)) (hm : 1 ≤ maxPage ∧ maxPage < 2 ^ 24) (hb : 2 ≤ branch ∧ branch < 2 ^ 24)
    (hc : comp ∈ compTypes ∨ comp = 255) (o : Bytes) {ω : Type} (l : List (Event ω)) (hl : lastSafe true l = true) {P Q : Paged} {outs : List (Event ω × Option (OMap.Out ω))}
    (hP : create E maxPage branch comp o = .ok P) (hr : P.run E l = .ok (Q, outs)) :
    ∃ t, PHistory (E.order comp) false OMap.St.empty outs t ∧ Q.regs.count = (t.recs.length : Int) ∧
      Q.regs.eff = ((t.recs.map fun r => r.1.length + r.2.length).sum : Nat) := by
  obtain ⟨P', h1, h2, h3, _, _, h6⟩ := create_spec (E := E) ⟨hw, hm, hb, hc⟩ o
  rw [hP] at h1
  cases h1
  rcases run_spec l true h2 (fun _ => h3) hl with k | ⟨Q', outs', L', t', k1, k2, k3, k4, k5⟩
  · rw [hr] at k; cases k
  · rw [hr] at k1
    cases k1
    rw [h6] at k5
    obtain ⟨c1, c2⟩ := k2.sim.inv.count
    rw [k2.sim.recs] at c1 c2
    refine ⟨t', k5, c1, ?_⟩
    have : Q.regs.eff = dataSize t'.recs := c2
    rw [this]
    generalize t'.recs = r
    induction r with
    | nil => rfl
    | cons r m ih => rw [dataSize_cons, ih, List.map_cons, List.sum_cons]; omega

/-! ### Concrete histories -/

/-- The lexical comparator for the type numbers 1 and 255. -/
def lexEnv : Env := ⟨fun _ => bytesLt, fun _ => 0⟩

/-- The results of the calls of a history of a new TreeDBM. -/
def pagedOuts (maxPage : Nat) (l : List (Event Rec)) : Except Fault (List (OMap.Out Rec)) :=
  match create lexEnv maxPage 256 1 [] with
  | .error f => .error f
  | .ok P => (P.run lexEnv l).map fun x => x.2.filterMap (·.2)

/-- A call that loads nothing it does not change. -/
def quiet (x : OMap.Call Rec) : Event Rec := .call x (fun _ => false) fun _ => false

/-- Three leaves; nodes leave the cache; the database is closed and opened; a record is removed; a scan from the first record. -/
def pagedHistory : List (Event Rec) :=
  [quiet (put [3] [3, 3, 3, 3, 3, 3, 3, 3, 3, 3]), quiet (put [2] [2, 2, 2, 2, 2, 2, 2, 2, 2, 2]), .evictLeaf 1, quiet (put [1] [1, 1, 1, 1, 1, 1, 1, 1, 1, 1]),
    .evictInner innerIdBase, .evictLeaf 2, .saveLeaf 3, .synchronize, .reopen, quiet (del [2]), quiet .count, quiet (.iterFirst 0), quiet (OMap.look 0), .evictLeaf 1,
    quiet (.iterNext 0), quiet (OMap.look 0)]

/-- A history that meets the conditions of `C63_history_partial` and does not stop. -/
example : lastSafe true pagedHistory = true ∧ (match pagedOuts 26 pagedHistory with
    | .ok o => o.drop 4
    | .error _ => []) = [.num 2, .code .success, .res (some ([1], [1, 1, 1, 1, 1, 1, 1, 1, 1, 1])), .code .success, .res (some ([3], [3, 3, 3, 3, 3, 3, 3, 3, 3, 3]))] := by
  decide +kernel

/-- Three records in more than one leaf; the database is closed and opened; `Last`. -/
def lastHistory (reopened : Bool) : List (Event Rec) :=
  [quiet (put [3] [3, 3, 3, 3, 3, 3, 3, 3, 3, 3]), quiet (put [2] [2, 2, 2, 2, 2, 2, 2, 2, 2, 2]), quiet (put [1] [1, 1, 1, 1, 1, 1, 1, 1, 1, 1])] ++
    (if reopened then [.reopen] else []) ++ [quiet (.iterLast 0), quiet (OMap.look 0)]

/-- C63: after `Close` and `Open` the iterator's `Last` goes to the last record of the first leaf, not to the last record (`ParseMetadata`, tkrzw_dbm_tree.cc 2770). -/
theorem C63_last_violated : (match pagedOuts 26 (lastHistory false) with
    | .ok o => o.getLast?
    | .error _ => none) = some (.res (some ([3], [3, 3, 3, 3, 3, 3, 3, 3, 3, 3]))) ∧ (match pagedOuts 26 (lastHistory true) with
    | .ok o => o.getLast?
    | .error _ => none) = some (.res (some ([1], [1, 1, 1, 1, 1, 1, 1, 1, 1, 1]))) := by
  decide +kernel

/-- C63: the same for `JumpLower` with a key beyond all records. -/
theorem C63_jump_lower_violated : (match pagedOuts 26 ((lastHistory true).take 4 ++ [quiet (.iterJumpLower 0 [9] true), quiet (OMap.look 0)]) with
    | .ok o => o.getLast?
    | .error _ => none) = some (.res (some ([1], [1, 1, 1, 1, 1, 1, 1, 1, 1, 1]))) := by
  decide +kernel

/-- C63: a page size that does not fit in three bytes is not refused; the metadata that `Open` has just written are then not accepted, and a new database cannot be opened. -/
theorem C63_max_page_size_violated : (match create lexEnv (2 ^ 24) 256 1 [] with
    | .ok _ => none
    | .error f => some f) = some .openFailed := by
  decide +kernel

/-- C63: or the database opens with another page size: 2^24 + 1 becomes 1. -/
theorem C63_max_page_size_changed_violated : (match create lexEnv (2 ^ 24 + 1) 256 1 [] with
    | .ok P => some P.maxPage
    | .error _ => none) = some 1 := by
  decide +kernel

/-- C57: a leaf page whose key size is 2^31 or more passes the test of its size, which is made with an `int32_t`, and the key is read from beyond the page. -/
theorem C57_leaf_page_violated : loadLeaf ([0, 0, 0, 0, 0, 0, 0, 0, 0, 0, 0, 0] ++ Codec.writeVarNum (2 ^ 31) ++ [1, 2, 3]) = .outOfBounds := by decide +kernel

/-- C57: the same for an inner page. -/
theorem C57_inner_page_violated : loadInner ([0, 0, 0, 0, 0, 1] ++ Codec.writeVarNum (2 ^ 31) ++ [1, 2, 3, 4, 5, 6, 7]) = .outOfBounds := by decide +kernel

/-- Somewhere in the page there is a size that is negative as an `int32_t`. -/
def BadSize (s : Bytes) : Prop := ∃ u n k, u <:+ s ∧ Codec.readVarNum u = some (n, k) ∧ Codec.toInt32 n ≠ n

theorem takeSized_out {s : Bytes} {n : Nat} (h : takeSized s n = .outOfBounds) : Codec.toInt32 n ≠ n := by
  unfold takeSized at h
  split at h
  · cases h
  · split at h
    · intro hn; omega
    · cases h

theorem takeSized_suffix {s a b : Bytes} {n : Nat} (h : takeSized s n = .ok (a, b)) : b <:+ s := by
  unfold takeSized at h
  split at h
  · cases h
  · split at h
    · cases h
    · cases h; exact List.drop_suffix _ _

theorem readSized_out {s : Bytes} (h : readSized s = .outOfBounds) : BadSize s := by
  unfold readSized at h
  split at h
  · cases h
  · rename_i n k hk
    exact ⟨s, n, k, List.suffix_refl s, hk, takeSized_out h⟩

theorem readSized_suffix {s a b : Bytes} (h : readSized s = .ok (a, b)) : b <:+ s := by
  unfold readSized at h
  split at h
  · cases h
  · exact (takeSized_suffix h).trans (List.drop_suffix _ _)

theorem BadSize.mono {a b : Bytes} (h : BadSize a) (hs : a <:+ b) : BadSize b := by
  obtain ⟨u, n, k, h1, h2⟩ := h
  exact ⟨u, n, k, h1.trans hs, h2⟩

theorem Parse.map_out {α β : Type} {f : α → β} {p : Parse α} (h : p.map f = .outOfBounds) : p = .outOfBounds := by cases p <;> first | rfl | cases h

theorem loadRecs_out (s : Bytes) : loadRecs s = .outOfBounds → BadSize s := by
  induction hn : s.length using Nat.strongRecOn generalizing s with
  | ind n ih =>
    intro h
    rw [loadRecs.eq_def] at h
    split at h
    · cases h
    · split at h
      · rename_i k s1 hk
        split at h
        · rename_i v s2 hv
          have h1 := readSized_length hk
          have h2 := readSized_length hv
          exact (ih s2.length (by omega) s2 rfl (Parse.map_out h)).mono ((readSized_suffix hv).trans (readSized_suffix hk))
        · cases h
        · rename_i hv
          exact (readSized_out hv).mono (readSized_suffix hk)
      · cases h
      · rename_i hk
        exact readSized_out hk

theorem loadLinks_out (s : Bytes) : loadLinks s = .outOfBounds → BadSize s := by
  induction hn : s.length using Nat.strongRecOn generalizing s with
  | ind n ih =>
    intro h
    rw [loadLinks.eq_def] at h
    split at h
    · cases h
    · split at h
      · rename_i k s1 hk
        split at h
        · cases h
        · have h1 := readSized_length hk
          exact (ih (s1.drop 6).length (by simp only [List.length_drop]; omega) _ rfl (Parse.map_out h)).mono ((List.drop_suffix _ _).trans (readSized_suffix hk))
      · cases h
      · rename_i hk
        exact readSized_out hk

/-- C57: nothing is read from beyond a leaf page unless the page has a size of 2 GiB or more in it. -/
theorem C57_leaf_page_partial (s : Bytes) (h : ∀ u n k, u <:+ s → Codec.readVarNum u = some (n, k) → n < 2 ^ 31) : loadLeaf s ≠ .outOfBounds := by
  intro hs
  unfold loadLeaf at hs
  split at hs
  · cases hs
  · obtain ⟨u, n, k, h1, h2, h3⟩ := (loadRecs_out _ (Parse.map_out hs)).mono (List.drop_suffix _ _)
    have := h u n k h1 h2
    exact h3 (by simp only [Codec.toInt32]; split <;> omega)

/-- C57: the same for an inner page. -/
theorem C57_inner_page_partial (s : Bytes) (h : ∀ u n k, u <:+ s → Codec.readVarNum u = some (n, k) → n < 2 ^ 31) : loadInner s ≠ .outOfBounds := by
  intro hs
  unfold loadInner at hs
  split at hs
  · cases hs
  · obtain ⟨u, n, k, h1, h2, h3⟩ := (loadLinks_out _ (Parse.map_out hs)).mono (List.drop_suffix _ _)
    have := h u n k h1 h2
    exact h3 (by simp only [Codec.toInt32]; split <;> omega)

/-- A leaf page of 15 bytes that is cut short: an error, nothing else. -/
example : loadLeaf [0, 0, 0, 0, 0, 0, 0, 0, 0, 0, 0, 0, 5, 1, 2] = .broken ∧ loadInner [0, 0, 0, 0, 0, 1, 1, 1, 2, 3] = .broken := by decide +kernel

end Verif.BTree
