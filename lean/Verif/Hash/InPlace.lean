import Verif.Hash.Content
/-
The in-place update mode on the structured file: invariant and the effect of each kind of update.
-/
namespace Verif.Hash

/-- The key and the value of a record, if it is not void. -/
def Rec.kv (r : Rec) : Option (Bytes × Bytes) := if r.op = .void then none else some (r.key, r.value)

/-- The record at an offset, if it is there and not void. -/
def live (c : Cfg) (rs : List Rec) (o : Nat) : Option (Bytes × Bytes) := (recAt c (recordBase c) rs o).bind Rec.kv

/-- No two records of the same key. -/
def Uniq (c : Cfg) (rs : List Rec) : Prop :=
  ∀ o o' k v v', live c rs o = some (k, v) → live c rs o' = some (k, v') → o = o'

/-- The chain of a bucket in the in-place mode. -/
structure IChain (e : Env) (c : Cfg) (L : Lay) (i : Nat) (p : List (Nat × Rec)) : Prop where
  path : Path c L.recs (L.buckets.getD i 0) p
  nodup : (p.map (·.1)).Nodup
  mem : ∀ x ∈ p, x.2.op ≠ .void ∧ e.hash x.2.key c.nb = i
  complete : ∀ o k v, live c L.recs o = some (k, v) → e.hash k c.nb = i → o ∈ p.map (·.1)

/-- The invariant of the in-place mode. -/
structure InPlace (e : Env) (c : Cfg) (L : Lay) (pool : List FB) : Prop where
  base : Base c L
  noRemove : ∀ r ∈ L.recs, r.op ≠ .remove
  uniq : Uniq c L.recs
  chain : ∀ i, i < c.nb → ∃ p, IChain e c L i p
  fbp : ∀ b ∈ pool, ∃ r, recAt c (recordBase c) L.recs b.off = some r ∧ r.op = .void ∧ r.size c = b.size
  fbpNodup : (pool.map (·.off)).Nodup

variable {e : Env} {c : Cfg}

theorem live_append (rs : List Rec) (r : Rec) (o : Nat) :
    live c (rs ++ [r]) o = if o = recordBase c + totalSize c rs then r.kv else live c rs o := by
  unfold live
  split
  · rename_i h; rw [h, recAt_new]; rfl
  · rename_i h
    rw [recAt_append]
    cases h1 : recAt c (recordBase c) rs o with
    | some x => simp
    | none => simp [recAt, h]

theorem live_setAt {rs : List Rec} {off r r'} (h : recAt c (recordBase c) rs off = some r) (hs : r'.size c = r.size c)
    (o : Nat) : live c (setAt c (recordBase c) rs off r') o = if o = off then r'.kv else live c rs o := by
  unfold live
  split
  · rename_i e; rw [e, recAt_setAt_self h hs]; rfl
  · rename_i e; rw [recAt_setAt_other h hs e]

theorem live_of_recAt {rs : List Rec} {o r} (h : recAt c (recordBase c) rs o = some r) : live c rs o = r.kv := by
  simp [live, h]

theorem live_child {rs : List Rec} {off r ch} (h : recAt c (recordBase c) rs off = some r) (o : Nat) :
    live c (setAt c (recordBase c) rs off { r with child := ch }) o = live c rs o := by
  rw [live_setAt (r' := { r with child := ch }) h rfl]
  split
  · rename_i e; rw [e, live_of_recAt h]; rfl
  · rfl

theorem kv_some {r : Rec} {k v} : r.kv = some (k, v) ↔ r.op ≠ .void ∧ r.key = k ∧ r.value = v := by
  unfold Rec.kv; split
  · rename_i h; simp [h]
  · rename_i h; simp [h]

theorem live_some {rs : List Rec} {o k v} : live c rs o = some (k, v) ↔
    ∃ r, recAt c (recordBase c) rs o = some r ∧ r.op ≠ .void ∧ r.key = k ∧ r.value = v := by
  unfold live
  cases h : recAt c (recordBase c) rs o with
  | none => simp
  | some r => simp [kv_some]

/-- The contents of a file in which every key has at most one record. -/
theorem contents_iff (n : Nat) : ∀ (rs : List Rec), rs.length = n → (∀ r ∈ rs, r.op ≠ .remove) → Uniq c rs →
    ∀ k v, contents rs k = some v ↔ ∃ o, live c rs o = some (k, v) := by
  induction n with
  | zero =>
    intro rs hl _ _ k v
    have : rs = [] := List.length_eq_zero_iff.1 hl
    subst this
    simp [contents, Dict.empty, live, recAt]
  | succ n ih =>
    intro rs hl hn hu k v
    rcases List.eq_nil_or_concat rs with rfl | ⟨rs, r, rfl⟩
    · simp at hl
    · rw [List.concat_eq_append] at *
      have hu' : Uniq c rs := by
        intro o o' k v v' h1 h2
        have he : ∀ o k v, live c rs o = some (k, v) → live c (rs ++ [r]) o = some (k, v) := by
          intro o k v h
          rw [live_append, if_neg]; exact h
          rintro rfl
          obtain ⟨x, hx, _⟩ := live_some.1 h
          have := recAt_lt hx; have := size_pos (c := c) x; omega
        exact hu o o' k v v' (he _ _ _ h1) (he _ _ _ h2)
      have ih' := ih rs (by simpa using hl) (fun x hx => hn x (by simp [hx])) hu'
      have hnr := hn r (by simp)
      rw [contents_append]
      by_cases hv : r.op = .void
      · rw [Rec.apply_void hv, ih']
        constructor
        · rintro ⟨o, ho⟩
          refine ⟨o, ?_⟩
          rw [live_append, if_neg]; exact ho
          rintro rfl
          obtain ⟨x, hx, _⟩ := live_some.1 ho
          have := recAt_lt hx; have := size_pos (c := c) x; omega
        · rintro ⟨o, ho⟩
          rw [live_append] at ho
          split at ho
          · simp [Rec.kv, hv] at ho
          · exact ⟨o, ho⟩
      · rw [Rec.apply_set hv hnr]
        have hlive : live c (rs ++ [r]) (recordBase c + totalSize c rs) = some (r.key, r.value) := by
          rw [live_append, if_pos rfl]; simp [Rec.kv, hv]
        by_cases hk : k = r.key
        · subst hk
          rw [Dict.upd_self]
          constructor
          · rintro h; cases h; exact ⟨_, hlive⟩
          · rintro ⟨o, ho⟩
            have := hu _ _ _ _ _ ho hlive
            rw [this, hlive] at ho; cases ho; rfl
        · rw [Dict.upd_other _ _ hk, ih']
          constructor
          · rintro ⟨o, ho⟩
            refine ⟨o, ?_⟩
            rw [live_append, if_neg]; exact ho
            rintro rfl
            obtain ⟨x, hx, _⟩ := live_some.1 ho
            have := recAt_lt hx; have := size_pos (c := c) x; omega
          · rintro ⟨o, ho⟩
            rw [live_append] at ho
            split at ho
            · rw [kv_some] at ho; exact absurd ho.2.1.symm hk
            · exact ⟨o, ho⟩

theorem InPlace.contents_iff {L : Lay} {fbp} (h : InPlace e c L fbp) (k v : Bytes) :
    contents L.recs k = some v ↔ ∃ o, live c L.recs o = some (k, v) :=
  Hash.contents_iff (c := c) _ L.recs rfl h.noRemove h.uniq k v

/-- The chain of the bucket of a key contains its record, and no other record of the key. -/
theorem InPlace.find {L : Lay} {fbp} (h : InPlace e c L fbp) (k : Bytes) {p}
    (hp : IChain e c L (e.hash k c.nb) p) :
    ((∀ x ∈ p, x.2.key ≠ k) ∧ contents L.recs k = none) ∨
    ∃ a cur r b, p = a ++ (cur, r) :: b ∧ r.key = k ∧ (∀ x ∈ a, x.2.key ≠ k) ∧ contents L.recs k = some r.value := by
  by_cases hx : ∃ x ∈ p, x.2.key = k
  · obtain ⟨a, x, b, rfl, hk, ha⟩ : ∃ a x b, p = a ++ x :: b ∧ x.2.key = k ∧ ∀ y ∈ a, y.2.key ≠ k := by
      clear hp
      induction p with
      | nil => simp at hx
      | cons y p ih =>
        by_cases hy : y.2.key = k
        · exact ⟨[], y, p, rfl, hy, by simp⟩
        · obtain ⟨z, hz, hzk⟩ := hx
          rcases List.mem_cons.1 hz with rfl | hz
          · exact absurd hzk hy
          · obtain ⟨a, x, b, rfl, h1, h2⟩ := ih ⟨z, hz, hzk⟩
            refine ⟨y :: a, x, b, rfl, h1, ?_⟩
            intro w hw
            rcases List.mem_cons.1 hw with rfl | hw
            · exact hy
            · exact h2 w hw
    obtain ⟨cur, r⟩ := x
    refine Or.inr ⟨a, cur, r, b, rfl, hk, ha, ?_⟩
    rw [h.contents_iff]
    refine ⟨cur, live_some.2 ⟨r, hp.path.at (cur, r) (by simp), (hp.mem (cur, r) (by simp)).1, hk, rfl⟩⟩
  · refine Or.inl ⟨fun x hm he => hx ⟨x, hm, he⟩, ?_⟩
    cases hc : contents L.recs k with
    | none => rfl
    | some v =>
      obtain ⟨o, ho⟩ := (h.contents_iff k v).1 hc
      have := hp.complete o k v ho rfl
      obtain ⟨x, hxm, rfl⟩ := List.mem_map.1 this
      obtain ⟨r, hr, _, hk, _⟩ := live_some.1 ho
      have := hp.path.at x hxm
      rw [hr] at this; cases this
      exact absurd ⟨x, hxm, hk⟩ hx

/-- A void record, or a record of another bucket, is not in a chain. -/
theorem off_notin {rs : List Rec} {o p i off r} (h : Path c rs o p)
    (hm : ∀ x ∈ p, x.2.op ≠ .void ∧ e.hash x.2.key c.nb ≠ i) (hr : recAt c (recordBase c) rs off = some r)
    (hv : r.op = .void ∨ e.hash r.key c.nb = i) : off ∉ p.map (·.1) := by
  intro hmem
  obtain ⟨x, hx, rfl⟩ := List.mem_map.1 hmem
  have := h.at x hx
  rw [hr] at this; cases this
  rcases hv with hv | hv
  · exact (hm x hx).1 hv
  · exact (hm x hx).2 hv

/-- The invariant after an update of the bucket `i`. -/
theorem InPlace.update {L L' : Lay} {fbp fbp' : List FB} (h : InPlace e c L fbp) (i : Nat)
    (hb : Base c L') (hnr : ∀ r ∈ L'.recs, r.op ≠ .remove) (hu : Uniq c L'.recs)
    (hj : ∀ j, j ≠ i → L'.buckets.getD j 0 = L.buckets.getD j 0)
    (hp : ∀ o p, Path c L.recs o p → (∀ x ∈ p, x.2.op ≠ .void ∧ e.hash x.2.key c.nb ≠ i) → Path c L'.recs o p)
    (hl : ∀ o k v, live c L'.recs o = some (k, v) → e.hash k c.nb ≠ i → live c L.recs o = some (k, v))
    {p' : List (Nat × Rec)} (hi : IChain e c L' i p')
    (hf : ∀ b ∈ fbp', ∃ r, recAt c (recordBase c) L'.recs b.off = some r ∧ r.op = .void ∧ r.size c = b.size)
    (hfn : (fbp'.map (·.off)).Nodup) : InPlace e c L' fbp' := by
  refine ⟨hb, hnr, hu, ?_, hf, hfn⟩
  intro j hjn
  by_cases ej : j = i
  · subst ej; exact ⟨p', hi⟩
  · obtain ⟨p, hp0⟩ := h.chain j hjn
    refine ⟨p, ?_, hp0.nodup, hp0.mem, ?_⟩
    · rw [hj j ej]
      exact hp _ _ hp0.path (fun x hx => ⟨(hp0.mem x hx).1, by rw [(hp0.mem x hx).2]; exact ej⟩)
    · intro o k v ho hk
      exact hp0.complete o k v (hl o k v ho (by rw [hk]; exact ej)) hk

/-- A state in the middle of an operation that began in `L0`: all chains are sound, but some record that is not void is not in
the chain of its bucket. In the appending mode this record has been appended by the operation. -/
structure Stray (e : Env) (c : Cfg) (L0 L : Lay) : Prop where
  chains : ∀ i, i < c.nb → ∃ p, Path c L.recs (L.buckets.getD i 0) p
  stray : ∃ o r p, recAt c (recordBase c) L.recs o = some r ∧ r.op ≠ .void ∧
    Path c L.recs (L.buckets.getD (e.hash r.key c.nb) 0) p ∧ o ∉ p.map (·.1) ∧
    (c.inPlace = true ∨ (L0.end_ c ≤ o ∧ ∀ x ∈ p, x.1 < o))

/-! ### Free block pool -/

theorem mem_fbpIns {b x : FB} {l : List FB} (h : x ∈ fbpIns b l) : x = b ∨ x ∈ l := by
  induction l with
  | nil => simpa [fbpIns] using h
  | cons y l ih =>
    simp only [fbpIns] at h
    split at h
    · simpa using h
    · split at h
      · rcases List.mem_cons.1 h with rfl | h
        · simp
        · rcases ih h with h | h <;> simp [h]
      · exact Or.inr h

theorem fbpIns_nodup {b : FB} {l : List FB} (h : (l.map (·.off)).Nodup) (hb : b.off ∉ l.map (·.off)) :
    ((fbpIns b l).map (·.off)).Nodup := by
  induction l with
  | nil => simp [fbpIns]
  | cons y l ih =>
    simp only [List.map_cons, List.nodup_cons, List.mem_cons, not_or] at h hb
    simp only [fbpIns]
    split
    · simp only [List.map_cons, List.nodup_cons, List.mem_cons, not_or]; exact ⟨hb, h⟩
    · split
      · simp only [List.map_cons, List.nodup_cons]
        refine ⟨?_, ih h.2 hb.2⟩
        intro hm
        obtain ⟨x, hx, e⟩ := List.mem_map.1 hm
        rcases mem_fbpIns hx with rfl | hx
        · exact hb.1 e
        · exact h.1 (List.mem_map.2 ⟨x, hx, e⟩)
      · simp only [List.map_cons, List.nodup_cons]; exact h

theorem fbpInsert_spec {cap : Nat} (hcap : 1 ≤ cap) {l : List FB} {b : FB} (h : (l.map (·.off)).Nodup)
    (hb : b.off ∉ l.map (·.off)) :
    ∃ l', fbpInsert cap l b = some l' ∧ (∀ x ∈ l', x = b ∨ x ∈ l) ∧ (l'.map (·.off)).Nodup := by
  unfold fbpInsert
  split
  · cases l with
    | nil => rename_i h1; simp at h1; omega
    | cons x l =>
      simp only
      split
      · exact ⟨_, rfl, fun y hy => Or.inr hy, h⟩
      · simp only [List.map_cons, List.nodup_cons, List.mem_cons, not_or] at h hb
        refine ⟨_, rfl, ?_, fbpIns_nodup h.2 hb.2⟩
        intro y hy
        rcases mem_fbpIns hy with h | h <;> simp [h]
  · exact ⟨_, rfl, fun y hy => mem_fbpIns hy, fbpIns_nodup h hb⟩

theorem fbpFetch_spec {need : Nat} {l rest : List FB} {b : FB} (h : fbpFetch need l = some (b, rest))
    (hn : (l.map (·.off)).Nodup) : b ∈ l ∧ need ≤ b.size ∧ (∀ x ∈ rest, x ∈ l ∧ x.off ≠ b.off) ∧
      (rest.map (·.off)).Nodup := by
  induction l generalizing rest with
  | nil => simp [fbpFetch] at h
  | cons y l ih =>
    simp only [List.map_cons, List.nodup_cons] at hn
    simp only [fbpFetch] at h
    split at h
    · rename_i hle
      cases h
      refine ⟨by simp, hle, ?_, hn.2⟩
      intro x hx
      refine ⟨by simp [hx], ?_⟩
      intro e
      exact hn.1 (List.mem_map.2 ⟨x, hx, e⟩)
    · split at h
      · cases h
      · rename_i x r hr
        cases h
        obtain ⟨h1, h2, h3, h4⟩ := ih hr hn.2
        refine ⟨by simp [h1], h2, ?_, ?_⟩
        · intro x hx
          rcases List.mem_cons.1 hx with rfl | hx
          · refine ⟨by simp, ?_⟩
            intro e
            exact hn.1 (List.mem_map.2 ⟨b, h1, e.symm⟩)
          · exact ⟨by simp [(h3 x hx).1], (h3 x hx).2⟩
        · simp only [List.map_cons, List.nodup_cons]
          refine ⟨?_, h4⟩
          intro hm
          obtain ⟨x, hx, e⟩ := List.mem_map.1 hm
          exact hn.1 (List.mem_map.2 ⟨x, (h3 x hx).1, e⟩)

/-! ### Placing a new record -/

/-- What is known after a new record has been written at a free place. -/
structure Placed (e : Env) (c : Cfg) (L : Lay) (fbp : List FB) (w : Wr) (off : Nat) (nr : Rec) (fbp' : List FB) : Prop where
  wr : WrOk c L w
  nz : off ≠ 0
  void : nr.op ≠ .void
  noRemove : nr.op ≠ .remove
  new : recAt c (recordBase c) (applyL c L w).recs off = some nr
  old : ∀ r, recAt c (recordBase c) L.recs off = some r → r.op = .void
  other : ∀ o, o ≠ off → recAt c (recordBase c) (applyL c L w).recs o = recAt c (recordBase c) L.recs o
  buckets : (applyL c L w).buckets = L.buckets
  path : ∀ o p, Path c L.recs o p → (∀ x ∈ p, x.2.op ≠ .void) → Path c (applyL c L w).recs o p ∧ off ∉ p.map (·.1)
  pool : ∀ b ∈ fbp', b ∈ fbp ∧ b.off ≠ off
  poolNodup : (fbp'.map (·.off)).Nodup
  cont : contents (applyL c L w).recs = contents L.recs ∨
    contents (applyL c L w).recs = (contents L.recs).upd nr.key (some nr.value)

theorem place_spec {L : Lay} {fbp : List FB} (hc : CfgOk c) (hm : c.inPlace = true) (h : InPlace e c L fbp)
    {op op' : OpType} (ho : op ≠ .void ∧ op ≠ .remove) (ho' : op' ≠ .void ∧ op' ≠ .remove) {k v : Bytes} {ch : Nat}
    (hf : fits c k v) (hch : ch % (1 <<< c.ap) = 0 ∧ ch < L.end_ c) :
    ∃ nr, nr.key = k ∧ nr.value = v ∧ nr.child = ch ∧
      Placed e c L fbp (place c (L.end_ c) fbp (setData c op 0 k v ch) (fun ideal => setData c op' ideal k v ch)).2.1
        (place c (L.end_ c) fbp (setData c op 0 k v ch) (fun ideal => setData c op' ideal k v ch)).1 nr
        (place c (L.end_ c) fbp (setData c op 0 k v ch) (fun ideal => setData c op' ideal k v ch)).2.2 := by
  have happ : ∃ nr, nr.key = k ∧ nr.value = v ∧ nr.child = ch ∧
      Placed e c L fbp (.append (setData c op 0 k v ch)) (L.end_ c) nr fbp := by
    refine ⟨setData c op 0 k v ch, rfl, rfl, rfl, ?_⟩
    have hnone : ∀ r, recAt c (recordBase c) L.recs (L.end_ c) ≠ some r := by
      intro r hr
      have := recAt_lt hr; have := size_pos (c := c) r; simp only [Lay.end_] at *; omega
    refine ⟨⟨goodRec_setData hf (by omega) (by simp) hch.1, hch.2⟩, ?_, ho.1, ho.2, recAt_new _ _, ?_, ?_, rfl, ?_, ?_, h.fbpNodup, ?_⟩
    · have := recordBase_pos (c := c); simp only [Lay.end_]; omega
    · intro r hr; exact absurd hr (hnone r)
    · intro o hne
      simp only [applyL]
      rw [recAt_append]
      cases recAt c (recordBase c) L.recs o with
      | some x => rfl
      | none => simp only [Lay.end_] at hne; simp [recAt, hne]
    · intro o p hp _
      refine ⟨hp.append _, ?_⟩
      intro hmem
      obtain ⟨x, hx, ex⟩ := List.mem_map.1 hmem
      exact hnone x.2 (ex ▸ hp.at x hx)
    · intro b hb
      refine ⟨hb, ?_⟩
      obtain ⟨r, hr, _⟩ := h.fbp b hb
      intro e1; rw [e1] at hr; exact hnone r hr
    · exact Or.inr ((contents_append _ _).trans (Rec.apply_set ho.1 ho.2))
  unfold place
  rw [if_pos hm]
  cases hfe : fbpFetch ((setData c op 0 k v ch).size c) fbp with
  | none => exact happ
  | some x =>
    obtain ⟨fb, rest⟩ := x
    obtain ⟨h1, h2, h3, h4⟩ := fbpFetch_spec hfe h.fbpNodup
    obtain ⟨r, hr, hv, hs⟩ := h.fbp fb h1
    have hgood := (h.base.recs r (recAt_mem hr)).1
    have hne : fb.off ≠ 0 := by have := recAt_ge hr; have := recordBase_pos (c := c); omega
    simp only [if_neg hne]
    have hbase : baseSize c k v ≤ fb.size := by
      have : baseSize c k v ≤ (setData c op 0 k v ch).size c := by simp only [Rec.size, setData]; omega
      omega
    have hsz : (setData c op' fb.size k v ch).size c = r.size c := by
      rw [setData_size, Nat.max_eq_right hbase, alignNumber_self (by rw [← hs]; exact hgood.align), hs]
    refine ⟨setData c op' fb.size k v ch, rfl, rfl, rfl, ?_⟩
    refine ⟨⟨?_, hch.2, r, hr, hsz⟩, hne, ho'.1, ho'.2, recAt_setAt_self hr hsz, ?_, ?_, rfl, ?_, h3, h4,
      contents_fill hr hv ho'.1 ho'.2⟩
    · exact goodRec_setData hf (by rw [← hs]; exact hgood.small) (by rw [← hs]; exact hgood.align) hch.1
    · intro r' hr'; rw [hr] at hr'; cases hr'; exact hv
    · intro o hne'; exact recAt_setAt_other hr hsz hne'
    · intro o p hp hpv
      have hn : fb.off ∉ p.map (·.1) := by
        intro hmem
        obtain ⟨x, hx, ex⟩ := List.mem_map.1 hmem
        have := hp.at x hx
        rw [ex, hr] at this
        cases this; exact hpv x hx hv
      exact ⟨hp.setAt hr hsz hn, hn⟩

theorem Placed.live {L : Lay} {fbp w off nr fbp'} (h : Placed e c L fbp w off nr fbp') (o : Nat) :
    live c (applyL c L w).recs o = if o = off then some (nr.key, nr.value) else live c L.recs o := by
  unfold Hash.live
  split
  · rename_i e1; rw [e1, h.new]; simp [Rec.kv, h.void]
  · rename_i e1; rw [h.other o e1]

/-- A record that has been written but not linked. -/
theorem Placed.stray {L : Lay} {fbp w off nr fbp'} (h : Placed e c L fbp w off nr fbp') (hm : c.inPlace = true) (hI : InPlace e c L fbp)
    (hi : e.hash nr.key c.nb < c.nb) : Stray e c L (applyL c L w) := by
  have hch : ∀ i, i < c.nb → ∃ p, Path c (applyL c L w).recs ((applyL c L w).buckets.getD i 0) p ∧ off ∉ p.map (·.1) := by
    intro i hi
    obtain ⟨p, hp⟩ := hI.chain i hi
    rw [h.buckets]
    exact ⟨p, h.path _ _ hp.path fun x hx => (hp.mem x hx).1⟩
  refine ⟨fun i hi => (hch i hi).imp fun p hp => hp.1, ?_⟩
  obtain ⟨p, h1, h2⟩ := hch _ hi
  exact ⟨off, nr, p, h.new, h.void, h1, h2, Or.inl hm⟩

theorem Placed.oldLive {L : Lay} {fbp w off nr fbp'} (h : Placed e c L fbp w off nr fbp') : Hash.live c L.recs off = none := by
  unfold Hash.live
  cases hr : recAt c (recordBase c) L.recs off with
  | none => rfl
  | some r => simp [Rec.kv, h.old r hr]

end Verif.Hash
