import Verif.Shard.NestedInv
import Verif.Thread.HashMutexProps
import Verif.Dbm.TwoPhaseLive
/-
The layouts of the calls of `Nested` keep to the locks and do what the calls are to do.
-/
namespace Verif.Shard.Nested
open Verif Verif.Api Verif.Linear

section
variable {τ : Type} {C : Cfg}

/-- The keys of a group belong to its shard. -/
def GOk (C : Cfg) (g : Group) : Prop := ∀ k ∈ keysOf g, C.hash k C.shards = g.1

theorem slotOf_kept (h0 : 0 < C.env.slots) {g : Group} (hg : GOk C g) {k : Bytes} (hk : k ∈ keysOf g) : slotOf C k ∈ kept C g := by
  simp only [slotOf, kept, hg k hk]
  exact List.mem_map_of_mem (HashMutex.mem_slotSet h0 hk)

theorem kept_range {g : Group} {x : Nat} (hx : x ∈ kept C g) : g.1 * C.env.slots ≤ x ∧ x < (g.1 + 1) * C.env.slots := by
  simp only [kept, List.mem_map] at hx
  obtain ⟨s, hs, rfl⟩ := hx
  have := HashMutex.slotSet_lt hs
  simp only [lockNo, Nat.add_mul, Nat.one_mul]
  omega

theorem kept_disjoint {g g' : Group} {x : Nat} (h1 : x ∈ kept C g) (h2 : x ∈ kept C g') : g.1 = g'.1 := by
  have a := kept_range h1
  have b := kept_range h2
  rcases Nat.lt_trichotomy g.1 g'.1 with h | h | h
  · have : (g.1 + 1) * C.env.slots ≤ g'.1 * C.env.slots := Nat.mul_le_mul_right _ h
    omega
  · exact h
  · have : (g'.1 + 1) * C.env.slots ≤ g.1 * C.env.slots := Nat.mul_le_mul_right _ h
    omega

theorem upOk_changes {S : Bytes → Nat} (l : List (Bytes × Arg)) (h : List Nat) (u : List (Instr τ)) (hl : ∀ kv ∈ l, S kv.1 ∈ h) (hu : UpOk S h u) :
    UpOk S h (l.map (fun kv => .change kv.1 kv.2) ++ u) := by
  induction l with
  | nil => exact hu
  | cons kv l ih => exact ⟨hl kv (by simp), ih fun x hx => hl x (by simp [hx])⟩

theorem upOk_unlocks {S : Bytes → Nat} (l : List Nat) : ∀ (h : List Nat) (u : List (Instr τ)), UpOk S (h.filter fun x => !l.contains x) u →
    UpOk S h (l.map .unlock ++ u) := by
  induction l with
  | nil => intro h u hu; simpa using hu
  | cons y l ih =>
    intro h u hu
    refine ih _ u ?_
    rw [List.filter_filter]
    refine (congrArg (fun f => UpOk S (h.filter f) u) ?_).mp hu
    funext x
    simp only [List.contains_cons, Bool.not_or, decide_not, Bool.and_comm]
    rw [show (x == y) = decide (x = y) from rfl]

theorem upOk_groups (h0 : 0 < C.env.slots) (rs : List Group) : ∀ (h : List Nat), (rs.map (·.1)).Nodup → (∀ g ∈ rs, GOk C g) →
    (∀ x, x ∈ h ↔ x ∈ rs.flatMap (kept C)) → UpOk (τ := τ) (slotOf C) h (rs.flatMap (upOf C)) := by
  induction rs with
  | nil =>
    intro h _ _ hh
    refine List.eq_nil_iff_forall_not_mem.2 fun x hx => ?_
    have := (hh x).1 hx
    cases this
  | cons g rs ih =>
    intro h hnd hg hh
    simp only [List.map_cons, List.nodup_cons] at hnd
    rw [List.flatMap_cons, upOf, List.append_assoc]
    refine upOk_changes _ _ _ (fun kv hkv => ?_) (upOk_unlocks _ _ _ (ih _ hnd.2 (fun g hg' => hg g (by simp [hg'])) fun x => ?_))
    · rw [hh, List.flatMap_cons]
      refine List.mem_append_left _ (slotOf_kept h0 (hg g (by simp)) ?_)
      simp only [keysOf, List.map_append, List.mem_append]
      exact .inr (List.mem_map_of_mem hkv)
    · rw [List.mem_filter, hh, List.flatMap_cons, List.mem_append]
      simp only [Bool.not_eq_true', List.contains_eq_mem, decide_eq_false_iff_not, List.mem_reverse]
      constructor
      · rintro ⟨h1 | h1, h2⟩
        · exact absurd h1 h2
        · exact h1
      · intro h1
        refine ⟨.inr h1, fun h2 => ?_⟩
        obtain ⟨g', hg', h3⟩ := List.mem_flatMap.1 h1
        exact hnd.1 (List.mem_map.2 ⟨g', hg', (kept_disjoint h2 h3).symm⟩)

theorem downOk_locks {S : Bytes → Nat} {up : List (Instr τ)} {c : List (Bytes × Arg)} (l : List Nat) : ∀ (h : List Nat) (d : List (Instr τ)), l.Pairwise (· < ·) →
    (∀ x ∈ h, ∀ y ∈ l, x < y) → DownOk S up (h ++ l) c d → DownOk S up h c (l.map .lock ++ d) := by
  induction l with
  | nil => intro h d _ _ hd; simpa using hd
  | cons y l ih =>
    intro h d hp hh hd
    rw [List.pairwise_cons] at hp
    refine ⟨fun x hx => hh x hx y (by simp), ih _ d hp.2 (fun x hx z hz => ?_) (by simpa using hd)⟩
    rcases List.mem_append.1 hx with hx | hx
    · exact hh x hx z (by simp [hz])
    · simp only [List.mem_singleton] at hx
      subst hx
      exact hp.1 z hz

theorem downOk_checks {S : Bytes → Nat} {up : List (Instr τ)} (l : List (Bytes × Arg)) : ∀ (h : List Nat) (c : List (Bytes × Arg)) (d : List (Instr τ)),
    (∀ kv ∈ l, S kv.1 ∈ h) → DownOk S up h (c ++ l) d → DownOk S up h c (l.map (fun kv => .check kv.1 kv.2) ++ d) := by
  induction l with
  | nil => intro h c d _ hd; simpa using hd
  | cons kv l ih =>
    intro h c d hl hd
    exact ⟨hl kv (by simp), ih h _ d (fun x hx => hl x (by simp [hx])) (by simpa using hd)⟩

theorem downOk_groups (h0 : 0 < C.env.slots) {up : List (Instr τ)} (gs : List Group) : ∀ (pre : List Group) (h : List Nat) (c : List (Bytes × Arg)),
    ((pre ++ gs).map (·.1)).Pairwise (· < ·) → (∀ g ∈ pre ++ gs, GOk C g) → (∀ x, x ∈ h ↔ x ∈ pre.flatMap (kept C)) →
    (∀ kv ∈ c, slotOf C kv.1 ∈ pre.flatMap (kept C)) →
    (∀ h', (∀ x, x ∈ h' ↔ x ∈ (pre ++ gs).flatMap (kept C)) → UpOk (slotOf C) h' up) → DownOk (slotOf C) up h c (gs.flatMap (downOf C)) := by
  induction gs with
  | nil =>
    intro pre h c _ _ hh _ hu
    exact hu h (by simpa using hh)
  | cons g gs ih =>
    intro pre h c hp hg hh hc hu
    have hbelow : ∀ x, x ∈ pre.flatMap (kept C) → x < g.1 * C.env.slots := by
      intro x hx
      obtain ⟨g', hg', hx⟩ := List.mem_flatMap.1 hx
      have h1 := kept_range hx
      rw [List.map_append, List.pairwise_append] at hp
      have h2 := hp.2.2 g'.1 (List.mem_map_of_mem hg') g.1 (by simp)
      have : (g'.1 + 1) * C.env.slots ≤ g.1 * C.env.slots := Nat.mul_le_mul_right _ h2
      omega
    have hgg := hg g (by simp)
    rw [List.flatMap_cons, downOf, List.append_assoc, List.append_assoc]
    have hmap : ∀ l : List Nat, l.map (fun s => (Instr.lock (lockNo C g.1 s) : Instr τ)) = (l.map (lockNo C g.1)).map .lock := by
      intro l; rw [List.map_map]; rfl
    rw [hmap]
    refine downOk_locks _ _ _ ?_ ?_ ?_
    · rw [List.pairwise_map, List.pairwise_cons]
      refine ⟨fun x hx => ?_, (HashMutex.otherSlots_sorted C.env (keysOf g) (C.nb g.1)).imp ?_⟩
      · have := HashMutex.otherSlots_pos hx
        simp only [lockNo]; omega
      · intro a b hab
        simp only [lockNo]; omega
    · intro x hx y hy
      have := hbelow x ((hh x).1 hx)
      obtain ⟨s, _, rfl⟩ := List.mem_map.1 hy
      simp only [lockNo]; omega
    · -- the first slot is given up if it is not needed
      have hmid : ∀ h1 : List Nat, (∀ x, x ∈ h1 ↔ x ∈ pre.flatMap (kept C) ∨ x ∈ kept C g) →
          DownOk (slotOf C) up h1 c (g.2.1.map (fun kv => .check kv.1 kv.2) ++ gs.flatMap (downOf C)) := by
        intro h1 hh1
        have hk : ∀ kv ∈ g.2.1, slotOf C kv.1 ∈ kept C g := fun kv hkv => slotOf_kept h0 hgg (by
          simp only [keysOf, List.map_append, List.mem_append]
          exact .inl (List.mem_map_of_mem hkv))
        refine downOk_checks _ _ _ _ (fun kv hkv => (hh1 _).2 (.inr (hk kv hkv))) ?_
        refine ih (pre ++ [g]) h1 _ (by simpa using hp) (by simpa using hg) (fun x => by simp [hh1]) (fun kv hkv => ?_) (by simpa using hu)
        rw [List.flatMap_append, List.mem_append]
        rcases List.mem_append.1 hkv with hkv | hkv
        · exact .inl (hc kv hkv)
        · exact .inr (by simpa using hk kv hkv)
      have hsplit : ∀ x, x ∈ kept C g ↔ (x = lockNo C g.1 0 ∧ 0 ∈ HashMutex.slotSet C.env (keysOf g) (C.nb g.1)) ∨
          x ∈ (HashMutex.otherSlots C.env (keysOf g) (C.nb g.1)).map (lockNo C g.1) := by
        intro x
        simp only [kept, HashMutex.otherSlots, List.mem_map, List.mem_filter]
        constructor
        · rintro ⟨s, hs, rfl⟩
          by_cases hs0 : s = 0
          · subst hs0; exact .inl ⟨rfl, hs⟩
          · exact .inr ⟨s, ⟨hs, by simpa using hs0⟩, rfl⟩
        · rintro (⟨rfl, hs⟩ | ⟨s, hs, rfl⟩)
          · exact ⟨0, hs, rfl⟩
          · exact ⟨s, hs.1, rfl⟩
      split
      · rename_i hz
        refine hmid _ fun x => ?_
        rw [List.mem_append, hh, hsplit, List.map_cons, List.mem_cons]
        simp only [hz, and_true]
      · rename_i hz
        refine ⟨fun kv hkv => ?_, hmid _ fun x => ?_⟩
        · have := hbelow _ (hc kv hkv)
          simp only [lockNo]; omega
        · rw [List.mem_filter, List.mem_append, hh, hsplit, List.map_cons, List.mem_cons]
          simp only [hz, and_false, false_or, decide_eq_true_eq]
          constructor
          · rintro ⟨h1 | h1 | h1, h2⟩
            · exact .inl h1
            · exact absurd h1 h2
            · exact .inr h1
          · rintro (h1 | h1)
            · refine ⟨.inl h1, ?_⟩
              have := hbelow x h1
              simp only [lockNo]; omega
            · refine ⟨.inr (.inr h1), ?_⟩
              obtain ⟨s, hs, rfl⟩ := List.mem_map.1 h1
              have := HashMutex.otherSlots_pos hs
              simp only [lockNo]; omega

theorem groups_sorted (hash : Bytes → Nat → Nat) (n : Nat) (ex de : List (Bytes × Arg)) : ((groups hash n ex de).map (·.1)).Pairwise (· < ·) := by
  unfold groups
  rw [List.pairwise_map]
  refine List.Pairwise.filter _ ?_
  rw [List.pairwise_map]
  exact List.pairwise_lt_range

theorem groups_ok (ex de : List (Bytes × Arg)) : ∀ g ∈ groups C.hash C.shards ex de, GOk C g := by
  intro g hg k hk
  obtain ⟨_, h2, h3, _⟩ := (groups_mem _ _ _ _).1 hg
  simp only [keysOf, h2, h3, List.mem_map, List.mem_append, List.mem_filter, decide_eq_true_eq] at hk
  obtain ⟨kv, h | h, rfl⟩ := hk
  · exact h.2
  · exact h.2

/-! ### What is done -/

theorem checksIn_append (a b : List (Instr τ)) : checksIn (a ++ b) = checksIn a ++ checksIn b := by
  induction a with
  | nil => rfl
  | cons i a ih => cases i <;> simp [checksIn, ih]

theorem checksIn_checks (l : List (Bytes × Arg)) : checksIn (l.map fun kv => (.check kv.1 kv.2 : Instr τ)) = l := by
  induction l with
  | nil => rfl
  | cons kv l ih => simp [checksIn, ih]

theorem checksIn_locks (l : List Nat) : checksIn (l.map (Instr.lock (τ := τ))) = [] := by
  induction l with
  | nil => rfl
  | cons kv l ih => simpa [checksIn] using ih

theorem checksIn_down (g : Group) : checksIn (downOf (τ := τ) C g) = g.2.1 := by
  unfold downOf
  have hmap : ∀ l : List Nat, l.map (fun s => (Instr.lock (lockNo C g.1 s) : Instr τ)) = (l.map (lockNo C g.1)).map .lock := by
    intro l; rw [List.map_map]; rfl
  rw [checksIn_append, checksIn_append, checksIn_checks, hmap, checksIn_locks]
  split <;> rfl

theorem checksIn_prog (gs : List Group) : checksIn (gs.flatMap (downOf (τ := τ) C)) = gs.flatMap (·.2.1) := by
  induction gs with
  | nil => rfl
  | cons g gs ih => rw [List.flatMap_cons, checksIn_append, checksIn_down, ih, List.flatMap_cons]

theorem mem_checks (hh : HashOk C.hash) (hn : 0 < C.shards) (ex de : List (Bytes × Arg)) (kv : Bytes × Arg) :
    kv ∈ checksIn (downProg (τ := τ) C (.cex ex de)) ↔ kv ∈ ex := by
  simp only [downProg]
  rw [checksIn_prog, List.mem_flatMap]
  constructor
  · rintro ⟨g, hg, h⟩
    rw [((groups_mem _ _ _ _).1 hg).2.1] at h
    exact (List.mem_filter.1 h).1
  · intro h
    exact ⟨_, groups_has (hash := C.hash) C.shards ex de kv (hh kv.1 _ hn) (.inl h), by simp [h]⟩

theorem process_changes (d : Dict) (k : Bytes) (v : Arg) : (d.process k true (changes v)).1 = exchangedAll d [(k, v)] := by
  unfold Dict.process
  simp only [if_true]
  cases hk : d k with
  | none =>
    cases v <;> simp [changes, Dict.act, exchangedAll, Arg.bytes, anyData]
    rw [← hk, Dict.upd_same]
  | some w => cases v <;> simp [changes, Dict.act, exchangedAll, Arg.bytes, anyData]

theorem fin_changes (l : List (Bytes × Arg)) (u : List (Instr τ)) : ∀ d o, fin true (l.map (fun kv => .change kv.1 kv.2) ++ u) (d, o) =
    fin true u (exchangedAll d l, o) := by
  induction l with
  | nil => intro d o; rfl
  | cons kv l ih =>
    intro d o
    rw [List.map_cons, List.cons_append]
    simp only [fin]
    rw [process_changes, ih, ← exchangedAll_cons]

theorem fin_unlocks (l : List Nat) (u : List (Instr τ)) (x : Dict × Out τ) : fin true (l.map .unlock ++ u) x = fin true u x := by
  induction l with
  | nil => rfl
  | cons y l ih => exact ih

theorem exchangedAll_append (a : List (Bytes × Arg)) : ∀ (d : Dict) (b : List (Bytes × Arg)), exchangedAll d (a ++ b) = exchangedAll (exchangedAll d a) b := by
  induction a with
  | nil => intro d b; rfl
  | cons kv a ih => intro d b; rw [List.cons_append, exchangedAll_cons, ih, ← exchangedAll_cons]

theorem fin_groups (rs : List Group) : ∀ d o, fin true (rs.flatMap (upOf (τ := τ) C)) (d, o) = (exchangedAll d (rs.flatMap (·.2.2)), o) := by
  induction rs with
  | nil => intro d o; rfl
  | cons g rs ih =>
    intro d o
    rw [List.flatMap_cons, upOf, List.append_assoc, fin_changes, fin_unlocks, ih, List.flatMap_cons, exchangedAll_append]

theorem flatMap_reverse {F : Group → List (Bytes × Arg)} {j : Nat} : ∀ (gs : List Group), (gs.map (·.1)).Nodup → (∀ g ∈ gs, g.1 ≠ j → F g = []) →
    gs.reverse.flatMap F = (gs.filter fun g => g.1 = j).flatMap F
  | [], _, _ => rfl
  | g :: gs, hnd, hF => by
    simp only [List.map_cons, List.nodup_cons] at hnd
    rw [List.reverse_cons, List.flatMap_append, flatMap_reverse gs hnd.2 fun g hg => hF g (by simp [hg])]
    by_cases hj : g.1 = j
    · have : gs.filter (fun g => g.1 = j) = [] := by
        rw [List.filter_eq_nil_iff]
        intro g' hg' h
        simp only [decide_eq_true_eq] at h
        exact hnd.1 (List.mem_map.2 ⟨g', hg', h.trans hj.symm⟩)
      rw [this, List.filter_cons_of_pos (by simpa using hj), this]
      simp
    · rw [List.filter_cons_of_neg (by simpa using hj)]
      simp [hF g (by simp) hj]

theorem exchanged_groups (hh : HashOk C.hash) (hn : 0 < C.shards) (ex de : List (Bytes × Arg)) (d : Dict) :
    exchangedAll d ((groups C.hash C.shards ex de).reverse.flatMap (·.2.2)) = exchangedAll d de := by
  funext k
  have hj := hh k C.shards hn
  rw [← exchangedAll_filter (fun kv => decide (kv.1 = k)) _ k (by simp) d d rfl, ← exchangedAll_filter (fun kv => decide (kv.1 = k)) de k (by simp) d d rfl]
  congr 1
  rw [List.filter_flatMap, flatMap_reverse (j := C.hash k C.shards) _ (groups_nodup _ _ _), ← List.filter_flatMap]
  · have := groups_want hh C.shards ex de _ hj
    unfold want at this
    rw [this, List.filter_filter]
    refine List.filter_congr fun kv _ => ?_
    by_cases h : kv.1 = k
    · simp [h]
    · simp [h]
  · intro g hg hne
    rw [((groups_mem _ _ _ _).1 hg).2.2.1, List.filter_filter, List.filter_eq_nil_iff]
    intro kv _ h
    simp only [Bool.and_eq_true, decide_eq_true_eq] at h
    exact hne (h.2.symm.trans (by rw [h.1]))

theorem progOk (hh : HashOk C.hash) (hn : 0 < C.shards) (h0 : 0 < C.env.slots) (op : Op τ) : ProgOk (slotOf C) op (downProg C op) (upProg C op) := by
  cases op with
  | one k w p =>
    refine ⟨⟨by simp, by simp [upProg], by simp [upProg, UpOk]⟩, fun d _ => ⟨rfl, rfl⟩, fun d kv hkv => by cases hkv⟩
  | cex ex de =>
    refine ⟨?_, fun d hd => ?_, fun d kv hkv hnm => ?_⟩
    · refine downOk_groups h0 _ [] [] [] (groups_sorted _ _ _ _) (groups_ok ex de) (by simp) (by simp) fun h' hh' => ?_
      refine upOk_groups h0 _ h' ?_ (fun g hg => groups_ok ex de g (by simpa using hg)) fun x => ?_
      · rw [List.map_reverse, List.nodup_reverse]; exact groups_nodup _ _ _
      · rw [hh']; simp
    · simp only [upProg, Op.writable, Op.start]
      rw [fin_groups, exchanged_groups hh hn]
      exact .inl ⟨fun kv hkv => hd kv ((mem_checks hh hn ex de kv).2 hkv), rfl, rfl⟩
    · exact .inr ⟨fun h => hnm (h kv ((mem_checks hh hn ex de kv).1 hkv)), rfl, rfl⟩

end

end Verif.Shard.Nested
