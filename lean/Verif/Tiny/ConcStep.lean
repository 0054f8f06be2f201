import Verif.Tiny.ConcProof
/-
Every step of a thread on the pointers is a step on the chains, or none.
-/
namespace Verif.Tiny.Conc
open Verif TwoPhase

section
variable {ρ : Type}

theorem set_same {β : Type} {l : List β} {i : Nat} {a : β} (h : l[i]? = some a) : l.set i a = l := by
  apply List.ext_getElem?
  intro j
  rw [get_set h]
  split
  · rename_i e; rw [e, h]
  · rfl

theorem canLock_abs (ts : List (Thread ρ (Inner ρ))) (i k : Nat) (w : Bool) : canLock (ts.map absT) i k w = canLock ts i k w := by
  unfold canLock
  rw [List.length_map]
  congr 1
  funext j
  rw [List.getElem?_map]
  cases ts[j]? with
  | none => rfl
  | some th => simp only [Option.map_some, absT, held_abs, writer_abs]

/-- The memory of the chains after a processor call. -/
def mAfter (m : Sys (MMem (List Blk)) ρ Unit) (L : Locks ρ) (t id : Nat) (c : Call ρ) (h : List Nat) (k : Bytes)
    (rest : List (Bytes × ProcS ρ)) (y : List Blk × ρ × List LogOp) : Sys (MMem (List Blk)) ρ Unit :=
  { m with mem := { m.mem with reg := upd m.mem.reg (L.loc k) y.1, log := m.mem.log ++ y.2.2 },
           threads := m.threads.set t ⟨id, .body c h rest y.2.1 ()⟩ }

theorem mstep_eq {L : Locks ρ} {m : Sys (MMem (List Blk)) ρ Unit} {t id : Nat} {c : Call ρ} {h : List Nat} {k : Bytes} {p : ProcS ρ}
    {rest : List (Bytes × ProcS ρ)} {r : ρ} {y : List Blk × ρ × List LogOp} (hth : m.threads[t]? = some ⟨id, .body c h ((k, p) :: rest) r ()⟩)
    (hop : opC (m.mem.reg (L.loc k)) k c.writable (p r) = some y) :
    TwoPhase.step L (aBody L.loc opC) m (t, .go ()) = mAfter m L t id c h k rest y := by
  simp only [TwoPhase.step, hth, aBody, List.isEmpty_cons, Bool.false_eq_true, if_false, hop, mAfter]

theorem lockOk {L : Locks ρ} (hok : L.Ok) {nb : Nat} {s : CState ρ} {m : Sys (MMem (List Blk)) ρ Unit} {P : Nat → List (Addr × Blk)}
    (hR : Rel L nb s m P) {A0 : Nat → List Blk} {ord : List (Nat × Call ρ × ρ)} {A : Nat → List Blk} {lgA : List LogOp}
    (hm : MInv L opC A0 m ord A lgA) : LockOk L s where
  excl := by
    intro i j th th' k h h' hne hk hk'
    have e := hm.excl i j (absT th) (absT th') k (by rw [hR.thr, List.getElem?_map, h]; rfl) (by rw [hR.thr, List.getElem?_map, h']; rfl) hne
      (by simp only [absT, held_abs]; exact hk) (by simp only [absT, held_abs]; exact hk')
    simpa only [absT, writer_abs] using e
  cover := by
    intro t id c h rest r x hth kp hk
    have e := hm.thr t (absT ⟨id, .body c h rest r x⟩) (by rw [hR.thr, List.getElem?_map, hth]; rfl)
    simp only [ThOk, absT, absPc] at e
    obtain ⟨e1, _, _, dn, _, _, e2, _⟩ := e
    rw [e1]
    exact hok.cover c kp (by rw [e2]; simp [hk])

/-- Nobody changes a bucket that a thread has locked, unless the thread does. -/
theorem quiet_locked {L : Locks ρ} {nb : Nat} {s : CState ρ} {m : Sys (MMem (List Blk)) ρ Unit} {P : Nat → List (Addr × Blk)}
    (hR : Rel L nb s m P) (hL : LockOk L s) {t id : Nat} {c : Call ρ} {h : List Nat} {rest : List (Bytes × ProcS ρ)} {r : ρ} {x : Inner ρ}
    (hth : s.threads[t]? = some ⟨id, .body c h rest r x⟩) (hx : workOn x = none) {i : Nat} (hi : L.slot i ∈ h) :
    Seg s.mem.heap (s.mem.heads i) (P i) none ∧ bl (P i) = m.mem.reg i := by
  refine hR.quiet i fun u id' c' h' rs r' y hu hy => ?_
  by_cases hut : u = t
  · subst hut
    rw [hth] at hu
    simp at hu
    obtain ⟨_, _, _, _, _, rfl⟩ := hu
    rw [hx] at hy; cases hy
  · have h1 := (hR.thok u _ _ _ _ _ _ hu).2 i hy
    have h2 := (hL.excl u t _ _ (L.slot i) hu hth hut h1.2 hi).1
    simp [writer, h1.1] at h2

theorem ext_nil (x : Found) : ext [] x = x := by cases x <;> rfl

theorem ext_ext (a b : List Blk) (x : Found) : ext a (ext b x) = ext (a ++ b) x := by cases x <;> simp [ext]

theorem seg_none {heap : Addr → Option Node} {l : List (Addr × Blk)} (h : Seg heap none l none) : l = [] := by
  cases l with
  | nil => rfl
  | cons x l => obtain ⟨a, b⟩ := x; obtain ⟨c, h1, _⟩ := h; cases h1

theorem seg_some {heap : Addr → Option Node} {l : List (Addr × Blk)} {a : Addr} (h : Seg heap (some a) l none) :
    ∃ b c l', l = (a, b) :: l' ∧ heap a = some ⟨c, b⟩ ∧ Seg heap c l' none := by
  cases l with
  | nil => cases h
  | cons x l =>
    obtain ⟨a', b⟩ := x
    obtain ⟨c, h1, h2, h3⟩ := h
    injection h1 with h1
    subst h1
    exact ⟨b, c, l, rfl, h2, h3⟩

/-- What a chain holds where the walk stops. -/
theorem walk_of_chain {x : List Blk} {k : Bytes} (hc : Chain x (recs x)) :
    walk k x ≠ .bad ∧ ∀ pre b v post, walk k x = .hit pre b v post → x = pre ++ b :: post ∧ Holds b k v := by
  cases ha : assoc k (recs x) with
  | none => rw [walk_absent hc ha]; exact ⟨by simp, by simp⟩
  | some v =>
    obtain ⟨pre, b, post, _, _, hw, he, hh, _⟩ := walk_hit hc ha
    rw [hw]
    refine ⟨by simp, ?_⟩
    intro pre' b' v' post' h'
    injection h' with e1 e2 e3 e4
    subst e1; subst e2; subst e3; subst e4
    exact ⟨he, hh⟩

theorem upd_ne {R : Type} {A : Nat → R} {i j : Nat} {x : R} (h : j ≠ i) : upd A i x j = A j := if_neg h
theorem upd_eq {R : Type} {A : Nat → R} {i : Nat} {x : R} : upd A i x i = x := if_pos rfl

/-- Steps in the body. -/
theorem sim_body {L : Locks ρ} {nb : Nat} {hash : Bytes → Nat → Nat} (hloc : L.loc = fun k => hash k nb) (hr : InRange hash) {s : CState ρ}
    {m : Sys (MMem (List Blk)) ρ Unit} {P : Nat → List (Addr × Blk)} (hR : Rel L nb s m P) (hL : LockOk L s)
    (hQ : Inv hash (st nb m.mem.reg [])) {t id : Nat} {c : Call ρ} {h : List Nat} {rest : List (Bytes × ProcS ρ)} {r : ρ} {x : Inner ρ}
    (hth : s.threads[t]? = some ⟨id, .body c h rest r x⟩) (a : Addr) (hdone : (rest.isEmpty && isEnter x) = false)
    (hb : (bodyStep L.loc s.mem a c.writable rest r x).1.big = false) :
    ∃ m' P', Rel L nb { s with mem := (bodyStep L.loc s.mem a c.writable rest r x).1, threads := s.threads.set t ⟨id, .body c h
        (bodyStep L.loc s.mem a c.writable rest r x).2.1 (bodyStep L.loc s.mem a c.writable rest r x).2.2.1
        (bodyStep L.loc s.mem a c.writable rest r x).2.2.2⟩ } m' P' ∧
      (m' = m ∨ m' = TwoPhase.step L (aBody L.loc opC) m (t, .go ())) ∧ m'.mem.big = m.mem.big := by
  have hmt : m.threads[t]? = some ⟨id, .body c h rest r ()⟩ := by rw [hR.thr, List.getElem?_map, hth]; rfl
  have hnb : 0 < nb := by have := hQ.pos; simpa [st] using this
  have hlt : ∀ k, L.loc k < nb := fun k => by rw [hloc]; exact hr k nb hnb
  have chain : ∀ i, i < nb → Chain (m.mem.reg i) (recs (m.mem.reg i)) := fun i hi => by
    have := hQ.chain i; rwa [st_bk hi] at this
  have hs := hR.thok t _ _ _ _ _ _ hth
  have hsame : m.threads = m.threads.set t ⟨id, .body c h rest r ()⟩ := (set_same hmt).symm
  -- a step that changes nothing
  have stay : ∀ x' : Inner ρ, workOn x = none → workOn x' = none → pend x' = pend x →
      InOk L.loc s.mem m.mem.reg P c.writable rest r x' →
      ∃ m' P', Rel L nb { s with mem := s.mem, threads := s.threads.set t ⟨id, .body c h rest r x'⟩ } m' P' ∧
      (m' = m ∨ m' = TwoPhase.step L (aBody L.loc opC) m (t, .go ())) ∧ m'.mem.big = m.mem.big := by
    intro x' h1 h2 h3 h4
    refine ⟨m, P, ?_, .inl rfl, rfl⟩
    refine rel_move hR hth ?_ ?_ rfl rfl rfl rfl rfl rfl (by simp only [pendT, h3]) hsame hR.next hR.hist
    · intro _ _ _ _ _ e; injection e with _ _ _ _ e; rw [← e]; exact h1
    · intro _ _ _ _ _ e; injection e with e1 _ e2 e3 e4; subst e1; subst e2; subst e3; subst e4; exact ⟨h2, h4⟩
  -- the processor wants no update
  have noUpd : ∀ k p rest' r', rest = (k, p) :: rest' → workOn x = none → pend x = 0 →
      opC (m.mem.reg (L.loc k)) k c.writable (p r) = some (m.mem.reg (L.loc k), r', []) →
      ∃ m' P', Rel L nb { s with mem := s.mem, threads := s.threads.set t ⟨id, .body c h rest' r' .enter⟩ } m' P' ∧
      (m' = m ∨ m' = TwoPhase.step L (aBody L.loc opC) m (t, .go ())) ∧ m'.mem.big = m.mem.big := by
    intro k p rest' r' e h1 h3 hop
    rw [e] at hmt
    refine ⟨_, P, ?_, .inr (mstep_eq hmt hop).symm, rfl⟩
    refine rel_move hR hth ?_ ?_ rfl rfl rfl rfl (upd_same _ _) (by simp [mAfter]) (by simp only [pendT, h3]; rfl) rfl
      hR.next hR.hist
    · intro _ _ _ _ _ e; injection e with _ _ _ _ e; rw [← e]; exact h1
    · intro _ _ _ _ _ e; injection e with e1 _ e2 e3 e4; subst e1; subst e2; subst e3; subst e4; exact ⟨rfl, trivial⟩
  have qt : ∀ k p rest', rest = (k, p) :: rest' → workOn x = none →
      Seg s.mem.heap (s.mem.heads (L.loc k)) (P (L.loc k)) none ∧ bl (P (L.loc k)) = m.mem.reg (L.loc k) := by
    intro k p rest' e h1
    exact quiet_locked hR hL hth h1 (hL.cover t _ _ _ _ _ _ hth (k, p) (by rw [e]; simp))
  cases x with
  | enter =>
    cases rest with
    | nil => simp [isEnter] at hdone
    | cons kp rest' =>
      obtain ⟨k, p⟩ := kp
      have q := qt k p rest' rfl rfl
      refine stay _ rfl rfl rfl ?_
      exact ⟨k, p, rest', rfl, rfl, [], P (L.loc k), rfl, rfl, q.1, rfl, by simp [ext_nil]⟩
  | «at» top parent ptr =>
    obtain ⟨k, p, rest', e, h1, pre, post, h2, h3, h4, h5, h6⟩ := hs.1
    subst e
    have q := qt k p rest' rfl rfl
    rw [q.2] at h6
    cases ptr with
    | none =>
      have := seg_none h4
      subst this
      simp only [bl, List.map_nil, walk, ext] at h6
      simp only [bodyStep] at hb ⊢
      cases hw : c.writable with
      | false =>
        simp only [Bool.false_eq_true, if_false]
        exact noUpd k p rest' _ rfl rfl rfl (by simp only [opC, h6, hw, Bool.false_eq_true, if_false])
      | true =>
        simp only [if_true]
        cases ha : (p r none).1 with
        | set v =>
          refine stay _ rfl rfl rfl ?_
          exact ⟨hw, ⟨v, rfl⟩, k, p, rest', rfl, h1, by rw [q.2]; exact h6, by rw [← ha]⟩
        | noop => exact noUpd k p rest' _ rfl rfl rfl (by simp only [opC, h6, hw, if_true, ha])
        | remove => exact noUpd k p rest' _ rfl rfl rfl (by simp only [opC, h6, hw, if_true, ha])
    | some ptr =>
      obtain ⟨b, ch, post', e2, h7, h8⟩ := seg_some h4
      subst e2
      simp only [bodyStep, h7] at hb ⊢
      cases hd : deserialize b with
      | none =>
        simp only [bl, List.map_cons, walk, hd, ext] at h6
        exact absurd h6 (walk_of_chain (chain _ (hlt k))).1
      | some kv =>
        obtain ⟨rk, rv⟩ := kv
        simp only
        by_cases hk : k = rk
        · simp only [if_pos hk]
          simp only [bl, List.map_cons, walk, hd, if_pos hk, ext, List.append_nil] at h6
          cases hw : c.writable with
          | false =>
            simp only [Bool.false_and, Bool.false_eq_true, if_false]
            exact noUpd k p rest' _ rfl rfl rfl (by simp only [opC, h6, hw, Bool.false_eq_true, if_false])
          | true =>
            by_cases ha : (p r (some rv)).1 = .noop
            · simp only [ha, Bool.true_and, bne_self_eq_false, Bool.false_eq_true, if_false]
              exact noUpd k p rest' _ rfl rfl rfl (by simp only [opC, h6, hw, if_true, ha])
            · have : ((p r (some rv)).1 != Action.noop) = true := by simpa using ha
              simp only [this, Bool.true_and, if_true]
              refine stay _ rfl rfl rfl ?_
              exact ⟨hw, ha, k, p, rest', rfl, pre, b, post', rv, h2, h3, h7, h8, h5, by rw [q.2]; exact h6, rfl, rfl⟩
        · simp only [if_neg hk]
          refine stay _ rfl rfl rfl ?_
          refine ⟨k, p, rest', rfl, h1, pre ++ [(ptr, b)], post', by rw [h2]; simp, ?_, h8, by rw [lastA_snoc], ?_⟩
          · exact seg_append.2 ⟨_, h3, ch, rfl, h7, rfl⟩
          · rw [q.2, h6]
            simp only [bl, List.map_cons, List.map_append, List.map_nil, walk, hd, if_neg hk]
            rw [← ext_ext]
            cases walk k (List.map (fun x => x.2) post') <;> rfl
  | log act pos r' =>
    cases pos with
    | hit parent ptr child old =>
      obtain ⟨hw, hne, k, p, rest', e, pre, b, post, v, h2, h3, h4, h5, h6, h7, h8, h9⟩ := hs.1
      subst e
      have q := qt k p rest' rfl rfl
      have hslot := hL.cover t _ _ _ _ _ _ hth (k, p) (by simp)
      rw [q.2] at h7
      have hwc := (walk_of_chain (k := k) (chain _ (hlt k))).2 _ _ _ _ h7
      simp only [bodyStep] at hb ⊢
      cases hbig : tooBig k act with
      | true => simp [hbig] at hb
      | false =>
      simp only [Bool.false_eq_true, if_false]
      have hkeep : ∀ a, s.mem.heap a ≠ none → a ∈ ad (P (L.loc k)) ∨ (a ∉ ad (P (L.loc k)) ∧ s.mem.heap a ≠ none) := fun a ha => by
        by_cases hin : a ∈ ad (P (L.loc k))
        · exact .inl hin
        · exact .inr ⟨hin, ha⟩
      have hPi : ∀ a, a ∈ ad (P (L.loc k)) → s.mem.heap a ≠ none ∧ (a ∈ ad (P (L.loc k)) ∨ s.mem.heap a = none) :=
        fun a ha => ⟨hR.alloc _ a ha, .inl ha⟩
      cases act with
      | noop => exact absurd rfl hne
      | remove =>
        have hop : opC (m.mem.reg (L.loc k)) k c.writable (p r) = some (bl pre ++ bl post, r', [.remove k]) := by
          simp only [opC, h7, hw, if_true, h9]
        refine ⟨_, fun j => if j = L.loc k then P (L.loc k) else P j, ?_, .inr (mstep_eq hmt hop).symm, rfl⟩
        refine rel_write hR hL hth hw hslot (.inr rfl) (Pi := P (L.loc k)) (M2 := { s.mem with log := s.mem.log ++ logged k .remove }) hR.uaf
          (by simp only [mAfter, logged]; rw [hR.log]) (fun _ _ => rfl) (fun _ _ _ => rfl) hPi (hR.nodup _)
          (fun j hj => upd_ne hj) ?_ (.inl rfl) ?_ rfl rfl rfl hkeep
        · refine ⟨pre, b, post, by simp only [if_true]; exact h2, h3, h4, h5, h6, upd_eq⟩
        · simp only [todo, pend, mAfter, tot_upd (hlt k), hwc.1, List.length_append, List.length_cons]; omega
      | set v' =>
        have hf : recFits k v' := by simpa [tooBig] using hbig
        obtain ⟨b', hb', _⟩ := reserialize_holds hwc.2 (v' := v') hf
        have hop : opC (m.mem.reg (L.loc k)) k c.writable (p r) = some (bl pre ++ b' :: bl post, r', [.set k v']) := by
          simp only [opC, h7, hw, if_true, h9, hb']
        refine ⟨_, fun j => if j = L.loc k then P (L.loc k) else P j, ?_, .inr (mstep_eq hmt hop).symm, rfl⟩
        refine rel_write hR hL hth hw hslot (.inr rfl) (Pi := P (L.loc k)) (M2 := { s.mem with log := s.mem.log ++ logged k (.set v') }) hR.uaf
          (by simp only [mAfter, logged]; rw [hR.log]) (fun _ _ => rfl) (fun _ _ _ => rfl) hPi (hR.nodup _)
          (fun j hj => upd_ne hj) ?_ (.inl rfl) ?_ rfl rfl rfl hkeep
        · refine ⟨pre, b, b', post, by simp only [if_true]; exact h2, h3, h4, h5, h6, by rw [h8]; exact hb', upd_eq⟩
        · simp only [todo, pend, mAfter, tot_upd (hlt k), hwc.1, List.length_append, List.length_cons]; omega
    | miss top =>
      obtain ⟨hw, ⟨v, ev⟩, k, p, rest', e, h1, h2, h3⟩ := hs.1
      subst e; subst ev
      have q := qt k p rest' rfl rfl
      have hslot := hL.cover t _ _ _ _ _ _ hth (k, p) (by simp)
      rw [q.2] at h2
      simp only [bodyStep] at hb ⊢
      cases hbig : tooBig k (.set v) with
      | true => simp [hbig] at hb
      | false =>
      simp only [Bool.false_eq_true, if_false]
      have hkeep : ∀ a, s.mem.heap a ≠ none → a ∈ ad (P (L.loc k)) ∨ (a ∉ ad (P (L.loc k)) ∧ s.mem.heap a ≠ none) := fun a ha => by
        by_cases hin : a ∈ ad (P (L.loc k))
        · exact .inl hin
        · exact .inr ⟨hin, ha⟩
      have hPi : ∀ a, a ∈ ad (P (L.loc k)) → s.mem.heap a ≠ none ∧ (a ∈ ad (P (L.loc k)) ∨ s.mem.heap a = none) :=
        fun a ha => ⟨hR.alloc _ a ha, .inl ha⟩
      have hf : recFits k v := by simpa [tooBig] using hbig
      obtain ⟨b, hb', _⟩ := serialize_holds hf
      have hop : opC (m.mem.reg (L.loc k)) k c.writable (p r) = some (b :: m.mem.reg (L.loc k), r', [.set k v]) := by
        simp only [opC, h2, hw, if_true, h3, hb']
      refine ⟨_, fun j => if j = L.loc k then P (L.loc k) else P j, ?_, .inr (mstep_eq hmt hop).symm, rfl⟩
      refine rel_write hR hL hth hw hslot (.inr rfl) (Pi := P (L.loc k)) (M2 := { s.mem with log := s.mem.log ++ logged k (.set v) }) hR.uaf
        (by simp only [mAfter, logged]; rw [hR.log]) (fun _ _ => rfl) (fun _ _ _ => rfl) hPi (hR.nodup _)
        (fun j hj => upd_ne hj) ?_ (.inl rfl) ?_ rfl rfl rfl hkeep
      · refine ⟨b, by simp only [if_true]; exact q.1, h1, hb', ?_⟩
        simp only [if_true]
        rw [q.2]; exact upd_eq
      · simp only [todo, pend, mAfter, tot_upd (hlt k), List.length_cons]; omega
  | rem1 bi parent ptr child =>
    obtain ⟨pre, b, post, h2, h3, h4, h5, h6, h7⟩ := hs.1
    obtain ⟨hw, hslot⟩ := hs.2 bi rfl
    have nd := hR.nodup bi
    rw [h2] at nd
    simp only [ad, List.map_append, List.map_cons, List.nodup_append, List.nodup_cons] at nd
    have n1 : ptr ∉ ad pre := fun hx => nd.2.2 ptr hx ptr (by simp) rfl
    have n2 : ptr ∉ ad post := nd.2.1.1
    simp only [bodyStep, h4] at hb ⊢
    have hs' : ∀ a', a' ≠ ptr → (setNode s.mem ptr none).heap a' = s.mem.heap a' := fun a' ha' => by simp [setNode, ha']
    refine ⟨m, fun j => if j = bi then pre ++ post else P j, ?_, .inl rfl, rfl⟩
    refine rel_write hR hL hth hw hslot (.inl rfl) (M2 := setNode s.mem ptr none) (Pi := pre ++ post) hR.uaf hR.log (fun _ _ => rfl) ?_ ?_ ?_
      (fun _ _ => rfl) ?_ (.inl rfl) rfl hsame rfl rfl fun a' ha' => ?_
    rotate_left 4
    · have hne : a' ≠ ptr := by rintro rfl; simp [setNode] at ha'
      rw [hs' a' hne] at ha'
      by_cases hin : a' ∈ ad (P bi)
      · left
        rw [h2] at hin
        simp only [ad, List.map_append, List.mem_append, List.map_cons, List.mem_cons] at hin ⊢
        rcases hin with hin | hin | hin
        · exact .inl hin
        · exact absurd hin hne
        · exact .inr hin
      · exact .inr ⟨hin, ha'⟩
    · intro a' ha' _
      exact hs' a' (by rintro rfl; exact ha' (by rw [h2]; simp))
    · intro a' ha'
      have hne : a' ≠ ptr := by
        rintro rfl
        simp only [ad, List.map_append, List.mem_append] at ha'
        exact ha'.elim n1 n2
      have hmem : a' ∈ ad (P bi) := by
        rw [h2]
        simp only [ad, List.map_append, List.mem_append, List.map_cons, List.mem_cons] at ha' ⊢
        exact ha'.imp (fun z => z) .inr
      rw [hs' a' hne]
      exact ⟨hR.alloc bi a' hmem, .inl hmem⟩
    · simp only [ad, List.map_append, List.nodup_append]
      exact ⟨nd.1, nd.2.1.2, fun a' ha' b' hb' => nd.2.2 a' ha' b' (by simp [hb'])⟩
    · refine ⟨pre, post, some ptr, by simp, ?_, ?_, h6, by simp only [if_true]; rw [h7]; simp [bl]⟩
      · exact seg_congr h3 fun a' ha' => hs' a' (by rintro rfl; exact n1 ha')
      · exact seg_congr h5 fun a' ha' => hs' a' (by rintro rfl; exact n2 ha')
  | rem2 bi parent child =>
    obtain ⟨pre, post, q, h2, h3, h5, h6, h7⟩ := hs.1
    obtain ⟨hw, hslot⟩ := hs.2 bi rfl
    have nd := hR.nodup bi
    rw [h2] at nd
    simp only [ad, List.map_append, List.nodup_append] at nd
    subst h6
    obtain ⟨l1, l2, l3, l4, l5, l6, l7⟩ := link_seg (p := child) h3 nd.1
    have hsub : ∀ a', a' ∈ ad pre → a' ∈ ad (P bi) := fun a' ha' => by rw [h2]; simp only [ad, List.map_append, List.mem_append]; exact .inl ha'
    have hpost : Seg (link s.mem bi (lastA pre) child).heap child post none := seg_congr h5 fun a' ha' => l6 a' fun hx => nd.2.2 a' hx a' ha' rfl
    have hseg : Seg (link s.mem bi (lastA pre) child).heap ((link s.mem bi (lastA pre) child).heads bi) (P bi) none := by
      rw [h2]; exact seg_append.2 ⟨_, l7, hpost⟩
    refine ⟨m, fun j => if j = bi then P bi else P j, ?_, .inl rfl, rfl⟩
    refine rel_write hR hL hth hw hslot (.inl rfl) (M2 := link s.mem bi (lastA pre) child) (Pi := P bi) (l1.trans hR.uaf) (l2.trans hR.log) l5 ?_ ?_
      (hR.nodup bi) (fun _ _ => rfl) ?_ (.inr ⟨rfl, hseg, h7.symm⟩) ?_ hsame rfl rfl (fun a' ha' => by
        by_cases hin : a' ∈ ad (P bi)
        · exact .inl hin
        · rw [l6 a' fun hx => hin (hsub a' hx)] at ha'; exact .inr ⟨hin, ha'⟩)
    · exact fun a' ha' _ => l6 a' fun hx => ha' (hsub a' hx)
    · exact fun a' ha' => ⟨seg_alloc hseg ha', .inl ha'⟩
    · trivial
    · rw [l3]; rfl
  | upd1 bi k parent ptr child v old =>
    obtain ⟨pre, b, b', post, h2, h3, h4, h5, h6, h7, h8⟩ := hs.1
    obtain ⟨hw, hslot⟩ := hs.2 bi rfl
    have nd := hR.nodup bi
    rw [h2] at nd
    simp only [ad, List.map_append, List.map_cons, List.nodup_append, List.nodup_cons] at nd
    have n1 : ptr ∉ ad pre := fun hx => nd.2.2 ptr hx ptr (by simp) rfl
    have n2 : ptr ∉ ad post := nd.2.1.1
    have inP : ∀ a', a' ∈ ad pre ∨ a' = ptr ∨ a' ∈ ad post → a' ∈ ad (P bi) := fun a' ha' => by
      rw [h2]; simp only [ad, List.map_append, List.mem_append, List.map_cons, List.mem_cons]; exact ha'
    -- any memory in which the record is now at `new`
    have fin : ∀ (M2 : Mem) (new : Addr), M2.uaf = s.mem.uaf → M2.log = s.mem.log → M2.count = s.mem.count → M2.heads = s.mem.heads →
        (∀ a', a' ≠ ptr → a' ≠ new → M2.heap a' = s.mem.heap a') → M2.heap new = some ⟨child, b'⟩ →
        (new = ptr ∨ s.mem.heap new = none) → (ptr ≠ new → M2.heap ptr = none) →
        ∃ m' P', Rel L nb { s with mem := M2, threads := s.threads.set t ⟨id, .body c h rest r (.upd2 bi parent ptr new)⟩ } m' P' ∧
          (m' = m ∨ m' = TwoPhase.step L (aBody L.loc opC) m (t, .go ())) ∧ m'.mem.big = m.mem.big := by
      intro M2 new e1 e2 e3 e4 e5 e6 e7 e8
      have nn1 : new ∉ ad pre := by
        rcases e7 with rfl | e7
        · exact n1
        · exact fun hx => hR.alloc bi new (inP new (.inl hx)) e7
      have nn2 : new ∉ ad post := by
        rcases e7 with rfl | e7
        · exact n2
        · exact fun hx => hR.alloc bi new (inP new (.inr (.inr hx))) e7
      have hpre : ∀ a', a' ∈ ad pre → M2.heap a' = s.mem.heap a' := fun a' ha' =>
        e5 a' (by rintro rfl; exact n1 ha') (by rintro rfl; exact nn1 ha')
      have hpost : ∀ a', a' ∈ ad post → M2.heap a' = s.mem.heap a' := fun a' ha' =>
        e5 a' (by rintro rfl; exact n2 ha') (by rintro rfl; exact nn2 ha')
      refine ⟨m, fun j => if j = bi then pre ++ (new, b') :: post else P j, ?_, .inl rfl, rfl⟩
      refine rel_write hR hL hth hw hslot (.inl rfl) (Pi := pre ++ (new, b') :: post) (by rw [e1]; exact hR.uaf) (by rw [e2]; exact hR.log)
        (fun _ _ => by rw [e4]) ?_ ?_ ?_ (fun _ _ => rfl) ?_ (.inl rfl) (by rw [e3]; rfl) hsame rfl rfl (fun a' ha' => by
          by_cases x1 : a' = new
          · left; rw [x1]; simp [ad]
          · have x2 : a' ≠ ptr := by rintro rfl; exact ha' (e8 x1)
            rw [e5 a' x2 x1] at ha'
            by_cases hin : a' ∈ ad (P bi)
            · left
              rw [h2] at hin
              simp only [ad, List.map_append, List.mem_append, List.map_cons, List.mem_cons] at hin ⊢
              rcases hin with hin | hin | hin
              · exact .inl hin
              · exact absurd hin x2
              · exact .inr (.inr hin)
            · exact .inr ⟨hin, ha'⟩)
      · intro a' ha' hal
        refine e5 a' (by rintro rfl; exact ha' (inP _ (.inr (.inl rfl)))) ?_
        rintro rfl
        rcases e7 with rfl | e7
        · exact ha' (inP _ (.inr (.inl rfl)))
        · exact hal e7
      · intro a' ha'
        simp only [ad, List.map_append, List.mem_append, List.map_cons, List.mem_cons] at ha'
        rcases ha' with ha' | rfl | ha'
        · rw [hpre a' ha']; exact ⟨hR.alloc bi a' (inP a' (.inl ha')), .inl (inP a' (.inl ha'))⟩
        · refine ⟨by rw [e6]; simp, ?_⟩
          rcases e7 with rfl | e7
          · exact .inl (inP _ (.inr (.inl rfl)))
          · exact .inr e7
        · rw [hpost a' ha']; exact ⟨hR.alloc bi a' (inP a' (.inr (.inr ha'))), .inl (inP a' (.inr (.inr ha')))⟩
      · simp only [ad, List.map_append, List.map_cons, List.nodup_append, List.nodup_cons]
        refine ⟨nd.1, ⟨nn2, nd.2.1.2⟩, fun a' ha' b'' hb'' => ?_⟩
        rcases List.mem_cons.1 hb'' with rfl | hb''
        · rintro rfl; exact nn1 ha'
        · exact nd.2.2 a' ha' b'' (by simp [hb''])
      · refine ⟨pre, b', post, child, by simp, ?_, e6, ?_, h6, by simp only [if_true]; rw [h8]; simp [bl]⟩
        · rw [e4]; exact seg_congr h3 hpre
        · exact seg_congr h5 hpost
    simp only [bodyStep, reserializeAt, h4, h7] at hb ⊢
    by_cases c1 : Codec.sizeVarNum v.length > Codec.sizeVarNum old
    · simp only [if_pos c1]
      by_cases c2 : (s.mem.heap a).isNone = true
      · simp only [c2, if_true]
        have hnone : s.mem.heap a = none := by simpa using c2
        have hne : a ≠ ptr := by rintro rfl; rw [hnone] at h4; cases h4
        exact fin _ a rfl rfl rfl rfl (fun a' x1 x2 => by simp [setNode, x1, x2]) (by simp [setNode, hne]) (.inr hnone) (fun _ => by simp [setNode])
      · simp only [if_neg c2]
        refine ⟨m, P, ?_, .inl rfl, rfl⟩
        rw [set_same hth]; exact hR
    · simp only [if_neg c1]
      by_cases c3 : v.length > old
      · simp only [if_pos c3]
        by_cases c2 : a = ptr ∨ (s.mem.heap a).isNone = true
        · simp only [c2, if_true]
          refine fin _ a rfl rfl rfl rfl (fun a' x1 x2 => by simp [setNode, x1, x2]) (by simp [setNode]) ?_ (fun x => by simp [setNode, x])
          rcases c2 with c2 | c2
          · exact .inl c2
          · exact .inr (by simpa using c2)
        · simp only [if_neg c2]
          refine ⟨m, P, ?_, .inl rfl, rfl⟩
          rw [set_same hth]; exact hR
      · simp only [if_neg c3]
        exact fin _ ptr rfl rfl rfl rfl (fun a' x1 x2 => by simp [setNode, x1]) (by simp [setNode]) (.inl rfl) (fun x => absurd rfl x)
  | upd2 bi parent ptr new =>
    obtain ⟨pre, b', post, ch, h2, h3, h4, h5, h6, h7⟩ := hs.1
    obtain ⟨hw, hslot⟩ := hs.2 bi rfl
    have nd := hR.nodup bi
    rw [h2] at nd
    simp only [ad, List.map_append, List.map_cons, List.nodup_append, List.nodup_cons] at nd
    subst h6
    simp only [bodyStep] at hb ⊢
    by_cases hne : new = ptr
    · subst hne
      simp only [ne_eq, not_true_eq_false, if_false]
      have hseg : Seg s.mem.heap (s.mem.heads bi) (P bi) none := by
        rw [h2]; exact seg_append.2 ⟨_, h3, ch, rfl, h4, h5⟩
      refine ⟨m, fun j => if j = bi then P bi else P j, ?_, .inl rfl, rfl⟩
      exact rel_write hR hL hth hw hslot (.inl rfl) (M2 := s.mem) (Pi := P bi) hR.uaf hR.log (fun _ _ => rfl) (fun _ _ _ => rfl)
        (fun a' ha' => ⟨hR.alloc bi a' ha', .inl ha'⟩) (hR.nodup bi) (fun _ _ => rfl) trivial (.inr ⟨rfl, hseg, h7.symm⟩) rfl hsame rfl rfl
        (fun a' ha' => by
          by_cases hin : a' ∈ ad (P bi)
          · exact .inl hin
          · exact .inr ⟨hin, ha'⟩)
    · simp only [ne_eq, hne, not_false_eq_true, if_true]
      obtain ⟨l1, l2, l3, l4, l5, l6, l7⟩ := link_seg (p := some new) h3 nd.1
      have hsub : ∀ a', a' ∈ ad pre → a' ∈ ad (P bi) := fun a' ha' => by rw [h2]; simp only [ad, List.map_append, List.mem_append]; exact .inl ha'
      have hseg : Seg (link s.mem bi (lastA pre) (some new)).heap ((link s.mem bi (lastA pre) (some new)).heads bi) (P bi) none := by
        rw [h2]
        refine seg_append.2 ⟨_, l7, ch, rfl, ?_, ?_⟩
        · rw [l6 new fun hx => nd.2.2 new hx new (by simp) rfl]; exact h4
        · exact seg_congr h5 fun a' ha' => l6 a' fun hx => nd.2.2 a' hx a' (by simp [ha']) rfl
      refine ⟨m, fun j => if j = bi then P bi else P j, ?_, .inl rfl, rfl⟩
      refine rel_write hR hL hth hw hslot (.inl rfl) (M2 := link s.mem bi (lastA pre) (some new)) (Pi := P bi) (l1.trans hR.uaf) (l2.trans hR.log) l5 ?_ ?_
        (hR.nodup bi) (fun _ _ => rfl) ?_ (.inr ⟨rfl, hseg, h7.symm⟩) ?_ hsame rfl rfl (fun a' ha' => by
          by_cases hin : a' ∈ ad (P bi)
          · exact .inl hin
          · rw [l6 a' fun hx => hin (hsub a' hx)] at ha'; exact .inr ⟨hin, ha'⟩)
      · exact fun a' ha' _ => l6 a' fun hx => ha' (hsub a' hx)
      · exact fun a' ha' => ⟨seg_alloc hseg ha', .inl ha'⟩
      · trivial
      · rw [l3]; rfl
  | add1 bi k v top =>
    obtain ⟨b, h1, h2, h3, h4⟩ := hs.1
    obtain ⟨hw, hslot⟩ := hs.2 bi rfl
    simp only [bodyStep, h3] at hb ⊢
    by_cases c2 : (s.mem.heap a).isNone = true
    · simp only [c2, if_true]
      have hnone : s.mem.heap a = none := by simpa using c2
      have nn : a ∉ ad (P bi) := fun hx => hR.alloc bi a hx hnone
      have hs' : ∀ a', a' ≠ a → (setNode s.mem a (some ⟨top, b⟩)).heap a' = s.mem.heap a' := fun a' ha' => by simp [setNode, ha']
      refine ⟨m, fun j => if j = bi then (a, b) :: P bi else P j, ?_, .inl rfl, rfl⟩
      refine rel_write hR hL hth hw hslot (.inl rfl) (M2 := setNode s.mem a (some ⟨top, b⟩)) (Pi := (a, b) :: P bi) hR.uaf hR.log
        (fun _ _ => rfl) ?_ ?_ ?_ (fun _ _ => rfl) ?_ (.inl rfl) rfl hsame rfl rfl (fun a' ha' => by
          by_cases x1 : a' = a
          · left; rw [x1]; simp [ad]
          · rw [hs' a' x1] at ha'
            by_cases hin : a' ∈ ad (P bi)
            · exact .inl (List.mem_cons_of_mem _ hin)
            · exact .inr ⟨hin, ha'⟩)
      · intro a' _ hal
        exact hs' a' (by rintro rfl; exact hal hnone)
      · intro a' ha'
        rcases List.mem_cons.1 (show a' ∈ a :: ad (P bi) from ha') with e | hin
        · rw [e]; exact ⟨by simp [setNode], .inr hnone⟩
        · rw [hs' a' (fun e => nn (e ▸ hin))]
          exact ⟨hR.alloc bi a' hin, .inl hin⟩
      · exact List.nodup_cons.2 ⟨nn, hR.nodup bi⟩
      · refine ⟨b, P bi, by simp, ?_, ?_, by simp only [if_true]; rw [h4]; simp [bl]⟩
        · simp [setNode, h2]
        · exact seg_congr h1 fun a' ha' => hs' a' (by rintro rfl; exact nn ha')
    · simp only [if_neg c2]
      refine ⟨m, P, ?_, .inl rfl, rfl⟩
      rw [set_same hth]; exact hR
  | add2 bi new =>
    obtain ⟨b, l, h1, h2, h3, h4⟩ := hs.1
    obtain ⟨hw, hslot⟩ := hs.2 bi rfl
    simp only [bodyStep] at hb ⊢
    have hseg : Seg (setHead s.mem bi (some new)).heap ((setHead s.mem bi (some new)).heads bi) (P bi) none := by
      rw [h1]
      exact ⟨s.mem.heads bi, by simp [setHead, setHead.upd'], h2, h3⟩
    refine ⟨m, fun j => if j = bi then P bi else P j, ?_, .inl rfl, rfl⟩
    refine rel_write hR hL hth hw hslot (.inl rfl) (M2 := setHead s.mem bi (some new)) (Pi := P bi) hR.uaf hR.log ?_ (fun _ _ _ => rfl)
      (fun a' ha' => ⟨hR.alloc bi a' ha', .inl ha'⟩) (hR.nodup bi) (fun _ _ => rfl) trivial (.inr ⟨rfl, hseg, h4.symm⟩) rfl hsame rfl rfl
      (fun a' ha' => by
        by_cases hin : a' ∈ ad (P bi)
        · exact .inl hin
        · exact .inr ⟨hin, ha'⟩)
    intro j hj
    simp [setHead, setHead.upd', hj]
  | cnt d =>
    simp only [bodyStep] at hb ⊢
    refine ⟨m, P, ?_, .inl rfl, rfl⟩
    refine rel_move hR hth ?_ ?_ rfl rfl rfl rfl rfl rfl (by simp only [pendT, pend]; omega) hsame hR.next hR.hist
    · intro _ _ _ _ _ e; injection e with _ _ _ _ e; rw [← e]; rfl
    · intro _ _ _ _ _ e; injection e with e1 _ e2 e3 e4; subst e1; subst e2; subst e3; subst e4; exact ⟨rfl, trivial⟩

end

end Verif.Tiny.Conc
