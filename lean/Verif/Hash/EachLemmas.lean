import Verif.Hash.Each
import Verif.Dbm.Each
/-
Lemmas on the traversals of HashDBM.
-/
namespace Verif.Hash
open Verif.Codec

variable {e : Env}

/-! ### Sets of keys -/

theorem mem_setIns {k x : Bytes} {l : List Bytes} : x ∈ setIns k l ↔ x = k ∨ x ∈ l := by
  induction l with
  | nil => simp [setIns]
  | cons y l ih =>
    simp only [setIns]
    split
    · simp
    · split
      · simp only [List.mem_cons, ih]
        constructor
        · rintro (h | h | h) <;> simp [h]
        · rintro (h | h | h) <;> simp [h]
      · have : k = y := (bytesLt_eqv k y).1 (StrictWeak.eqv_iff.2 ⟨by simp_all, by simp_all⟩)
        subst this
        simp

theorem setIns_sorted {k : Bytes} {l : List Bytes} (h : l.Pairwise (fun a b => bytesLt a b = true)) :
    (setIns k l).Pairwise (fun a b => bytesLt a b = true) := by
  induction l with
  | nil => simp [setIns]
  | cons y l ih =>
    rw [List.pairwise_cons] at h
    simp only [setIns]
    split
    · rename_i h1
      refine List.pairwise_cons.2 ⟨?_, List.pairwise_cons.2 h⟩
      intro z hz
      rcases List.mem_cons.1 hz with rfl | hz
      · exact h1
      · exact bytesLt_weak.trans _ _ _ h1 (h.1 z hz)
    · split
      · rename_i h1
        refine List.pairwise_cons.2 ⟨?_, ih h.2⟩
        intro z hz
        rcases mem_setIns.1 hz with rfl | hz
        · exact h1
        · exact h.1 z hz
      · exact List.pairwise_cons.2 h

theorem sorted_nodup {l : List Bytes} (h : l.Pairwise (fun a b => bytesLt a b = true)) : l.Nodup := by
  refine List.Pairwise.imp ?_ h
  rintro a b hab rfl
  rw [bytesLt_weak.irrefl] at hab; cases hab

theorem foldIns_spec (rs : List RecR) (l : List Bytes) (h : l.Pairwise (fun a b => bytesLt a b = true)) :
    (rs.foldl (fun ks x => setIns x.key ks) l).Pairwise (fun a b => bytesLt a b = true) ∧
    ∀ k, k ∈ rs.foldl (fun ks x => setIns x.key ks) l ↔ k ∈ l ∨ ∃ r ∈ rs, r.key = k := by
  induction rs generalizing l with
  | nil => exact ⟨h, by simp⟩
  | cons r rs ih =>
    obtain ⟨h1, h2⟩ := ih (setIns r.key l) (setIns_sorted h)
    refine ⟨h1, ?_⟩
    intro k
    simp only [List.foldl_cons]
    rw [h2 k, mem_setIns]
    constructor
    · rintro ((rfl | h) | ⟨x, hx, e⟩)
      · exact Or.inr ⟨r, by simp, rfl⟩
      · exact Or.inl h
      · exact Or.inr ⟨x, by simp [hx], e⟩
    · rintro (h | ⟨x, hx, e⟩)
      · exact Or.inl (Or.inr h)
      · rcases List.mem_cons.1 hx with rfl | hx
        · exact Or.inl (Or.inl e.symm)
        · exact Or.inr ⟨x, hx, e⟩

/-! ### Chains -/

/-- The value of the first record of a key. -/
def fv : List RecR → Bytes → Option Bytes
  | [], _ => none
  | r :: rs, k => if r.key = k then (if r.op.isSet then r.value else none) else fv rs k

/-- What the records of a bucket are. -/
structure BucketOk (e : Env) (t : LSt) (i : Nat) (rs : List RecR) : Prop where
  mem : ∀ r ∈ rs, r.op ≠ .void ∧ e.hash r.key t.cfg.nb = i ∧ ∃ v, r.value = some v
  newest : ∀ k, e.hash k t.cfg.nb = i → t.view k = fv rs k

theorem walk_path {c : Cfg} {rd : Reader} {L : Lay} (h : ∀ o r, recAt c (recordBase c) L.recs o = some r → rd.record o = some (recR c r))
    {o p} (hp : Path c L.recs o p) (fuel : Nat) (hf : p.length ≤ fuel) : walk rd fuel o = some (p.map fun x => recR c x.2) := by
  induction p generalizing o fuel with
  | nil =>
    have : o = 0 := hp
    subst this
    cases fuel <;> simp [walk]
  | cons a p ih =>
    obtain ⟨o', r⟩ := a
    obtain ⟨rfl, h1, h2⟩ := hp
    cases fuel with
    | zero => simp at hf
    | succ fuel =>
      have ho : o ≠ 0 := by have := recAt_ge h1; have := recordBase_pos (c := c); omega
      simp only [walk, if_neg ho, h o r h1]
      rw [ih (o := (recR c r).child) h2 fuel (by simpa using hf)]
      simp

theorem fv_firstVal (c : Cfg) (p : List (Nat × Rec)) (k : Bytes) : fv (p.map fun x => recR c x.2) k = firstVal p k := by
  induction p with
  | nil => rfl
  | cons a p ih => simp only [List.map_cons, fv, firstVal, recR]; rw [← ih]; rfl

theorem LInv.appending {c : Cfg} {L : Lay} {pool} (h : LInv e c L pool) : Appending e c L pool := by
  unfold LInv at h; split at h
  · exact h.toAppending
  · exact h

theorem bucketRecs_spec (he : EnvOk e) {t : LSt} (h : t.Inv e) (hr : (t.toState e).Room) {i : Nat} (hi : i < t.cfg.nb) :
    ∃ rs, bucketRecs (fileReader (t.toState e).cfg (t.toState e).file metaMinReadSize) i = some rs ∧ BucketOk e t i rs := by
  have ha := h.inv.appending
  obtain ⟨p, hp⟩ := ha.chain i hi
  refine ⟨p.map fun x => recR t.cfg x.2, ?_, ?_, ?_⟩
  · have hb : (fileReader (t.toState e).cfg (t.toState e).file metaMinReadSize).bucket i = some (t.lay.buckets.getD i 0) := by
      refine (fileReader_bucket h.cfg h.frame ha.base (h.room hr) hi).trans ?_
      rw [List.getD_eq_getElem?_getD, List.getElem?_eq_getElem (by rw [ha.base.nb]; exact hi)]; rfl
    simp only [bucketRecs, hb]
    refine walk_path (L := t.lay) (fun o r h1 => fileReader_record he h.cfg h.frame ha.base (h.room hr) (Nat.le_refl _) h1) hp.path _ ?_
    have h1 := hp.path.length_le hp.nodup
    have h2 : (fileReader (t.toState e).cfg (t.toState e).file metaMinReadSize).size = (layReader t.cfg t.lay).size :=
      render_length h.cfg h.frame ha.base.nb
    rw [h2]; exact h1
  · intro r hr'
    obtain ⟨x, hx, rfl⟩ := List.mem_map.1 hr'
    exact ⟨(hp.mem x hx).1, (hp.mem x hx).2, _, rfl⟩
  · intro k hk
    rw [fv_firstVal]; exact hp.newest k hk

theorem eachLive_spec {e : Env} {t : LSt} {i : Nat} (rs : List RecR) (hm : ∀ r ∈ rs, r.op ≠ .void ∧ e.hash r.key t.cfg.nb = i ∧ ∃ v, r.value = some v)
    (seen : List Bytes) :
    ((eachLive seen rs).map (·.key)).Nodup ∧
    (∀ r ∈ eachLive seen rs, r ∈ rs ∧ r.key ∉ seen ∧ fv rs r.key = r.value) ∧
    (∀ k v, k ∉ seen → fv rs k = some v → ∃ r ∈ eachLive seen rs, r.key = k ∧ r.value = some v) := by
  induction rs generalizing seen with
  | nil => exact ⟨List.Pairwise.nil, by simp [eachLive], by simp [fv]⟩
  | cons r rs ih =>
    have ih := ih (fun x hx => hm x (by simp [hx]))
    simp only [eachLive]
    by_cases hs : r.key ∈ seen
    · rw [if_pos hs]
      obtain ⟨a1, a2, a3⟩ := ih seen
      refine ⟨a1, ?_, ?_⟩
      · intro x hx
        obtain ⟨b1, b2, b3⟩ := a2 x hx
        refine ⟨by simp [b1], b2, ?_⟩
        simp only [fv]; rw [if_neg (by rintro e; exact b2 (e ▸ hs))]; exact b3
      · intro k v hk hv
        simp only [fv] at hv
        rw [if_neg (by rintro rfl; exact hk hs)] at hv
        exact a3 k v hk hv
    · rw [if_neg hs]
      obtain ⟨a1, a2, a3⟩ := ih (r.key :: seen)
      have key : r.op.isSet = true → ((r :: eachLive (r.key :: seen) rs).map (·.key)).Nodup ∧
          (∀ x ∈ r :: eachLive (r.key :: seen) rs, x ∈ r :: rs ∧ x.key ∉ seen ∧ fv (r :: rs) x.key = x.value) ∧
          (∀ k v, k ∉ seen → fv (r :: rs) k = some v → ∃ x ∈ r :: eachLive (r.key :: seen) rs, x.key = k ∧ x.value = some v) := by
        intro ho
        refine ⟨?_, ?_, ?_⟩
        · simp only [List.map_cons, List.nodup_cons]
          refine ⟨?_, a1⟩
          intro hx
          obtain ⟨x, hx, e1⟩ := List.mem_map.1 hx
          exact (a2 x hx).2.1 (by simp [e1])
        · intro x hx
          rcases List.mem_cons.1 hx with rfl | hx
          · exact ⟨by simp, hs, by simp [fv, ho]⟩
          · obtain ⟨b1, b2, b3⟩ := a2 x hx
            simp only [List.mem_cons, not_or] at b2
            refine ⟨by simp [b1], b2.2, ?_⟩
            simp only [fv]; rw [if_neg (Ne.symm b2.1)]; exact b3
        · intro k v hk hv
          simp only [fv] at hv
          by_cases e1 : r.key = k
          · rw [if_pos e1, if_pos ho] at hv
            exact ⟨r, by simp, e1, hv⟩
          · rw [if_neg e1] at hv
            obtain ⟨x, hx, h1⟩ := a3 k v (by simp only [List.mem_cons, not_or]; exact ⟨Ne.symm e1, hk⟩) hv
            exact ⟨x, by simp [hx], h1⟩
      cases ho : r.op with
      | void => exact absurd ho (hm r (by simp)).1
      | set => exact key (by rw [ho]; rfl)
      | add => exact key (by rw [ho]; rfl)
      | remove =>
        refine ⟨a1, ?_, ?_⟩
        · intro x hx
          obtain ⟨b1, b2, b3⟩ := a2 x hx
          simp only [List.mem_cons, not_or] at b2
          refine ⟨by simp [b1], b2.2, ?_⟩
          simp only [fv]; rw [if_neg (Ne.symm b2.1)]; exact b3
        · intro k v hk hv
          simp only [fv] at hv
          by_cases e1 : r.key = k
          · rw [if_pos e1, ho] at hv; simp [OpType.isSet] at hv
          · rw [if_neg e1] at hv
            exact a3 k v (by simp only [List.mem_cons, not_or]; exact ⟨Ne.symm e1, hk⟩) hv

theorem iterKeys_spec {e : Env} {t : LSt} {i : Nat} (rs : List RecR)
    (hm : ∀ r ∈ rs, r.op ≠ .void ∧ e.hash r.key t.cfg.nb = i ∧ ∃ v, r.value = some v) (dead keys : List Bytes)
    (hs : keys.Pairwise (fun a b => bytesLt a b = true)) :
    (iterKeys dead keys rs).Pairwise (fun a b => bytesLt a b = true) ∧
    ∀ k, k ∈ iterKeys dead keys rs ↔ k ∈ keys ∨ (k ∉ dead ∧ (fv rs k).isSome = true) := by
  induction rs generalizing dead keys with
  | nil => exact ⟨hs, by simp [iterKeys, fv]⟩
  | cons r rs ih =>
    have ih := fun d ks => ih (fun x hx => hm x (by simp [hx])) d ks
    obtain ⟨hv, _, v, hval⟩ := hm r (by simp)
    simp only [iterKeys]
    by_cases hd : r.key ∈ dead
    · rw [if_pos hd]
      obtain ⟨a1, a2⟩ := ih dead keys hs
      refine ⟨a1, fun k => ?_⟩
      rw [a2 k]
      simp only [fv]
      by_cases e1 : r.key = k
      · subst e1; simp [hd]
      · rw [if_neg e1]
    · rw [if_neg hd]
      have key : r.op.isSet = true → (iterKeys dead (setIns r.key keys) rs).Pairwise (fun a b => bytesLt a b = true) ∧
          ∀ k, k ∈ iterKeys dead (setIns r.key keys) rs ↔ k ∈ keys ∨ (k ∉ dead ∧ (fv (r :: rs) k).isSome = true) := by
        intro ho
        obtain ⟨a1, a2⟩ := ih dead (setIns r.key keys) (setIns_sorted hs)
        refine ⟨a1, fun k => ?_⟩
        rw [a2 k, mem_setIns]
        simp only [fv]
        by_cases e1 : r.key = k
        · subst e1; simp [hd, ho, hval]
        · rw [if_neg e1]
          simp [Ne.symm e1]
      cases ho : r.op with
      | void => exact absurd ho hv
      | set => exact key (by rw [ho]; rfl)
      | add => exact key (by rw [ho]; rfl)
      | remove =>
        obtain ⟨a1, a2⟩ := ih (r.key :: dead) keys hs
        refine ⟨a1, fun k => ?_⟩
        rw [a2 k]
        simp only [fv]
        by_cases e1 : r.key = k
        · subst e1; simp [ho, OpType.isSet]
        · rw [if_neg e1]
          simp [Ne.symm e1]

theorem firstKey_spec {e : Env} {t : LSt} {i : Nat} (rs : List RecR)
    (hm : ∀ r ∈ rs, r.op ≠ .void ∧ e.hash r.key t.cfg.nb = i ∧ ∃ v, r.value = some v) (dead : List Bytes) :
    match firstKey dead rs with
    | some k => k ∉ dead ∧ e.hash k t.cfg.nb = i ∧ (fv rs k).isSome = true
    | none => ∀ k, k ∉ dead → fv rs k = none := by
  induction rs generalizing dead with
  | nil => intro k _; rfl
  | cons r rs ih =>
    have ih := fun d => ih (fun x hx => hm x (by simp [hx])) d
    obtain ⟨hv, hh, v, hval⟩ := hm r (by simp)
    simp only [firstKey]
    by_cases hd : r.key ∈ dead
    · rw [if_pos hd]
      have := ih dead
      cases hf : firstKey dead rs with
      | none =>
        rw [hf] at this
        intro k hk
        simp only [fv]; rw [if_neg (by rintro rfl; exact hk hd)]; exact this k hk
      | some k =>
        rw [hf] at this
        refine ⟨this.1, this.2.1, ?_⟩
        simp only [fv]; rw [if_neg (by rintro rfl; exact this.1 hd)]; exact this.2.2
    · rw [if_neg hd]
      cases ho : r.op with
      | void => exact absurd ho hv
      | set => exact ⟨hd, hh, by simp [fv, ho, OpType.isSet, hval]⟩
      | add => exact ⟨hd, hh, by simp [fv, ho, OpType.isSet, hval]⟩
      | remove =>
        have := ih (r.key :: dead)
        dsimp only
        cases hf : firstKey (r.key :: dead) rs with
        | none =>
          rw [hf] at this
          intro k hk
          simp only [fv]
          by_cases e1 : r.key = k
          · simp [e1, ho, OpType.isSet]
          · rw [if_neg e1]; exact this k (by simp only [List.mem_cons, not_or]; exact ⟨Ne.symm e1, hk⟩)
        | some k =>
          rw [hf] at this
          have h1 := this.1
          simp only [List.mem_cons, not_or] at h1
          refine ⟨h1.2, this.2.1, ?_⟩
          simp only [fv]; rw [if_neg (Ne.symm h1.1)]; exact this.2.2

/-! ### Growth -/

theorem processImpl_grow {τ : Type} (m : Nat) (s : State) (k : Bytes) (i : Nat) (w : Bool) (p : ProcR τ) :
    s.file.length ≤ (processImpl e m s k i w p).1.file.length ∧ (processImpl e m s k i w p).1.cfg = s.cfg := by
  simp only [processImpl]
  split
  · exact ⟨Nat.le_refl _, rfl⟩
  · split
    · exact ⟨Nat.le_refl _, rfl⟩
    · rename_i h; exact ⟨applyWrs_length h, rfl⟩

theorem eachWrite_grow {ρ : Type} (p : Bytes → ρ → Bytes → Action × ρ) (i : Nat) (ks : List Bytes) (s : State) (r : ρ) :
    s.file.length ≤ (eachWrite e p i ks s r).1.file.length ∧ (eachWrite e p i ks s r).1.cfg = s.cfg := by
  induction ks generalizing s r with
  | nil => exact ⟨Nat.le_refl _, rfl⟩
  | cons k ks ih =>
    have h1 := processImpl_grow (e := e) metaMinReadSize s k i true (fullOnly (p k r) r)
    have h2 := ih (processImpl e metaMinReadSize s k i true (fullOnly (p k r) r)).1 (processImpl e metaMinReadSize s k i true (fullOnly (p k r) r)).2
    exact ⟨Nat.le_trans h1.1 h2.1, h2.2.trans h1.2⟩

theorem eachBuckets_grow {ρ : Type} (w : Bool) (p : Bytes → ρ → Bytes → Action × ρ) (fuel i : Nat) (s : State) (r : ρ) :
    s.file.length ≤ (eachBuckets e w p fuel i s r).1.file.length ∧ (eachBuckets e w p fuel i s r).1.cfg = s.cfg := by
  induction fuel generalizing i s r with
  | zero => exact ⟨Nat.le_refl _, rfl⟩
  | succ fuel ih =>
    simp only [eachBuckets]
    split
    · exact ⟨Nat.le_refl _, rfl⟩
    · rename_i rs _
      split
      · have h1 := eachWrite_grow (e := e) p i ((eachLive [] rs).foldl (fun ks x => setIns x.key ks) []) s r
        have h2 := ih (i + 1) (eachWrite e p i ((eachLive [] rs).foldl (fun ks x => setIns x.key ks) []) s r).1
          (eachWrite e p i ((eachLive [] rs).foldl (fun ks x => setIns x.key ks) []) s r).2
        exact ⟨Nat.le_trans h1.1 h2.1, h2.2.trans h1.2⟩
      · split
        · exact ⟨Nat.le_refl _, rfl⟩
        · exact ih _ _ _

theorem room_of_grow {s s' : State} (h : s.file.length ≤ s'.file.length ∧ s'.cfg = s.cfg) (hr : s'.Room) : s.Room := by
  simp only [State.Room] at hr ⊢
  rw [h.2] at hr
  exact ⟨Nat.le_trans h.1 hr.1, Nat.lt_of_le_of_lt h.1 hr.2⟩

/-! ### ProcessEach -/

/-- The database after a part of a traversal. -/
structure Passed (e : Env) (t t' : LSt) : Prop where
  inv : t'.Inv e
  cfg : t'.cfg = t.cfg
  saved : t.Saved → t'.Saved

theorem eachWrite_spec (he : EnvOk e) {ρ : Type} (p : Bytes → ρ → Bytes → Action × ρ) (i : Nat)
    (hf : ∀ k r v, ActFits hashFits k (p k r v).1) (l : List (Bytes × Bytes)) (t : LSt) (r : ρ) (h : t.Inv e)
    (hr : (eachWrite e p i (l.map (·.1)) (t.toState e) r).1.Room) (hl : (l.map (·.1)).Nodup)
    (hv : ∀ x ∈ l, e.hash x.1 t.cfg.nb = i ∧ t.view x.1 = some x.2) :
    ∃ t', (eachWrite e p i (l.map (·.1)) (t.toState e) r).1 = t'.toState e ∧ Passed e t t' ∧
      (t'.view, (eachWrite e p i (l.map (·.1)) (t.toState e) r).2) = Dict.eachFold true p l t.view r := by
  induction l generalizing t r with
  | nil => exact ⟨t, rfl, ⟨h, rfl, id⟩, rfl⟩
  | cons a l ih =>
    obtain ⟨k, v⟩ := a
    obtain ⟨hk, hkv⟩ := hv (k, v) (by simp)
    have hroom : (t.toState e).Room := room_of_grow (eachWrite_grow _ _ _ _ _) hr
    have hfit : ActFits hashFits k (fullOnly (p k r) r (t.view k)).1 := by rw [hkv]; exact hf k r v
    have e1 := processImpl_sim he h hroom (Nat.le_refl _) k true (fullOnly (p k r) r) hfit
    have e2 := processL_spec he h k true (fullOnly (p k r) r) hfit
    simp only at hk
    rw [hk] at e1
    simp only [List.map_cons, eachWrite] at hr ⊢
    rw [e1] at hr ⊢
    rw [hkv] at e2
    have hv2 : (processL e t k true (fullOnly (p k r) r)).1.view = t.view.act k (p k r v).1 := e2.2.view
    simp only [List.map_cons, List.nodup_cons] at hl
    obtain ⟨t', g1, g2, g3⟩ := ih (processL e t k true (fullOnly (p k r) r)).1 (processL e t k true (fullOnly (p k r) r)).2 e2.2.inv hr hl.2 (by
      intro x hx
      obtain ⟨b1, b2⟩ := hv x (by simp [hx])
      refine ⟨by rw [e2.2.cfg]; exact b1, ?_⟩
      rw [hv2, Dict.act_other _ _ ?_]
      · exact b2
      · rintro e3; exact hl.1 (List.mem_map.2 ⟨x, hx, e3⟩))
    refine ⟨t', g1, ⟨g2.inv, g2.cfg.trans e2.2.cfg, fun hs => g2.saved (e2.2.saved hs)⟩, ?_⟩
    rw [g3, hv2, e2.1]
    rfl

theorem eachRead_spec {ρ : Type} (p : Bytes → ρ → Bytes → Action × ρ) (rs : List RecR) (hv : ∀ r ∈ rs, ∃ v, r.value = some v) (r : ρ) (d : Dict) :
    eachRead p rs r = some (Dict.eachFold false p (rs.map fun x => (x.key, x.value.getD [])) d r).2 ∧
    (Dict.eachFold false p (rs.map fun x => (x.key, x.value.getD [])) d r).1 = d := by
  induction rs generalizing r with
  | nil => exact ⟨rfl, rfl⟩
  | cons x rs ih =>
    obtain ⟨v, h1⟩ := hv x (by simp)
    have := ih (fun y hy => hv y (by simp [hy])) (p x.key r v).2
    simp only [eachRead, h1, List.map_cons, Dict.eachFold, Option.getD_some]
    exact this

theorem eachBuckets_spec (he : EnvOk e) {ρ : Type} (w : Bool) (p : Bytes → ρ → Bytes → Action × ρ)
    (hf : ∀ k r v, ActFits hashFits k (p k r v).1) (fuel i : Nat) (t : LSt) (r : ρ) (h : t.Inv e) (hi : i + fuel = t.cfg.nb)
    (hr : (eachBuckets e w p fuel i (t.toState e) r).1.Room) :
    ∃ t' l, (eachBuckets e w p fuel i (t.toState e) r).1 = t'.toState e ∧ Passed e t t' ∧
      (t'.view, (eachBuckets e w p fuel i (t.toState e) r).2) = Dict.eachFold w p l t.view r ∧
      (l.map (·.1)).Nodup ∧ (∀ k v, (k, v) ∈ l ↔ i ≤ e.hash k t.cfg.nb ∧ t.view k = some v) := by
  induction fuel generalizing i t r with
  | zero =>
    refine ⟨t, [], rfl, ⟨h, rfl, id⟩, rfl, by simp, ?_⟩
    intro k v
    have := he.hash k t.cfg.nb (by have := h.cfg.nb; omega)
    simp only [List.not_mem_nil, false_iff]
    rintro ⟨h1, _⟩; omega
  | succ fuel ih =>
    have hroom : (t.toState e).Room := room_of_grow (eachBuckets_grow _ _ _ _ _ _) hr
    obtain ⟨rs, h1, hb⟩ := bucketRecs_spec he h hroom (i := i) (by omega)
    obtain ⟨el1, el2, el3⟩ := eachLive_spec rs hb.mem []
    simp only [eachBuckets, h1] at hr ⊢
    cases w with
    | true =>
      simp only [if_true] at hr ⊢
      obtain ⟨s1, s2⟩ := foldIns_spec (eachLive [] rs) [] List.Pairwise.nil
      generalize hks : (eachLive [] rs).foldl (fun ks x => setIns x.key ks) [] = ks at *
      let l0 : List (Bytes × Bytes) := ks.map fun k => (k, (t.view k).getD [])
      have hl0 : l0.map (·.1) = ks := by simp only [l0, List.map_map]; exact List.map_id' ks
      have hmem : ∀ k, k ∈ ks ↔ e.hash k t.cfg.nb = i ∧ (t.view k).isSome = true := by
        intro k
        rw [s2 k]
        constructor
        · rintro (h | ⟨x, hx, rfl⟩)
          · cases h
          · obtain ⟨b1, b2, b3⟩ := el2 x hx
            obtain ⟨_, c2, v, c3⟩ := hb.mem x b1
            refine ⟨c2, ?_⟩
            rw [hb.newest _ c2, b3, c3]; rfl
        · rintro ⟨b1, b2⟩
          obtain ⟨v, hv⟩ := Option.isSome_iff_exists.1 b2
          rw [hb.newest _ b1] at hv
          obtain ⟨x, hx, c1, _⟩ := el3 k v (by simp) hv
          exact Or.inr ⟨x, hx, c1⟩
      have hr1 : (eachWrite e p i (l0.map (·.1)) (t.toState e) r).1.Room := by
        rw [hl0]; exact room_of_grow (eachBuckets_grow _ _ _ _ _ _) hr
      obtain ⟨t1, g1, g2, g3⟩ := eachWrite_spec he p i hf l0 t r h hr1 (by rw [hl0]; exact sorted_nodup s1) (by
        intro x hx
        obtain ⟨k, hk, rfl⟩ := List.mem_map.1 hx
        obtain ⟨b1, b2⟩ := (hmem k).1 hk
        obtain ⟨v, hv⟩ := Option.isSome_iff_exists.1 b2
        exact ⟨b1, by simp [hv]⟩)
      rw [hl0] at g1 g3
      rw [g1] at hr ⊢
      obtain ⟨t', l, k1, k2, k3, k4, k5⟩ := ih (i + 1) t1 _ g2.inv (by rw [g2.cfg]; omega) hr
      have hother : ∀ k, e.hash k t.cfg.nb ≠ i → t1.view k = t.view k := by
        intro k hk
        have : t1.view = (Dict.eachFold true p l0 t.view r).1 := by rw [← g3]
        rw [this]
        apply Dict.eachFold_other
        rw [hl0]; intro hk'; exact hk ((hmem k).1 hk').1
      rw [g2.cfg] at k5
      refine ⟨t', l0 ++ l, k1, ⟨k2.inv, k2.cfg.trans g2.cfg, fun hs => k2.saved (g2.saved hs)⟩, ?_, ?_, ?_⟩
      · rw [k3, Dict.eachFold_append, ← g3]
      · rw [List.map_append, hl0, List.nodup_append]
        refine ⟨sorted_nodup s1, k4, ?_⟩
        rintro a ha b hb' rfl
        obtain ⟨⟨a', v⟩, hx, e2⟩ := List.mem_map.1 hb'
        dsimp only at e2
        subst e2
        have := ((k5 a' v).1 hx).1
        have := ((hmem a').1 ha).1
        omega
      · intro k v
        rw [List.mem_append, k5 k v]
        constructor
        · rintro (h | ⟨h2, h3⟩)
          · obtain ⟨k', hk', e2⟩ := List.mem_map.1 h
            simp only [Prod.mk.injEq] at e2
            obtain ⟨rfl, rfl⟩ := e2
            obtain ⟨b1, b2⟩ := (hmem k').1 hk'
            obtain ⟨v, hv⟩ := Option.isSome_iff_exists.1 b2
            exact ⟨by omega, by simp [hv]⟩
          · exact ⟨by omega, by rw [← hother k (by omega)]; exact h3⟩
        · rintro ⟨h2, h3⟩
          by_cases h4 : e.hash k t.cfg.nb = i
          · left
            exact List.mem_map.2 ⟨k, (hmem k).2 ⟨h4, by simp [h3]⟩, by simp [h3]⟩
          · exact Or.inr ⟨by omega, by rw [hother k h4]; exact h3⟩
    | false =>
      simp only [Bool.false_eq_true, if_false] at hr ⊢
      obtain ⟨q1, q2⟩ := eachRead_spec p (eachLive [] rs) (fun x hx => (hb.mem x (el2 x hx).1).2.2) r t.view
      rw [q1] at hr ⊢
      dsimp only at hr ⊢
      obtain ⟨t', l, k1, k2, k3, k4, k5⟩ := ih (i + 1) t _ h (by omega) hr
      have hmem : ∀ k v, (k, v) ∈ (eachLive [] rs).map (fun x => (x.key, x.value.getD [])) ↔ e.hash k t.cfg.nb = i ∧ t.view k = some v := by
        intro k v
        constructor
        · intro hx
          obtain ⟨x, hx', e2⟩ := List.mem_map.1 hx
          simp only [Prod.mk.injEq] at e2
          obtain ⟨rfl, rfl⟩ := e2
          obtain ⟨b1, b2, b3⟩ := el2 x hx'
          obtain ⟨_, c2, v, c3⟩ := hb.mem x b1
          refine ⟨c2, ?_⟩
          rw [hb.newest _ c2, b3, c3]; rfl
        · rintro ⟨b1, b2⟩
          rw [hb.newest _ b1] at b2
          obtain ⟨x, hx, c1, c2⟩ := el3 k v (by simp) b2
          exact List.mem_map.2 ⟨x, hx, by rw [c1, c2]; rfl⟩
      refine ⟨t', (eachLive [] rs).map (fun x => (x.key, x.value.getD [])) ++ l, k1, k2, ?_, ?_, ?_⟩
      · rw [k3, Dict.eachFold_append, q2]
      · rw [List.map_append, List.nodup_append]
        refine ⟨by rw [List.map_map]; exact el1, k4, ?_⟩
        rintro a ha b hb' rfl
        obtain ⟨⟨a', v⟩, hx, e2⟩ := List.mem_map.1 hb'
        obtain ⟨⟨a'', v'⟩, hx', e3⟩ := List.mem_map.1 ha
        dsimp only at e2 e3
        subst e2
        subst e3
        have := ((k5 _ v).1 hx).1
        have := ((hmem _ _).1 hx').1
        omega
      · intro k v
        rw [List.mem_append, k5 k v, hmem k v]
        constructor
        · rintro (⟨h2, h3⟩ | ⟨h2, h3⟩)
          · exact ⟨by omega, h3⟩
          · exact ⟨by omega, h3⟩
        · rintro ⟨h2, h3⟩
          by_cases h4 : e.hash k t.cfg.nb = i
          · exact Or.inl ⟨h4, h3⟩
          · exact Or.inr ⟨by omega, h3⟩

/-! The linear pass -/

/-- The live records of a list of records. -/
def liveList (rs : List Rec) : List (Bytes × Bytes) := (rs.filter fun r => r.op.isSet).map fun r => (r.key, r.value)

theorem eachScan_spec {ρ : Type} {c : Cfg} {rd : Reader} {L : Lay} (p : Bytes → ρ → Bytes → Action × ρ)
    (hrd : ∀ o r, recAt c (recordBase c) L.recs o = some r → rd.record o = some (recR c r)) (hsz : rd.size = L.end_ c) (d : Dict)
    (b : List Rec) : ∀ (a : List Rec) (fuel : Nat) (r : ρ), L.recs = a ++ b → b.length ≤ fuel →
    eachScan rd p fuel (recordBase c + totalSize c a) r = some (Dict.eachFold false p (liveList b) d r).2 ∧
    (Dict.eachFold false p (liveList b) d r).1 = d := by
  induction b with
  | nil =>
    intro a fuel r hl _
    have : ¬ recordBase c + totalSize c a < rd.size := by rw [hsz, Lay.end_, hl, List.append_nil]; omega
    cases fuel <;> simp [eachScan, this, liveList, Dict.eachFold]
  | cons x b ih =>
    intro a fuel r hl hfu
    cases fuel with
    | zero => simp at hfu
    | succ fuel =>
      have hat : recAt c (recordBase c) L.recs (recordBase c + totalSize c a) = some x := by
        rw [hl, show a ++ x :: b = (a ++ [x]) ++ b by simp]
        exact recAt_append_left _ (recAt_new a x)
      have hlt := recAt_lt hat
      have hpos := size_pos (c := c) x
      have hlt' : recordBase c + totalSize c a < rd.size := by rw [hsz, Lay.end_]; omega
      have hoff : recordBase c + totalSize c a + (recR c x).size = recordBase c + totalSize c (a ++ [x]) := by
        rw [totalSize_append]; simp only [totalSize, recR]; omega
      simp only [eachScan, if_pos hlt', hrd _ _ hat, hoff]
      simp only [List.length_cons] at hfu
      by_cases ho : x.op.isSet = true
      · have := ih (a ++ [x]) fuel (p x.key r x.value).2 (by rw [hl]; simp) (by omega)
        simp only [recR, ho, if_true, liveList, List.filter_cons, List.map_cons, Dict.eachFold]
        exact this
      · have := ih (a ++ [x]) fuel r (by rw [hl]; simp) (by omega)
        have ho' : ¬ (recR c x).op.isSet = true := ho
        rw [if_neg ho']
        simp only [liveList, List.filter_cons]
        rw [if_neg ho]
        exact this

theorem liveList_lists {c : Cfg} {rs : List Rec} (hn : ∀ r ∈ rs, r.op ≠ .remove) (hu : Uniq c rs) : (contents rs).Lists (liveList rs) := by
  have hset : ∀ r ∈ rs, (r.op.isSet = true ↔ r.op ≠ .void) := by
    intro r hr
    have := hn r hr
    cases ho : r.op <;> simp_all [OpType.isSet]
  constructor
  · -- two live records of the same key have the same offset
    have key : ∀ (b a : List Rec), rs = a ++ b → ((liveList b).map (·.1)).Nodup := by
      intro b
      induction b with
      | nil => intro a _; exact List.Pairwise.nil
      | cons x b ih =>
        intro a ha
        have h1 := ih (a ++ [x]) (by rw [ha]; simp)
        by_cases ho : x.op.isSet = true
        · simp only [liveList, List.filter_cons, ho, if_true, List.map_cons, List.nodup_cons]
          refine ⟨?_, h1⟩
          intro hk
          obtain ⟨⟨k', v'⟩, hx, e1⟩ := List.mem_map.1 hk
          obtain ⟨y, hy, e2⟩ := List.mem_map.1 hx
          simp only [Prod.mk.injEq] at e2
          obtain ⟨rfl, rfl⟩ := e2
          dsimp only at e1
          obtain ⟨hyb, hys⟩ := List.mem_filter.1 hy
          have hat : recAt c (recordBase c) rs (recordBase c + totalSize c a) = some x := by
            rw [ha, show a ++ x :: b = (a ++ [x]) ++ b by simp]
            exact recAt_append_left _ (recAt_new a x)
          obtain ⟨u, v, rfl⟩ := List.append_of_mem hyb
          have hat' : recAt c (recordBase c) rs (recordBase c + totalSize c (a ++ x :: u)) = some y := by
            rw [ha, show a ++ x :: (u ++ y :: v) = ((a ++ x :: u) ++ [y]) ++ v by simp]
            exact recAt_append_left _ (recAt_new _ y)
          have l1 : live c rs (recordBase c + totalSize c a) = some (x.key, x.value) := by
            simp [live, hat, Rec.kv, (hset x (by rw [ha]; simp)).1 ho]
          have l2 : live c rs (recordBase c + totalSize c (a ++ x :: u)) = some (x.key, y.value) := by
            simp [live, hat', Rec.kv, (hset y (by rw [ha]; simp)).1 hys, e1]
          have := hu _ _ _ _ _ l1 l2
          have hs := totalSize_append (c := c) a (x :: u)
          have := size_pos (c := c) x
          simp only [totalSize] at hs
          omega
        · simp only [liveList, List.filter_cons, ho]
          exact h1
    exact key rs [] rfl
  · intro k v
    rw [contents_iff (c := c) rs.length rs rfl hn hu]
    constructor
    · intro h
      obtain ⟨y, hy, e2⟩ := List.mem_map.1 h
      simp only [Prod.mk.injEq] at e2
      obtain ⟨rfl, rfl⟩ := e2
      obtain ⟨hyb, hys⟩ := List.mem_filter.1 hy
      obtain ⟨o, ho⟩ := exists_recAt (c := c) (b := recordBase c) hyb
      exact ⟨o, by simp [live, ho, Rec.kv, (hset y hyb).1 hys]⟩
    · rintro ⟨o, ho⟩
      simp only [live] at ho
      cases h1 : recAt c (recordBase c) rs o with
      | none => rw [h1] at ho; cases ho
      | some y =>
        rw [h1] at ho
        simp only [Option.bind_some, Rec.kv] at ho
        split at ho
        · cases ho
        · rename_i hv
          simp only [Option.some.injEq, Prod.mk.injEq] at ho
          obtain ⟨rfl, rfl⟩ := ho
          have hy := recAt_mem h1
          exact List.mem_map.2 ⟨y, List.mem_filter.2 ⟨hy, (hset y hy).2 hv⟩, rfl⟩

theorem processEach_spec (he : EnvOk e) {ρ : Type} (w : Bool) (p : Bytes → ρ → Bytes → Action × ρ) (emp : ρ → ρ)
    (hf : ∀ k r v, ActFits hashFits k (p k r v).1) (t : LSt) (r : ρ) (h : t.Inv e)
    (hr : (processEach e (t.toState e) w p emp r).1.Room) :
    ∃ t' l, (processEach e (t.toState e) w p emp r).1 = t'.toState e ∧ Passed e t t' ∧
      t'.view = (Dict.eachFold w p l t.view (emp r)).1 ∧
      (processEach e (t.toState e) w p emp r).2 = emp (Dict.eachFold w p l t.view (emp r)).2 ∧ t.view.Lists l := by
  by_cases hm : w = false ∧ (t.toState e).cfg.inPlace = true
  · simp only [processEach, if_pos hm] at hr ⊢
    have hroom : (t.toState e).Room := by
      split at hr
      · exact hr
      · exact hr
    have hip : InPlace e t.cfg t.lay t.mem.fbp := by
      have h1 := h.inv
      have h2 : t.cfg.inPlace = true := hm.2
      unfold LInv at h1; rwa [if_pos h2] at h1
    have hlen : (t.toState e).file.length = t.lay.end_ t.cfg := render_length h.cfg h.frame h.inv.base.nb
    obtain ⟨g1, g2⟩ := eachScan_spec (L := t.lay) (c := t.cfg) (rd := fileReader (t.toState e).cfg (t.toState e).file metaMinReadSize) p
      (fun o r h1 => fileReader_record he h.cfg h.frame h.inv.base (h.room hroom) (Nat.le_refl _) h1) hlen t.view
      t.lay.recs [] (t.toState e).file.length (emp r) rfl (by
        rw [hlen, Lay.end_]; have := length_le_totalSize (c := t.cfg) t.lay.recs; omega)
    have g1' : eachScan (fileReader (t.toState e).cfg (t.toState e).file metaMinReadSize) p (t.toState e).file.length
        (recordBase (t.toState e).cfg) (emp r) = some (Dict.eachFold false p (liveList t.lay.recs) t.view (emp r)).2 := g1
    rw [g1']
    refine ⟨t, liveList t.lay.recs, rfl, ⟨h, rfl, id⟩, ?_, ?_, liveList_lists (c := t.cfg) hip.noRemove hip.uniq⟩
    · rw [hm.1, g2]
    · rw [hm.1]
  · simp only [processEach, if_neg hm] at hr ⊢
    obtain ⟨t', l, g1, g2, g3, g4, g5⟩ := eachBuckets_spec he w p hf (t.toState e).cfg.nb 0 t (emp r) h (Nat.zero_add _) hr
    refine ⟨t', l, g1, g2, by rw [← g3], by rw [← g3], g4, ?_⟩
    intro k v
    rw [g5 k v]; simp

/-! ### ProcessFirst -/

theorem firstFrom_spec (he : EnvOk e) {τ : Type} (w : Bool) (p : Bytes → Bytes → Action × τ) {t : LSt} (h : t.Inv e)
    (hr : (t.toState e).Room) (fuel i : Nat) (hi : i + fuel = t.cfg.nb) :
    (firstFrom e (t.toState e) w p fuel i = (t.toState e, none) ∧ ∀ k, i ≤ e.hash k t.cfg.nb → t.view k = none) ∨
    ∃ k v, t.view k = some v ∧ firstFrom e (t.toState e) w p fuel i =
      process e (t.toState e) k w (fullOnly (fun v => ((p k v).1, some (p k v).2)) none) := by
  induction fuel generalizing i with
  | zero =>
    refine Or.inl ⟨rfl, fun k hk => ?_⟩
    have := he.hash k t.cfg.nb (by have := h.cfg.nb; omega)
    omega
  | succ fuel ih =>
    obtain ⟨rs, h1, hb⟩ := bucketRecs_spec he h hr (i := i) (by omega)
    have hs := firstKey_spec rs hb.mem []
    simp only [firstFrom, h1]
    cases hk : firstKey [] rs with
    | some k =>
      rw [hk] at hs
      obtain ⟨_, h2, h3⟩ := hs
      obtain ⟨v, hv⟩ := Option.isSome_iff_exists.1 h3
      refine Or.inr ⟨k, v, (hb.newest k h2).trans hv, ?_⟩
      have : e.hash k (t.toState e).cfg.nb = i := h2
      simp only [process, this]
    | none =>
      rw [hk] at hs
      rcases ih (i + 1) (by omega) with ⟨g1, g2⟩ | g
      · refine Or.inl ⟨g1, fun k hk' => ?_⟩
        by_cases e1 : e.hash k t.cfg.nb = i
        · rw [hb.newest k e1]; exact hs k (by simp)
        · exact g2 k (by omega)
      · exact Or.inr g

/-! ### The iterator -/

/-- The keys an iterator takes from a bucket. -/
def bkKeys (s : State) (i : Nat) : List Bytes :=
  match bucketRecs (fileReader s.cfg s.file metaMinReadSize) i with
  | none => []
  | some rs => iterKeys [] [] rs

/-- The keys that an iterator has still to present. -/
def pending (s : State) (b : Nat) (keys : List Bytes) : List Bytes := keys ++ (List.range' b (s.cfg.nb - b)).flatMap (bkKeys s)

theorem bkKeys_spec (he : EnvOk e) {t : LSt} (h : t.Inv e) (hr : (t.toState e).Room) {i : Nat} (hi : i < t.cfg.nb) :
    ∃ rs, bucketRecs (fileReader (t.toState e).cfg (t.toState e).file metaMinReadSize) i = some rs ∧
      iterKeys [] [] rs = bkKeys (t.toState e) i ∧ (bkKeys (t.toState e) i).Pairwise (fun a b => bytesLt a b = true) ∧
      ∀ k, k ∈ bkKeys (t.toState e) i ↔ e.hash k t.cfg.nb = i ∧ (t.view k).isSome = true := by
  obtain ⟨rs, h1, hb⟩ := bucketRecs_spec he h hr hi
  obtain ⟨s1, s2⟩ := iterKeys_spec rs hb.mem [] [] List.Pairwise.nil
  have e1 : iterKeys [] [] rs = bkKeys (t.toState e) i := by simp only [bkKeys, h1]
  refine ⟨rs, h1, e1, e1 ▸ s1, ?_⟩
  intro k
  rw [← e1, s2 k]
  simp only [List.not_mem_nil, false_or, not_false_eq_true, true_and]
  constructor
  · intro h2
    have : ∃ r ∈ rs, r.key = k := by
      clear s1 s2 e1 h1 hb
      induction rs with
      | nil => simp [fv] at h2
      | cons r rs ih =>
        simp only [fv] at h2
        by_cases e1 : r.key = k
        · exact ⟨r, by simp, e1⟩
        · rw [if_neg e1] at h2
          obtain ⟨x, hx, h3⟩ := ih h2
          exact ⟨x, by simp [hx], h3⟩
    obtain ⟨r, hr1, rfl⟩ := this
    have := (hb.mem r hr1).2.1
    exact ⟨this, by rw [hb.newest _ this]; exact h2⟩
  · rintro ⟨h2, h3⟩
    rw [← hb.newest _ h2]; exact h3

theorem readNext_spec (he : EnvOk e) {t : LSt} (h : t.Inv e) (hr : (t.toState e).Room) (fuel b : Nat) (hb : b ≤ t.cfg.nb)
    (hf : t.cfg.nb < fuel + b) :
    (readNext (t.toState e) fuel ⟨b, []⟩ = some (⟨-1, []⟩, false) ∧ pending (t.toState e) b [] = []) ∨
    ∃ b' k ks, b' ≤ t.cfg.nb ∧ readNext (t.toState e) fuel ⟨b, []⟩ = some (⟨(b' : Nat), k :: ks⟩, true) ∧
      pending (t.toState e) b [] = pending (t.toState e) b' (k :: ks) := by
  induction fuel generalizing b with
  | zero => omega
  | succ fuel ih =>
    simp only [readNext]
    by_cases hlt : b < t.cfg.nb
    · have hc : ¬ ((b : Int) < 0 ∨ (b : Int) ≥ (t.toState e).cfg.nb) := by
        show ¬ ((b : Int) < 0 ∨ (b : Int) ≥ t.cfg.nb); omega
      rw [if_neg hc]
      obtain ⟨rs, h1, h2, _, _⟩ := bkKeys_spec he h hr hlt
      rw [Int.toNat_natCast, h1]
      dsimp only
      rw [h2]
      have hp : pending (t.toState e) b [] = bkKeys (t.toState e) b ++ pending (t.toState e) (b + 1) [] := by
        simp only [pending, List.nil_append]
        rw [show (t.toState e).cfg.nb - b = ((t.toState e).cfg.nb - (b + 1)) + 1 by show t.cfg.nb - b = (t.cfg.nb - (b + 1)) + 1; omega, List.range'_succ]
        simp
      by_cases hk : rs ≠ [] ∧ bkKeys (t.toState e) b ≠ []
      · rw [if_pos hk]
        obtain ⟨k, ks, hks⟩ := List.exists_cons_of_ne_nil hk.2
        refine Or.inr ⟨b + 1, k, ks, by omega, by rw [hks]; rfl, ?_⟩
        rw [hp, hks]; simp [pending]
      · rw [if_neg hk]
        have hnil : bkKeys (t.toState e) b = [] := by
          rcases Classical.em (rs = []) with e1 | e1
          · rw [← h2, e1]; rfl
          · rcases Classical.em (bkKeys (t.toState e) b = []) with e2 | e2
            · exact e2
            · exact absurd ⟨e1, e2⟩ hk
        rw [hnil] at hp ⊢
        rw [List.nil_append] at hp
        have := ih (b + 1) (by omega) (by omega)
        rw [hp]
        exact this
    · have hc : ((b : Int) < 0 ∨ (b : Int) ≥ (t.toState e).cfg.nb) := by
        show ((b : Int) < 0 ∨ (b : Int) ≥ t.cfg.nb); omega
      rw [if_pos hc]
      refine Or.inl ⟨rfl, ?_⟩
      have : (t.toState e).cfg.nb - b = 0 := by show t.cfg.nb - b = 0; omega
      simp [pending, this]

theorem readKeys_spec (he : EnvOk e) {t : LSt} (h : t.Inv e) (hr : (t.toState e).Room) (b : Nat) (hb : b ≤ t.cfg.nb) (keys : List Bytes) :
    (readKeys (t.toState e) ⟨b, keys⟩ = some (⟨-1, []⟩, false) ∧ pending (t.toState e) b keys = []) ∨
    ∃ b' k ks, b' ≤ t.cfg.nb ∧ readKeys (t.toState e) ⟨b, keys⟩ = some (⟨(b' : Nat), k :: ks⟩, true) ∧
      pending (t.toState e) b keys = pending (t.toState e) b' (k :: ks) := by
  simp only [readKeys]
  rw [if_neg (by omega)]
  cases keys with
  | cons k ks =>
    rw [if_neg (by simp)]
    exact Or.inr ⟨b, k, ks, hb, rfl, rfl⟩
  | nil =>
    rw [if_pos rfl]
    rcases readNext_spec he h hr ((t.toState e).cfg.nb + 1) b hb (by show t.cfg.nb < t.cfg.nb + 1 + b; omega) with ⟨g1, g2⟩ | ⟨b', k, ks, g1, g2, g3⟩
    · rw [g1]; exact Or.inl ⟨rfl, g2⟩
    · rw [g2]; exact Or.inr ⟨b', k, ks, g1, rfl, g3⟩

theorem pending_cons (s : State) (b : Nat) (k : Bytes) (ks : List Bytes) : pending s b (k :: ks) = k :: pending s b ks := rfl

theorem pending_first (he : EnvOk e) {t : LSt} (h : t.Inv e) (hr : (t.toState e).Room) (n i : Nat) (hn : i + n = t.cfg.nb) :
    ((List.range' i n).flatMap (bkKeys (t.toState e))).Nodup ∧
    ∀ k, k ∈ (List.range' i n).flatMap (bkKeys (t.toState e)) ↔ i ≤ e.hash k t.cfg.nb ∧ (t.view k).isSome = true := by
  induction n generalizing i with
  | zero =>
    refine ⟨by simp, fun k => ?_⟩
    have := he.hash k t.cfg.nb (by have := h.cfg.nb; omega)
    simp only [List.range'_zero, List.flatMap_nil, List.not_mem_nil, false_iff]
    rintro ⟨h1, _⟩; omega
  | succ n ih =>
    obtain ⟨g1, g2⟩ := ih (i + 1) (by omega)
    obtain ⟨rs, _, _, h3, h4⟩ := bkKeys_spec he h hr (i := i) (by omega)
    simp only [List.range'_succ, List.flatMap_cons]
    constructor
    · rw [List.nodup_append]
      refine ⟨sorted_nodup h3, g1, ?_⟩
      rintro a ha b hb rfl
      have h5 := ((g2 a).1 hb).1
      have h6 := ((h4 a).1 ha).1
      omega
    · intro k
      rw [List.mem_append, g2 k, h4 k]
      constructor
      · rintro (⟨h5, h6⟩ | ⟨h5, h6⟩)
        · exact ⟨by omega, h6⟩
        · exact ⟨by omega, h6⟩
      · rintro ⟨h5, h6⟩
        by_cases h7 : e.hash k t.cfg.nb = i
        · exact Or.inl ⟨h7, h6⟩
        · exact Or.inr ⟨by omega, h6⟩

end Verif.Hash
