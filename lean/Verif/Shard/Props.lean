import Verif.Shard.Model
import Verif.Dbm.QueueProps
import Verif.Dbm.Counted
import Verif.Dbm.History
/-
C29: ShardDBM is one dictionary.
-/
namespace Verif.Shard
open Verif Verif.Api

variable {σ : Type} {hash : Bytes → Nat → Nat} {D : DbmImpl σ} {inv : σ → Prop} {vw : σ → Dict} {fits : Bytes → Bytes → Prop}

/-- SPECIFICATION: the contents of a ShardDBM: a key is looked up in the shard chosen by the hash function. -/
def view (hash : Bytes → Nat → Nat) (vw : σ → Dict) (ts : List σ) : Dict := fun k =>
  match ts[hash k ts.length]? with
  | some t => vw t k
  | none => none

/-- A shard holds only keys that belong to it. -/
def Routed (hash : Bytes → Nat → Nat) (n i : Nat) (d : Dict) : Prop := ∀ k v, d k = some v → hash k n = i

/-- The states of ShardDBM: at least one shard, every shard in order and with its own keys only. -/
structure Inv (hash : Bytes → Nat → Nat) (inv : σ → Prop) (vw : σ → Dict) (s : State σ) : Prop where
  ok : s.bad = false
  ne : s.shards ≠ []
  each : ∀ i t, s.shards[i]? = some t → inv t ∧ Routed hash s.shards.length i (vw t)

/-- SPECIFICATION of the hash function: the result is below the number of shards. -/
def HashOk (hash : Bytes → Nat → Nat) : Prop := ∀ k n, 0 < n → hash k n < n

theorem secondaryHash_ok : HashOk Hashing.secondaryHash := by
  intro k n h
  unfold Hashing.secondaryHash
  exact Nat.mod_lt _ h

theorem Routed.act {n i : Nat} {d : Dict} (h : Routed hash n i d) {k : Bytes} (a : Action) (hk : hash k n = i) : Routed hash n i (d.act k a) := by
  intro k' v hv
  by_cases e : k' = k
  · rw [e]; exact hk
  · rw [Dict.act_other _ _ e] at hv; exact h k' v hv

theorem Routed.process {τ : Type} {n i : Nat} {d : Dict} (h : Routed hash n i d) {k : Bytes} (w : Bool) (p : ProcR τ) (hk : hash k n = i) :
    Routed hash n i (d.process k w p).1 := by
  unfold Dict.process
  cases w
  · exact h
  · exact h.act _ hk

theorem Inv.shard (hh : HashOk hash) {s : State σ} (h : Inv hash inv vw s) (k : Bytes) :
    ∃ t, s.shards[hash k s.shards.length]? = some t ∧ inv t ∧ Routed hash s.shards.length (hash k s.shards.length) (vw t) ∧ view hash vw s.shards k = vw t k := by
  have hlt := hh k s.shards.length (List.length_pos_iff.2 h.ne)
  refine ⟨s.shards[hash k s.shards.length], List.getElem?_eq_getElem hlt, ?_, ?_, ?_⟩
  · exact (h.each _ _ (List.getElem?_eq_getElem hlt)).1
  · exact (h.each _ _ (List.getElem?_eq_getElem hlt)).2
  · simp [view, List.getElem?_eq_getElem hlt]

/-- Replacing one shard. -/
theorem Inv.set {s : State σ} (h : Inv hash inv vw s) {i : Nat} {t t' : σ} (hi : s.shards[i]? = some t) (hi' : inv t')
    (hr : Routed hash s.shards.length i (vw t')) : Inv hash inv vw { s with shards := s.shards.set i t' } := by
  refine ⟨h.ok, by simpa using h.ne, ?_⟩
  intro j u hj
  simp only [List.getElem?_set, List.length_set] at hj ⊢
  split at hj
  · split at hj
    · rename_i e _; cases hj; subst e; exact ⟨hi', hr⟩
    · cases hj
  · exact h.each j u hj

theorem view_set {s : State σ} {i : Nat} {t t' : σ} (hi : s.shards[i]? = some t) (k : Bytes) :
    view hash vw (s.shards.set i t') k = if hash k s.shards.length = i then vw t' k else view hash vw s.shards k := by
  have hlt : i < s.shards.length := by
    rcases Nat.lt_or_ge i s.shards.length with h | h
    · exact h
    · rw [List.getElem?_eq_none h] at hi; cases hi
  unfold view
  rw [List.length_set, List.getElem?_set]
  by_cases e : hash k s.shards.length = i
  · rw [if_pos e.symm, if_pos hlt, if_pos e]
  · rw [if_neg (Ne.symm e), if_neg e]

theorem view_act {s : State σ} {i : Nat} {t t' : σ} {k : Bytes} {a : Action} (hi : s.shards[i]? = some t) (hk : hash k s.shards.length = i)
    (hv : vw t' = (vw t).act k a) : view hash vw (s.shards.set i t') = (view hash vw s.shards).act k a := by
  funext k'
  rw [view_set hi]
  by_cases e : k' = k
  · subst e
    rw [if_pos hk, hv]
    have : view hash vw s.shards k' = vw t k' := by simp [view, hk, hi]
    cases a <;> simp [Dict.act, Dict.upd, this]
  · rw [Dict.act_other _ _ e, hv]
    split
    · rename_i e2
      rw [Dict.act_other _ _ e]
      simp [view, e2, hi]
    · rfl

theorem process_inv (hh : HashOk hash) (L : Lawful D inv vw fits) {τ : Type} (s : State σ) (k : Bytes) (w : Bool) (p : ProcR τ) (h : Inv hash inv vw s)
    (hf : ActFits fits k (p (view hash vw s.shards k)).1) :
    Inv hash inv vw (process hash D s k w p).1 ∧
    (view hash vw (process hash D s k w p).1.shards, (process hash D s k w p).2) = (view hash vw s.shards).process k w p := by
  obtain ⟨t, h1, h2, h3, h4⟩ := h.shard hh k
  rw [h4] at hf
  have e := L.process_view t k w p h2 hf
  have hi' := L.process_inv t k w p h2 hf
  have e1 : vw (D.process t k w p).1 = ((vw t).process k w p).1 := by rw [← e]
  have e2 : (D.process t k w p).2 = ((vw t).process k w p).2 := by rw [← e]
  simp only [process, h1]
  refine ⟨h.set h1 hi' (by rw [e1]; exact h3.process w p rfl), ?_⟩
  unfold Dict.process at e1 e2 ⊢
  rw [e2, h4]
  congr 1
  cases w with
  | false =>
    simp only [Bool.false_eq_true, if_false] at e1 ⊢
    rw [view_act (a := .noop) h1 rfl e1]; rfl
  | true =>
    simp only [if_true] at e1 ⊢
    exact view_act h1 rfl e1

/-- The dictionary made of that of the first shard and of the other shards. -/
def comp (hash : Bytes → Nat → Nat) (vw : σ → Dict) (n : Nat) (d : Dict) (others : List σ) : Dict := fun k =>
  if hash k n = 0 then d k else match others[hash k n - 1]? with
    | some t => vw t k
    | none => none

structure Others (hash : Bytes → Nat → Nat) (inv : σ → Prop) (vw : σ → Dict) (n : Nat) (others : List σ) : Prop where
  len : others.length + 1 = n
  each : ∀ i t, others[i]? = some t → inv t ∧ Routed hash n (i + 1) (vw t)

theorem multi_aux (hh : HashOk hash) (L : Lawful D inv vw fits) {ρ : Type} (n : Nat) (w : Bool) (l : List (Bytes × ProcS ρ)) :
    ∀ (d : Dict) (x : Shared σ ρ), x.bad = false → Others hash inv vw n x.others → Routed hash n 0 d →
    MultiFits fits (comp hash vw n d x.others) l w x.vars →
    MultiFits fits d (l.map (wrap hash D n w)) w x ∧
    (d.processMulti (l.map (wrap hash D n w)) w x).2.bad = false ∧
    Others hash inv vw n (d.processMulti (l.map (wrap hash D n w)) w x).2.others ∧
    Routed hash n 0 (d.processMulti (l.map (wrap hash D n w)) w x).1 ∧
    (comp hash vw n (d.processMulti (l.map (wrap hash D n w)) w x).1 (d.processMulti (l.map (wrap hash D n w)) w x).2.others,
      (d.processMulti (l.map (wrap hash D n w)) w x).2.vars) = (comp hash vw n d x.others).processMulti l w x.vars := by
  induction l with
  | nil => intro d x hb ho hr _; exact ⟨trivial, hb, ho, hr, rfl⟩
  | cons kp l ih =>
    obtain ⟨k, p⟩ := kp
    intro d x hb ho hr hf
    simp only [MultiFits] at hf
    have hlt : hash k n < n := hh k n (by have := ho.len; omega)
    by_cases h0 : hash k n = 0
    · have hw : wrap hash D n w (k, p) = (k, fun x v => ((p x.vars v).1, { x with vars := (p x.vars v).2 })) := by
        simp only [wrap, h0, if_true]
      have hc : comp hash vw n d x.others k = d k := by simp [comp, h0]
      have hstep : comp hash vw n (d.process k w (p x.vars)).1 x.others = ((comp hash vw n d x.others).process k w (p x.vars)).1 := by
        unfold Dict.process
        rw [hc]
        cases w with
        | false => rfl
        | true =>
          simp only [if_true]
          funext k'
          by_cases e : k' = k
          · subst e
            cases (p x.vars (d k')).1 <;> simp [comp, h0, Dict.act, Dict.upd]
          · rw [Dict.act_other _ _ e]
            unfold comp
            rw [Dict.act_other _ _ e]
      rw [hc] at hf
      have hr' : ((comp hash vw n d x.others).process k w (p x.vars)).2 = (p x.vars (d k)).2 := by simp [Dict.process, hc]
      have := ih (d.process k w (p x.vars)).1 { x with vars := (p x.vars (d k)).2 } hb ho (hr.process w _ h0)
        (by rw [hstep]; rw [hr'] at hf; exact hf.2)
      simp only [List.map_cons, hw, MultiFits, Dict.processMulti]
      refine ⟨⟨hf.1, this.1⟩, this.2.1, this.2.2.1, this.2.2.2.1, ?_⟩
      have h5 := this.2.2.2.2
      rw [hstep] at h5
      rw [hr']
      exact h5
    · obtain ⟨t, ht⟩ : ∃ t, x.others[hash k n - 1]? = some t :=
        ⟨_, List.getElem?_eq_getElem (show hash k n - 1 < x.others.length by have := ho.len; omega)⟩
      obtain ⟨hit, hrt⟩ := ho.each _ _ ht
      have hc : comp hash vw n d x.others k = vw t k := by simp [comp, h0, ht]
      rw [hc] at hf
      have e := L.process_view t k w (p x.vars) hit hf.1
      have hi' := L.process_inv t k w (p x.vars) hit hf.1
      have e1 : vw (D.process t k w (p x.vars)).1 = ((vw t).process k w (p x.vars)).1 := by rw [← e]
      have e2 : (D.process t k w (p x.vars)).2 = ((vw t).process k w (p x.vars)).2 := by rw [← e]
      have hw : wrap hash D n w (k, p) = (k, fun (x : Shared σ ρ) _ =>
          match x.others[hash k n - 1]? with
          | some t =>
            let y := D.process t k w (p x.vars)
            (Action.noop, { x with vars := y.2, others := x.others.set (hash k n - 1) y.1 })
          | none => (.noop, { x with bad := true })) := by
        simp only [wrap, if_neg h0]; rfl
      have hlt' : hash k n - 1 < x.others.length := by have := ho.len; omega
      have ho' : Others hash inv vw n (x.others.set (hash k n - 1) (D.process t k w (p x.vars)).1) := by
        refine ⟨by simpa using ho.len, ?_⟩
        intro i u hu
        rw [List.getElem?_set] at hu
        split at hu
        · rename_i e3
          try rw [if_pos hlt'] at hu
          cases hu
          subst e3
          refine ⟨hi', ?_⟩
          rw [e1]
          exact hrt.process w _ (by omega)
        · exact ho.each i u hu
      have hstep : comp hash vw n d (x.others.set (hash k n - 1) (D.process t k w (p x.vars)).1) =
          ((comp hash vw n d x.others).process k w (p x.vars)).1 := by
        have hother : ∀ k', k' ≠ k → comp hash vw n d (x.others.set (hash k n - 1) (D.process t k w (p x.vars)).1) k' = comp hash vw n d x.others k' := by
          intro k' hk'
          unfold comp
          split
          · rfl
          · rename_i h0'
            by_cases e3 : hash k n - 1 = hash k' n - 1
            · rw [← e3, List.getElem?_set_self hlt', ht]
              simp only [e1, Dict.process]
              cases w
              · rfl
              · simp only [if_true]; rw [Dict.act_other _ _ hk']
            · rw [List.getElem?_set_ne e3]
        have hself : comp hash vw n d (x.others.set (hash k n - 1) (D.process t k w (p x.vars)).1) k = ((vw t).process k w (p x.vars)).1 k := by
          unfold comp
          rw [if_neg h0, List.getElem?_set_self hlt', ← e1]
        funext k'
        by_cases e3 : k' = k
        · subst e3
          rw [hself]
          simp only [Dict.process, hc]
          cases w
          · simp only [Bool.false_eq_true, if_false]; exact hc.symm
          · simp only [if_true]; cases (p x.vars (vw t k')).1 <;> simp [Dict.act, Dict.upd, hc]
        · rw [hother k' e3]
          simp only [Dict.process, hc]
          cases w
          · rfl
          · simp only [if_true]; rw [Dict.act_other _ _ e3]
      have hr' : ((comp hash vw n d x.others).process k w (p x.vars)).2 = (D.process t k w (p x.vars)).2 := by
        rw [e2]; simp only [Dict.process, hc]
      have := ih d { x with vars := (D.process t k w (p x.vars)).2, others := x.others.set (hash k n - 1) (D.process t k w (p x.vars)).1 } hb ho' hr
        (by simp only; rw [hstep, ← hr']; exact hf.2)
      have hd : ∀ {τ : Type} (q : ProcR τ), (q (d k)).1 = .noop → (d.process k w q).1 = d := by
        intro τ q hq; unfold Dict.process; rw [hq]; cases w <;> rfl
      have hd2 : ∀ {τ : Type} (q : ProcR τ), (d.process k w q).2 = (q (d k)).2 := fun _ => rfl
      simp only [List.map_cons, hw, MultiFits, Dict.processMulti]
      rw [hd _ (by simp only [ht]), hd2]
      simp only [ht]
      refine ⟨⟨trivial, this.1⟩, this.2.1, this.2.2.1, this.2.2.2.1, ?_⟩
      rw [this.2.2.2.2, hstep, hr']

theorem comp_view {t : σ} {others : List σ} : comp hash vw (t :: others).length (vw t) others = view hash vw (t :: others) := by
  funext k
  unfold comp view
  split
  · rename_i h; rw [h]; rfl
  · rename_i h
    obtain ⟨m, hm⟩ : ∃ m, hash k (t :: others).length = m + 1 := ⟨hash k (t :: others).length - 1, by omega⟩
    rw [hm]; rfl

theorem multi_spec (hh : HashOk hash) (L : Lawful D inv vw fits) {ρ : Type} (s : State σ) (l : List (Bytes × ProcS ρ)) (w : Bool) (r : ρ)
    (h : Inv hash inv vw s) (hf : MultiFits fits (view hash vw s.shards) l w r) :
    Inv hash inv vw (processMulti hash D s l w r).1 ∧
    (view hash vw (processMulti hash D s l w r).1.shards, (processMulti hash D s l w r).2) = (view hash vw s.shards).processMulti l w r := by
  obtain ⟨ts, bad⟩ := s
  cases ts with
  | nil => exact absurd rfl h.ne
  | cons t others =>
    have hb : bad = false := h.ok
    subst hb
    obtain ⟨hit, hrt⟩ := h.each 0 t rfl
    have ho : Others hash inv vw (t :: others).length others :=
      ⟨rfl, fun i u hu => h.each (i + 1) u (by simpa using hu)⟩
    obtain ⟨h1, h2, h3, h4, h5⟩ := multi_aux hh L (t :: others).length w l (vw t) ⟨r, others, false⟩ rfl ho hrt
      (by rw [comp_view]; exact hf)
    have e := L.multi_view t (l.map (wrap hash D (t :: others).length w)) w ⟨r, others, false⟩ hit h1
    have hi' := L.multi_inv t (l.map (wrap hash D (t :: others).length w)) w ⟨r, others, false⟩ hit h1
    unfold processMulti
    simp only
    generalize D.processMulti t (l.map (wrap hash D (t :: others).length w)) w ⟨r, others, false⟩ = y at e hi'
    obtain ⟨y1, y2⟩ := y
    simp only at e hi' ⊢
    rw [← e] at h2 h3 h4 h5
    simp only at h2 h3 h4 h5
    have hlen : (y1 :: y2.others).length = (t :: others).length := by have := h3.len; simp at this ⊢; omega
    refine ⟨⟨h2, by simp, ?_⟩, ?_⟩
    · intro i u hu
      simp only [hlen]
      cases i with
      | zero => cases hu; exact ⟨hi', h4⟩
      | succ i => exact h3.each i u (by simpa using hu)
    · rw [← comp_view, hlen, h5, comp_view]

/-- C29: for any number of shards of any class that behaves as a dictionary, ShardDBM behaves as one dictionary: single
and multiple-record processing, hence all the methods built on them (C19 to C22, C58). -/
theorem C29_lawful (hh : HashOk hash) (L : Lawful D inv vw fits) :
    Lawful (impl hash D) (Inv hash inv vw) (fun s => view hash vw s.shards) fits :=
  ⟨fun s k w p hi hf => (process_inv hh L s k w p hi hf).1, fun s k w p hi hf => (process_inv hh L s k w p hi hf).2,
    fun s l w r hi hf => (multi_spec hh L s l w r hi hf).1, fun s l w r hi hf => (multi_spec hh L s l w r hi hf).2⟩

/-- A new ShardDBM of `n` empty shards. -/
theorem C29_new {n : Nat} (hn : 0 < n) {t : σ} (hi : inv t) (he : vw t = Dict.empty) :
    Inv hash inv vw ⟨List.replicate n t, false⟩ ∧ view hash vw (List.replicate n t) = Dict.empty := by
  refine ⟨⟨rfl, by simp; omega, ?_⟩, ?_⟩
  · intro i u hu
    have : u = t := List.eq_of_mem_replicate (List.mem_of_getElem? hu)
    subst this
    refine ⟨hi, ?_⟩
    intro k v hv; rw [he] at hv; cases hv
  · funext k
    unfold view
    split
    · rename_i u hu
      have : u = t := List.eq_of_mem_replicate (List.mem_of_getElem? hu)
      rw [this, he]
    · rfl

/-- C29: `Get`, `Set`, `Remove` and `Append`, which call the method of the shard, do to the one dictionary what the shard
does to its own: if the method `f` of a shard acts on the key `k` as `Process` with `p` does and returns what `p` leaves,
then so does that of the ShardDBM. -/
theorem C29_routed (hh : HashOk hash) {τ : Type} {s : State σ} (h : Inv hash inv vw s) (k : Bytes) (f : σ → σ × τ) (dflt : τ) (p : ProcR τ)
    (w : Bool) (hf : ∀ t, inv t → vw t k = view hash vw s.shards k → inv (f t).1 ∧ (vw (f t).1, (f t).2) = (vw t).process k w p) :
    Inv hash inv vw (routed hash s k f dflt).1 ∧
    (view hash vw (routed hash s k f dflt).1.shards, (routed hash s k f dflt).2) = (view hash vw s.shards).process k w p := by
  obtain ⟨t, h1, h2, h3, h4⟩ := h.shard hh k
  obtain ⟨g1, g2⟩ := hf t h2 h4.symm
  have e1 : vw (f t).1 = ((vw t).process k w p).1 := by rw [← g2]
  have e2 : (f t).2 = ((vw t).process k w p).2 := by rw [← g2]
  simp only [routed, h1]
  refine ⟨h.set h1 g1 (by rw [e1]; exact h3.process w p rfl), ?_⟩
  unfold Dict.process at e1 e2 ⊢
  rw [e2, h4]
  congr 1
  cases w with
  | false =>
    simp only [Bool.false_eq_true, if_false] at e1 ⊢
    rw [view_act (a := .noop) h1 rfl e1]; rfl
  | true =>
    simp only [if_true] at e1 ⊢
    exact view_act h1 rfl e1

/-! ### All the records -/

theorem Inv.lists_aux {n : Nat} (ts : List σ) (rs : List (List (Bytes × Bytes))) (i : Nat) (hlen : rs.length = ts.length)
    (he : ∀ (j : Nat) t, ts[j]? = some t → Routed hash n (i + j) (vw t) ∧ ∃ l, rs[j]? = some l ∧ (vw t).Lists l) :
    (rs.flatten.map (·.1)).Nodup ∧ (∀ k v, (k, v) ∈ rs.flatten ↔ ∃ (j : Nat) (t : σ), ts[j]? = some t ∧ vw t k = some v) ∧
    (∀ k v, (k, v) ∈ rs.flatten → i ≤ hash k n) := by
  induction ts generalizing rs i with
  | nil =>
    cases rs with
    | nil => simp
    | cons _ _ => simp at hlen
  | cons t ts ih =>
    cases rs with
    | nil => simp at hlen
    | cons l rs =>
      obtain ⟨h1, l', h2, h3⟩ := he 0 t rfl
      simp only [List.getElem?_cons_zero, Option.some.injEq] at h2
      subst h2
      obtain ⟨g1, g2, g3⟩ := ih rs (i + 1) (by simpa using hlen) (by
        intro j u hu
        have := he (j + 1) u (by simpa using hu)
        rw [show i + 1 + j = i + (j + 1) by omega]
        simpa using this)
      have hl : ∀ k v, (k, v) ∈ l → hash k n = i := by
        intro k v hm
        have := h1 k v ((h3.2 k v).1 hm)
        simpa using this
      refine ⟨?_, ?_, ?_⟩
      · simp only [List.flatten_cons, List.map_append]
        rw [List.nodup_append]
        refine ⟨h3.1, g1, ?_⟩
        intro a ha b hb e
        subst e
        obtain ⟨⟨k, v⟩, hm, rfl⟩ := List.mem_map.1 ha
        obtain ⟨⟨k', v'⟩, hm', e⟩ := List.mem_map.1 hb
        simp only at e
        subst e
        have := hl _ _ hm
        have := g3 _ _ hm'
        omega
      · intro k v
        simp only [List.flatten_cons, List.mem_append, g2]
        constructor
        · rintro (h | ⟨j, u, hu, hv⟩)
          · exact ⟨0, t, rfl, (h3.2 k v).1 h⟩
          · exact ⟨j + 1, u, by simpa using hu, hv⟩
        · rintro ⟨j, u, hu, hv⟩
          cases j with
          | zero => cases hu; exact .inl ((h3.2 k v).2 hv)
          | succ j => exact .inr ⟨j, u, by simpa using hu, hv⟩
      · intro k v hm
        simp only [List.flatten_cons, List.mem_append] at hm
        rcases hm with hm | hm
        · rw [hl _ _ hm]; exact Nat.le_refl _
        · have := g3 _ _ hm; omega

/-- The records of all the shards together are the records of the ShardDBM, each once. -/
theorem Inv.lists {s : State σ} (h : Inv hash inv vw s) (rs : List (List (Bytes × Bytes))) (hlen : rs.length = s.shards.length)
    (he : ∀ (j : Nat) t l, s.shards[j]? = some t → rs[j]? = some l → (vw t).Lists l) : (view hash vw s.shards).Lists rs.flatten := by
  obtain ⟨h1, h2, _⟩ := Inv.lists_aux (hash := hash) (vw := vw) (n := s.shards.length) s.shards rs 0 hlen (by
    intro j t ht
    have hj : j < s.shards.length := by
      rcases Nat.lt_or_ge j s.shards.length with h | h
      · exact h
      · rw [List.getElem?_eq_none h] at ht; cases ht
    obtain ⟨l, hl⟩ : ∃ l, rs[j]? = some l := ⟨_, List.getElem?_eq_getElem (by omega)⟩
    exact ⟨by simpa using (h.each j t ht).2, l, hl, he j t l ht hl⟩)
  refine ⟨h1, fun k v => ?_⟩
  rw [h2]
  unfold view
  constructor
  · rintro ⟨j, t, ht, hv⟩
    have := (h.each j t ht).2 k v hv
    rw [this, ht]; exact hv
  · intro hv
    split at hv
    · rename_i t ht; exact ⟨_, t, ht, hv⟩
    · cases hv

/-- C29: `Count` is the number of records of the one dictionary, if the count of every shard is that of its own. -/
theorem C29_count {s : State σ} (h : Inv hash inv vw s) (cnt : σ → Int) (hc : ∀ t, inv t → ∃ l, (vw t).Lists l ∧ cnt t = l.length) :
    ∃ l, (view hash vw s.shards).Lists l ∧ count cnt s = l.length := by
  have key : ∀ (ts : List σ) (c : Int), (∀ t ∈ ts, inv t) → ∃ rs : List (List (Bytes × Bytes)), rs.length = ts.length ∧
      (∀ (j : Nat) t l, ts[j]? = some t → rs[j]? = some l → (vw t).Lists l) ∧ ts.foldl (fun c t => c + cnt t) c = c + rs.flatten.length := by
    intro ts
    induction ts with
    | nil => intro c _; exact ⟨[], rfl, by simp, by simp⟩
    | cons t ts ih =>
      intro c hi
      obtain ⟨l, hl, hcl⟩ := hc t (hi t (by simp))
      obtain ⟨rs, h1, h2, h3⟩ := ih (c + cnt t) (fun u hu => hi u (by simp [hu]))
      refine ⟨l :: rs, by simp [h1], ?_, ?_⟩
      · intro j u l' hu hl'
        cases j with
        | zero => cases hu; cases hl'; exact hl
        | succ j => exact h2 j u l' (by simpa using hu) (by simpa using hl')
      · rw [List.foldl_cons, h3, hcl]
        simp only [List.flatten_cons, List.length_append]
        omega
  obtain ⟨rs, h1, h2, h3⟩ := key s.shards 0 (by
    intro t ht
    obtain ⟨j, hj⟩ := List.getElem?_of_mem ht
    exact (h.each j t hj).1)
  exact ⟨rs.flatten, h.lists rs h1 h2, by rw [count, h3]; simp⟩

/-- C29: `Clear` empties the one dictionary. -/
theorem C29_clear {s : State σ} (h : Inv hash inv vw s) (clear : σ → σ) (hc : ∀ t, inv t → inv (clear t) ∧ vw (clear t) = Dict.empty) :
    Inv hash inv vw (mapAll clear s) ∧ view hash vw (mapAll clear s).shards = Dict.empty := by
  refine ⟨⟨h.ok, by simpa [mapAll] using h.ne, ?_⟩, ?_⟩
  · intro i t ht
    simp only [mapAll, List.getElem?_map, Option.map_eq_some_iff] at ht
    obtain ⟨u, hu, rfl⟩ := ht
    have := hc u (h.each i u hu).1
    refine ⟨this.1, ?_⟩
    intro k v hv; rw [this.2] at hv; cases hv
  · funext k
    unfold view
    split
    · rename_i t ht
      simp only [mapAll, List.getElem?_map, Option.map_eq_some_iff] at ht
      obtain ⟨u, hu, rfl⟩ := ht
      rw [(hc u (h.each _ u hu).1).2]
    · rfl

/-- C29: `Rebuild` changes no record. -/
theorem C29_rebuild {s : State σ} (h : Inv hash inv vw s) (rebuild : σ → σ) (hc : ∀ t, inv t → inv (rebuild t) ∧ vw (rebuild t) = vw t) :
    Inv hash inv vw (mapAll rebuild s) ∧ view hash vw (mapAll rebuild s).shards = view hash vw s.shards := by
  refine ⟨⟨h.ok, by simpa [mapAll] using h.ne, ?_⟩, ?_⟩
  · intro i t ht
    simp only [mapAll, List.getElem?_map, Option.map_eq_some_iff, List.length_map] at ht ⊢
    obtain ⟨u, hu, rfl⟩ := ht
    have := hc u (h.each i u hu).1
    exact ⟨this.1, by rw [this.2]; exact (h.each i u hu).2⟩
  · funext k
    unfold view
    simp only [mapAll, List.length_map, List.getElem?_map]
    cases ht : s.shards[hash k s.shards.length]? with
    | none => rfl
    | some u => simp only [Option.map_some]; rw [(hc u (h.each _ u ht).1).2]

/-- SPECIFICATION of `ProcessEach` of a class of databases: the processor is shown each record once, and its actions are
performed if `writable`. -/
def LawfulEach (each : {ρ : Type} → σ → Bool → (Bytes → ρ → Bytes → Action × ρ) → ρ → σ × ρ) (inv : σ → Prop) (vw : σ → Dict)
    (fits : Bytes → Bytes → Prop) : Prop :=
  ∀ {ρ : Type} (t : σ) (w : Bool) (p : Bytes → ρ → Bytes → Action × ρ) (r : ρ), inv t → (∀ k r v, ActFits fits k (p k r v).1) →
    inv (each t w p r).1 ∧ ∃ rs, (vw t).Lists rs ∧ (vw (each t w p r).1, (each t w p r).2) = Dict.eachFold w p rs (vw t) r

theorem eachFold_frame {ρ : Type} (w : Bool) (p : Bytes → ρ → Bytes → Action × ρ) (rs : List (Bytes × Bytes)) (d d' : Dict) (r : ρ) :
    (Dict.eachFold w p rs d r).2 = (Dict.eachFold w p rs d' r).2 ∧
    ∀ k, d k = d' k → (Dict.eachFold w p rs d r).1 k = (Dict.eachFold w p rs d' r).1 k := by
  induction rs generalizing d d' r with
  | nil => exact ⟨rfl, fun k h => h⟩
  | cons x rs ih =>
    obtain ⟨k0, v0⟩ := x
    simp only [Dict.eachFold]
    refine ⟨(ih _ _ _).1, fun k h => (ih _ _ _).2 k ?_⟩
    cases w
    · exact h
    · simp only [if_true]; cases (p k0 r v0).1 <;> simp only [Dict.act, Dict.upd] <;> (try split) <;> simp [h]

theorem each_aux {each : {ρ : Type} → σ → Bool → (Bytes → ρ → Bytes → Action × ρ) → ρ → σ × ρ} (E : LawfulEach each inv vw fits)
    {ρ : Type} (w : Bool) (p : Bytes → ρ → Bytes → Action × ρ) (hf : ∀ k r v, ActFits fits k (p k r v).1) {n : Nat} (ts : List σ) :
    ∀ (i : Nat) (r : ρ) (g : Dict), (∀ (j : Nat) t, ts[j]? = some t → inv t ∧ Routed hash n (i + j) (vw t) ∧ ∀ k, hash k n = i + j → g k = vw t k) →
    ∃ rs : List (List (Bytes × Bytes)), rs.length = ts.length ∧ (∀ (j : Nat) t l, ts[j]? = some t → rs[j]? = some l → (vw t).Lists l) ∧
      (processEach.loop each w p ts r).1.length = ts.length ∧
      (processEach.loop each w p ts r).2 = (Dict.eachFold w p rs.flatten g r).2 ∧
      (∀ k, hash k n < i → (Dict.eachFold w p rs.flatten g r).1 k = g k) ∧
      (∀ (j : Nat) t, (processEach.loop each w p ts r).1[j]? = some t → inv t ∧ Routed hash n (i + j) (vw t) ∧
        ∀ k, hash k n = i + j → (Dict.eachFold w p rs.flatten g r).1 k = vw t k) := by
  induction ts with
  | nil =>
    intro i r g _
    exact ⟨[], rfl, by simp, rfl, rfl, fun _ _ => rfl, by simp [processEach.loop]⟩
  | cons t ts ih =>
    intro i r g h
    obtain ⟨h1, h2, h3⟩ := h 0 t rfl
    simp only [Nat.add_zero] at h2 h3
    obtain ⟨hi', l, hl, he⟩ := E t w p r h1 hf
    have e1 : vw (each t w p r).1 = (Dict.eachFold w p l (vw t) r).1 := by rw [← he]
    have e2 : (each t w p r).2 = (Dict.eachFold w p l (vw t) r).2 := by rw [← he]
    have hkeys : ∀ k, k ∈ l.map (·.1) → hash k n = i := by
      intro k hk
      obtain ⟨⟨k', v⟩, hm, rfl⟩ := List.mem_map.1 hk
      exact h2 _ _ ((hl.2 _ _).1 hm)
    obtain ⟨fr2, fr1⟩ := eachFold_frame w p l (vw t) g r
    have hother : ∀ k, hash k n ≠ i → (Dict.eachFold w p l g r).1 k = g k := by
      intro k hk
      exact Dict.eachFold_other _ _ _ _ _ _ (fun hm => hk (hkeys k hm))
    obtain ⟨rs, g1, g2, g3, g4, g5, g6⟩ := ih (i + 1) (each t w p r).2 (Dict.eachFold w p l g r).1 (by
      intro j u hu
      obtain ⟨a1, a2, a3⟩ := h (j + 1) u (by simpa using hu)
      rw [show i + 1 + j = i + (j + 1) by omega]
      refine ⟨a1, a2, fun k hk => ?_⟩
      rw [hother k (by omega)]
      exact a3 k hk)
    have hrt : Routed hash n i (vw (each t w p r).1) := by
      rw [e1]
      intro k v hv
      by_cases hk : hash k n = i
      · exact hk
      · rw [Dict.eachFold_other _ _ _ _ _ _ (fun hm => hk (hkeys k hm))] at hv
        exact absurd (h2 k v hv) hk
    refine ⟨l :: rs, by simp [g1], ?_, ?_, ?_, ?_, ?_⟩
    · intro j u l' hu hl'
      cases j with
      | zero => cases hu; cases hl'; exact hl
      | succ j => exact g2 j u l' (by simpa using hu) (by simpa using hl')
    · simp only [processEach.loop, List.length_cons, g3]
    · simp only [processEach.loop, List.flatten_cons, Dict.eachFold_append]
      rw [g4, e2, fr2]
    · intro k hk
      simp only [List.flatten_cons, Dict.eachFold_append]
      rw [← fr2, ← e2, g5 k (by omega), hother k (by omega)]
    · intro j u hu
      simp only [List.flatten_cons, Dict.eachFold_append]
      cases j with
      | zero =>
        simp only [processEach.loop, List.getElem?_cons_zero, Option.some.injEq] at hu
        subst hu
        refine ⟨hi', by simpa using hrt, ?_⟩
        intro k hk
        simp only [Nat.add_zero] at hk
        rw [← fr2, ← e2, g5 k (by omega), e1]
        exact ((fr1 k (h3 k hk).symm)).symm
      | succ j =>
        simp only [processEach.loop, List.getElem?_cons_succ] at hu
        have := g6 j u hu
        rw [show i + 1 + j = i + (j + 1) by omega] at this
        rw [← fr2, ← e2]
        exact this

/-- C29, C10: `ProcessEach` shows the processor each record of the one dictionary exactly once, and performs its actions if
`writable`. -/
theorem C29_each {each : {ρ : Type} → σ → Bool → (Bytes → ρ → Bytes → Action × ρ) → ρ → σ × ρ}
    (E : LawfulEach each inv vw fits) : LawfulEach (σ := State σ) (fun s w p r => processEach each s w p r) (Inv hash inv vw)
      (fun s => view hash vw s.shards) fits := by
  intro ρ s w p r h hf
  obtain ⟨rs, g1, g2, g3, g4, g5, g6⟩ := each_aux (hash := hash) E w p hf (n := s.shards.length) s.shards 0 r (view hash vw s.shards) (by
    intro j t ht
    refine ⟨(h.each j t ht).1, by simpa using (h.each j t ht).2, ?_⟩
    intro k hk
    simp only [Nat.zero_add] at hk
    unfold view
    rw [hk, ht])
  refine ⟨⟨h.ok, ?_, ?_⟩, rs.flatten, h.lists rs g1 g2, ?_⟩
  · intro hn
    have : (processEach.loop each w p s.shards r).1 = [] := hn
    rw [this] at g3
    exact h.ne (List.length_eq_zero_iff.1 g3.symm)
  · intro i t ht
    simp only [processEach, g3] at ht ⊢
    have := g6 i t ht
    simp only [Nat.zero_add] at this
    exact ⟨this.1, this.2.1⟩
  · simp only [processEach]
    refine Prod.ext ?_ g4
    funext k
    simp only
    unfold view
    rw [g3]
    cases ht : (processEach.loop each w p s.shards r).1[hash k s.shards.length]? with
    | some t =>
      simp only
      exact ((g6 _ t ht).2.2 k (by simp)).symm
    | none =>
      simp only
      have hge : s.shards.length ≤ hash k s.shards.length := by
        have := List.getElem?_eq_none_iff.1 ht
        omega
      have hv : view hash vw s.shards k = none := by
        unfold view; rw [List.getElem?_eq_none hge]
      have hl := h.lists rs g1 g2
      rw [Dict.eachFold_other _ _ _ _ _ _ (hl.absent hv)]
      exact hv.symm

end Verif.Shard
