import Verif.Queue.Ulog
import Verif.Dbm.History
/-
Property theorems C24 (update log messages) and C25 (replay of a log through messages).
-/
namespace Verif.Ulog
open Verif Verif.Codec

theorem toInt32_small {n : Nat} (h : n < 2 ^ 31) : toInt32 n = n := by
  simp only [toInt32]
  have : n % 2 ^ 32 = n := Nat.mod_eq_of_lt (by omega)
  rw [this, if_pos h]

/-- SPECIFICATION: the key and the value of an operation. -/
def opSize : LogOp → Nat
  | .set k v => k.length + v.length
  | .remove k => k.length
  | .clear => 0

theorem drop_var (n : Nat) (r : Bytes) : (writeVarNum n ++ r).drop (sizeVarNum n) = r := by
  rw [← writeVarNum_length n, List.drop_left]

theorem var_pos (n : Nat) : 0 < (writeVarNum n).length := by rw [writeVarNum_length]; exact sizeVarNum_pos n

theorem read_var {n : Nat} (h : n < 2 ^ 31) (r : Bytes) : readVarNum (writeVarNum n ++ r) = some (n, sizeVarNum n) :=
  readVarNum_write (by omega) r

/-- C24: a message parses to the operation, the server id and the database index it was made from, for every key and
value (within 2 GiB) and all ids. -/
theorem C24_roundtrip (server dbm : Nat) (op : LogOp) (hs : server < 2 ^ 31) (hd : dbm < 2 ^ 31)
    (hm : (encode server dbm op).length < 2 ^ 31) :
    parse (encode server dbm op) = .ok ⟨op, server, dbm⟩ := by
  have p1 := var_pos server
  have p2 := var_pos dbm
  cases op with
  | set k v =>
    simp only [encode, List.append_assoc] at hm ⊢
    have p3 := var_pos k.length
    have p4 := var_pos v.length
    simp only [List.length_cons, List.length_append] at hm
    have hk : k.length < 2 ^ 31 := by omega
    have hv : v.length < 2 ^ 31 := by omega
    simp only [parse, List.length_cons, List.length_append, read_var hs, drop_var, read_var hd, parseBody, if_true,
      read_var hk, read_var hv, toInt32_small hs, toInt32_small hd, toInt32_small hk, toInt32_small hv]
    rw [if_neg (by omega), if_neg (by omega), if_neg (by omega), if_neg (by omega), if_neg (by omega),
      if_neg (by omega), if_neg (by omega), if_neg (by omega)]
    simp
  | remove k =>
    simp only [encode, List.append_assoc] at hm ⊢
    have p3 := var_pos k.length
    simp only [List.length_cons, List.length_append] at hm
    have hk : k.length < 2 ^ 31 := by omega
    simp only [parse, List.length_cons, List.length_append, read_var hs, drop_var, read_var hd, parseBody,
      read_var hk, toInt32_small hs, toInt32_small hd, toInt32_small hk]
    rw [if_neg (by omega), if_neg (by omega), if_neg (by omega), if_neg (by decide), if_pos trivial,
      if_neg (by omega), if_neg (by omega)]
  | clear =>
    simp only [encode] at hm ⊢
    simp only [List.length_cons, List.length_append] at hm
    have e := read_var hd []
    have e2 := drop_var dbm []
    rw [List.append_nil] at e e2
    simp only [parse, List.length_cons, List.length_append, read_var hs, drop_var, e, e2, parseBody,
      toInt32_small hs, toInt32_small hd]
    rw [if_neg (by omega), if_neg (by omega), if_neg (by omega), if_neg (by decide), if_neg (by decide),
      if_pos trivial]

example : parse (encode 1 300 (.set [7, 0] [])) = .ok ⟨.set [7, 0] [], 1, 300⟩ ∧ (encode 1 300 (.set [7, 0] [])).length = 8 := by
  decide +kernel

theorem read_var_prefix {n : Nat} (hn : n < 2 ^ 31) {p rest : Bytes} (hp : p <+: writeVarNum n ++ rest) :
    (readVarNum p = none) ∨
    ∃ p', p = writeVarNum n ++ p' ∧ p' <+: rest ∧ readVarNum p = some (n, sizeVarNum n) ∧ p.drop (sizeVarNum n) = p' := by
  by_cases h : (writeVarNum n).length ≤ p.length
  · have : writeVarNum n <+: p := List.prefix_of_prefix_length_le (List.prefix_append _ _) hp h
    obtain ⟨p', rfl⟩ := this
    exact .inr ⟨p', rfl, (List.prefix_append_right_inj _).mp hp, read_var hn p', drop_var _ _⟩
  · left
    have : p <+: writeVarNum n := List.prefix_of_prefix_length_le hp (List.prefix_append _ _) (by omega)
    exact C34_varnum_truncated n (by omega) p this (fun e => h (by rw [e]; exact Nat.le_refl _))

/-- C24: a message cut anywhere is rejected with BROKEN_DATA_ERROR. -/
theorem C24_truncated (server dbm : Nat) (op : LogOp) (hs : server < 2 ^ 31) (hd : dbm < 2 ^ 31)
    (hm : (encode server dbm op).length < 2 ^ 31) (p : Bytes) (hp : p <+: encode server dbm op)
    (hne : p ≠ encode server dbm op) : parse p = .broken := by
  have hlen := hp.length_le
  have hlt : p.length < (encode server dbm op).length := by
    rcases Nat.lt_or_ge p.length (encode server dbm op).length with h | h
    · exact h
    · exact absurd (hp.eq_of_length (by omega)) hne
  rw [parse.eq_def, if_neg (by omega)]
  obtain ⟨magic, body, he⟩ : ∃ magic body, encode server dbm op = magic :: (writeVarNum server ++ (writeVarNum dbm ++ body)) ∧
      (∀ b, b <+: body → b ≠ body → ∀ x y, parseBody magic x y b = .broken) := by
    cases op with
    | set k v =>
      refine ⟨0xA1, writeVarNum k.length ++ (writeVarNum v.length ++ (k ++ v)), by simp [encode], ?_⟩
      intro b hb hbne x y
      simp only [encode, List.length_cons, List.length_append] at hm
      have hk : k.length < 2 ^ 31 := by omega
      have hv : v.length < 2 ^ 31 := by omega
      simp only [parseBody, if_true]
      by_cases h1 : b.length < 1
      · rw [if_pos h1]
      · rw [if_neg h1]
        rcases read_var_prefix hk hb with h | ⟨b2, rfl, hb2, h, hd2⟩
        · simp only [h]
        · simp only [h, hd2]
          by_cases h2 : b2.length < 1
          · rw [if_pos h2]
          · rw [if_neg h2]
            rcases read_var_prefix hv hb2 with h | ⟨b3, rfl, hb3, h, hd3⟩
            · simp only [h]
            · simp only [h, hd3, toInt32_small hk, toInt32_small hv]
              have hl3 := hb3.length_le
              have : b3.length ≠ (k ++ v).length := fun e => hbne (by rw [hb3.eq_of_length e])
              rw [List.length_append] at this hl3
              rw [if_neg (by omega), if_pos (by omega)]
    | remove k =>
      refine ⟨0xA2, writeVarNum k.length ++ k, by simp [encode], ?_⟩
      intro b hb hbne x y
      simp only [encode, List.length_cons, List.length_append] at hm
      have hk : k.length < 2 ^ 31 := by omega
      simp only [parseBody]
      rw [if_neg (by decide), if_pos trivial]
      by_cases h1 : b.length < 1
      · rw [if_pos h1]
      · rw [if_neg h1]
        rcases read_var_prefix hk hb with h | ⟨b2, rfl, hb2, h, hd2⟩
        · simp only [h]
        · simp only [h, hd2, toInt32_small hk]
          have hl3 := hb2.length_le
          have : b2.length ≠ k.length := fun e => hbne (by rw [hb2.eq_of_length e])
          rw [if_pos (by omega)]
    | clear =>
      refine ⟨0xA3, [], by simp [encode], ?_⟩
      intro b hb hbne
      exact absurd (List.prefix_nil.mp hb) hbne
  obtain ⟨he, hbody⟩ := he
  cases p with
  | nil => rfl
  | cons c p =>
    rw [he] at hp hne
    obtain ⟨rfl, hp'⟩ := List.cons_prefix_cons.mp hp
    simp only
    by_cases h3 : (c :: p).length < 3
    · rw [if_pos h3]
    · rw [if_neg h3]
      rcases read_var_prefix hs hp' with h | ⟨p2, rfl, hp2, h, hd2⟩
      · simp only [h]
      · simp only [h, hd2]
        by_cases h1 : p2.length < 1
        · rw [if_pos h1]
        · rw [if_neg h1]
          rcases read_var_prefix hd hp2 with h | ⟨p3, rfl, hp3, h, hd3⟩
          · simp only [h]
          · simp only [h, hd3]
            exact hbody p3 hp3 (fun e => hne (by rw [e])) _ _

example : parse ((encode 1 0 (.set [7] [8, 9])).take 7) = .broken := by decide +kernel

/-- C24: the writing functions pass exactly this message to the queue, with the server id of the thread if it was
overwritten, unless the thread has switched logging off; their buffer suffices if the key is shorter than 256 MiB and
the value shorter than 32 GiB (what is missing: larger ones, see `C24_buffer_violated`). -/
theorem C24_write_partial (server dbm tls : Int) (op : LogOp) (hs : server < 2 ^ 31) (hd : dbm < 2 ^ 31) (ht : tls < 2 ^ 31)
    (hop : match op with | .set k v => k.length < 2 ^ 28 ∧ v.length < 2 ^ 35 | .remove k => k.length < 2 ^ 56 | .clear => True) :
    (Logger.new server dbm).write tls op =
      if tls = -2 ^ 31 then .skipped
      else .message (encode (if 0 ≤ tls then tls.toNat else (max server 0).toNat) (max dbm 0).toNat op) := by
  simp only [Logger.write, Logger.new]
  by_cases h : tls = -2 ^ 31
  · rw [if_pos ⟨by omega, h⟩, if_pos h]
  · rw [if_neg (by omega), if_neg h]
    have hn : (if tls ≥ 0 then tls.toNat else (max server 0).toNat) < 2 ^ 31 := by split <;> omega
    have hdn : (max dbm 0).toNat < 2 ^ 31 := by omega
    simp only [ge_iff_le] at hn ⊢
    generalize (if 0 ≤ tls then tls.toNat else (max server 0).toNat) = a at *
    generalize (max dbm 0).toNat = b at *
    have w5 : ∀ x, x < 2 ^ 31 → sizeVarNum x ≤ 5 := fun x hx =>
      ((C34_varnum_size x (by omega)).2.2.2 5 (by omega)).2 (by omega)
    have la := w5 a hn
    have lb := w5 b hdn
    rw [if_pos]
    cases op with
    | set k v =>
      have l3 := ((C34_varnum_size k.length (by omega)).2.2.2 4 (by omega)).2 (by omega)
      have l4 := ((C34_varnum_size v.length (by omega)).2.2.2 5 (by omega)).2 (by omega)
      simp only [encode, capacity, List.length_cons, List.length_append, writeVarNum_length]
      split <;> omega
    | remove k =>
      have l3 := ((C34_varnum_size k.length (by omega)).2.2.2 8 (by omega)).2 (by omega)
      simp only [encode, capacity, List.length_cons, List.length_append, writeVarNum_length]
      split <;> omega
    | clear =>
      simp only [encode, capacity, List.length_cons, List.length_append, writeVarNum_length]
      omega

example : (Logger.new 3 (-7)).write (-1) (.set [1] [2]) = .message (encode 3 0 (.set [1] [2])) ∧
    (Logger.new 3 0).write 5 .clear = .message [0xA3, 5, 0] ∧ (Logger.new 3 0).write (-2 ^ 31) .clear = .skipped := by
  decide +kernel

/-- C24 is violated by very large records: with a server id and a database index of at least 2^28, and a key and a
value of at least 256 MiB, the logger writes one byte behind its buffer. -/
theorem C24_buffer_violated (server dbm : Int) (k v : Bytes) (hs : 2 ^ 28 ≤ server) (hd : 2 ^ 28 ≤ dbm)
    (hs2 : server < 2 ^ 31) (hd2 : dbm < 2 ^ 31)
    (hk : 2 ^ 28 ≤ k.length) (hv : 2 ^ 28 ≤ v.length) (hk2 : k.length < 2 ^ 64) (hv2 : v.length < 2 ^ 64) :
    (Logger.new server dbm).write (-1) (.set k v) = .overflow := by
  have w5 : ∀ x, x < 2 ^ 64 → 2 ^ 28 ≤ x → 5 ≤ sizeVarNum x := fun x hx h => by
    have := ((C34_varnum_size x hx).2.2.2 4 (by omega)).1
    rcases Nat.lt_or_ge (sizeVarNum x) 5 with h1 | h1
    · have := this (by omega); omega
    · exact h1
  have l1 := w5 (max server 0).toNat (by omega) (by omega)
  have l2 := w5 (max dbm 0).toNat (by omega) (by omega)
  have l3 := w5 k.length hk2 hk
  have l4 := w5 v.length hv2 hv
  simp only [Logger.write, Logger.new]
  rw [if_neg (by decide)]
  simp only [show ¬ ((-1 : Int) ≥ 0) by decide, if_false]
  rw [if_neg]
  simp only [encode, capacity, List.length_cons, List.length_append, writeVarNum_length]
  split <;> omega

/-- C24 is violated on malformed messages: the parser accepts a negative key size and makes a string view of it. -/
theorem C24_parse_violated : parse [0xA1, 0, 0, 0x8F, 0xFF, 0xFF, 0xFF, 0x7F, 2, 65] = .ub := by decide +kernel

/-! ### Replay -/

/-- SPECIFICATION: the filter by server id (or database index): a non-negative number selects that one, a negative
number selects all but its absolute value. -/
def Selected (want n : Int) : Prop := if want < 0 then n ≠ -want else n = want

instance (want n : Int) : Decidable (Selected want n) := by unfold Selected; infer_instance

theorem accepts_iff (want n : Int) : accepts want n = true ↔ Selected want n := by
  simp only [accepts, Selected]
  split <;> simp

/-- SPECIFICATION: the size limits for a list of operations. -/
def OpsFit (fits : Bytes → Bytes → Prop) : LogOp → Prop
  | .set k v => fits k v
  | _ => True

theorem apply_spec {σ : Type} {D : DbmImpl σ} {inv : σ → Prop} {view : σ → Dict} {fits : Bytes → Bytes → Prop}
    (L : Lawful D inv view fits) (clear : σ → σ)
    (hc : ∀ s, inv s → inv (clear s) ∧ view (clear s) = Dict.empty) (s : σ) (hi : inv s) (a b : Nat) (op : LogOp)
    (ha : a < 2 ^ 31) (hb : b < 2 ^ 31) (hm : (encode a b op).length < 2 ^ 31) (hf : OpsFit fits op)
    (server dbm : Int) :
    ∃ s', inv s' ∧
      if Selected server a ∧ Selected dbm b then
        apply D clear s (encode a b op) server dbm = some (s', .success) ∧ view s' = (view s).applyLog op
      else apply D clear s (encode a b op) server dbm = some (s', .infeasible) ∧ s' = s := by
  simp only [apply, C24_roundtrip a b op ha hb hm]
  by_cases h1 : accepts server a = true
  · by_cases h2 : accepts dbm b = true
    · simp only [h1, h2, not_true, if_false]
      rw [accepts_iff] at h1 h2
      simp only [h1, h2, and_self, if_true]
      cases op with
      | set k v =>
        have h := Api.C58_set L s k v true hi hf
        rw [if_neg (by simp)] at h
        exact ⟨_, h.1, rfl, h.2.2.2⟩
      | remove k =>
        have h := Api.C58_remove L s k hi
        exact ⟨_, h.1, rfl, h.2.1⟩
      | clear =>
        have h := hc s hi
        exact ⟨_, h.1, rfl, h.2⟩
    · simp only [h1, h2, not_true, if_false, not_false_eq_true, if_true]
      rw [accepts_iff] at h1 h2
      simp only [h1, h2, and_false, if_false]
      exact ⟨s, hi, rfl, rfl⟩
  · simp only [h1, not_false_eq_true, if_true]
    rw [accepts_iff] at h1
    simp only [h1, false_and, if_false]
    exact ⟨s, hi, rfl, rfl⟩

/-- C25: applying a sequence of messages to any database performs exactly the operations whose server id and database
index are selected, in order, and no other; the result is SUCCESS. -/
theorem C25_apply_messages {σ : Type} {D : DbmImpl σ} {inv : σ → Prop} {view : σ → Dict} {fits : Bytes → Bytes → Prop}
    (L : Lawful D inv view fits) (clear : σ → σ)
    (hc : ∀ s, inv s → inv (clear s) ∧ view (clear s) = Dict.empty) (server dbm : Int)
    (msgs : List (Nat × Nat × LogOp))
    (hm : ∀ m ∈ msgs, m.1 < 2 ^ 31 ∧ m.2.1 < 2 ^ 31 ∧ (encode m.1 m.2.1 m.2.2).length < 2 ^ 31 ∧ OpsFit fits m.2.2) :
    ∀ s, inv s → ∃ s', applyAll D clear server dbm (msgs.map fun m => encode m.1 m.2.1 m.2.2) s = some (s', .success) ∧
      inv s' ∧ view s' = (view s).replay
        ((msgs.filter fun m => Selected server m.1 ∧ Selected dbm m.2.1).map fun m => m.2.2) := by
  induction msgs with
  | nil => intro s hi; exact ⟨s, rfl, hi, rfl⟩
  | cons m msgs ih =>
    intro s hi
    obtain ⟨a, b, op⟩ := m
    obtain ⟨h1, h2, h3, h4⟩ := hm _ (List.mem_cons_self ..)
    obtain ⟨s1, hi1, hs1⟩ := apply_spec L clear hc s hi a b op h1 h2 h3 h4 server dbm
    obtain ⟨s', e, hi', hv⟩ := ih (fun m hmm => hm m (List.mem_cons_of_mem _ hmm)) s1 hi1
    refine ⟨s', ?_, hi', ?_⟩
    · simp only [List.map_cons, applyAll]
      split at hs1
      · rw [hs1.1]; simpa using e
      · rw [hs1.1]; simpa using e
    · rw [hv, List.filter_cons]
      split at hs1
      · rename_i h
        simp only [h, and_self, decide_true, if_true, List.map_cons]
        rw [hs1.2]; rfl
      · rename_i h
        simp only [h, decide_false, Bool.false_eq_true, if_false]
        rw [hs1.2]

/-- C25: the documented way to exclude a server (a negative server id) cannot exclude server 0. -/
theorem C25_exclude_zero : ∀ want n : Int, (want < 0 → Selected want 0) ∧ (Selected 0 n ↔ n = 0) := by
  intro want n
  constructor
  · intro h; simp only [Selected, if_pos h]; omega
  · simp [Selected]

example : (applyAll Dict.impl (fun _ => Dict.empty) (-2) 0
    [encode 1 0 (.set [1] [10]), encode 2 0 (.set [1] [99]), encode 3 1 .clear, encode 3 0 (.remove [5])] Dict.empty).map
    (fun x => (x.2, x.1 [1])) = some (.success, some [10]) := by decide +kernel

end Verif.Ulog
