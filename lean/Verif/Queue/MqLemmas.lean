import Verif.Queue.Mq
/-
Lemmas on the message queue.
-/
namespace Verif.Mq
open Verif Verif.Codec Verif.Checksum

theorem readAt_of_drop {file x rest : Bytes} {off : Nat} (ho : off ≤ file.length) (h : file.drop off = x ++ rest) :
    Flat.readAt file off x.length = some x := by
  have hl := congrArg List.length h
  simp only [List.length_drop, List.length_append] at hl
  rw [Flat.readAt, if_pos (by omega), h, List.take_left]

theorem header_length (ts msg) : (header ts msg).length = 11 := by
  simp [header, writeFixNum_length]

theorem record_length (ts msg) : (record ts msg).length = 12 + msg.length := by
  simp [record, header_length]; omega

theorem fix_read (n w : Nat) (hw : w ≤ 8) (hn : n < 2 ^ (8 * w)) (rest : Bytes) :
    readFixNum (writeFixNum n w ++ rest) w = n := (C33_fixnum_roundtrip n w hw hn rest).1

theorem header_ts {ts : Nat} (msg : Bytes) (h : ts < 2 ^ 48) : readFixNum ((header ts msg).drop 1) 6 = ts := by
  simp only [header, List.drop_succ_cons, List.drop_zero]
  exact fix_read ts 6 (by omega) h _

theorem header_size (ts : Nat) {msg : Bytes} (h : msg.length < 2 ^ 32) : readFixNum ((header ts msg).drop 7) 4 = msg.length := by
  have : (header ts msg).drop 7 = writeFixNum msg.length 4 ++ [] := by
    have := writeFixNum_length (w := 6) ts (by omega)
    rw [header, List.drop_succ_cons, List.append_nil]
    exact List.drop_left' this
  rw [this]
  exact fix_read _ 4 (by omega) h _

theorem check_eq (ts : Nat) (msg : Bytes) :
    [byte (checksum8 (header ts msg ++ msg) true 0 + 1)].map (·.toNat) = [checksum8Pair (header ts msg) msg 0 + 1] := by
  have h := C47_checksum (header ts msg ++ msg) (header ts msg) msg true 0 (by decide)
  rw [h.2.1, h.2.2.2, if_neg (by simp [header])]
  have : (0 + total (header ts msg ++ msg)) % 251 < 251 := Nat.mod_lt _ (by decide)
  generalize (0 + total (header ts msg ++ msg)) % 251 = c at *
  simp only [byte, List.map_cons, List.map_nil, UInt8.toNat_ofNat']
  congr 1
  exact Nat.mod_eq_of_lt (by omega)

/-- Sizes a message must have. -/
def MsgOk (m : Nat × Bytes) : Prop := m.1 < 2 ^ 48 ∧ m.2.length < 2 ^ 32 - 1

theorem readNext_record {file rest : Bytes} {off : Nat} {m : Nat × Bytes} (minTs : Int) (ho : 32 ≤ off)
    (ho2 : off ≤ file.length) (h : file.drop off = record m.1 m.2 ++ rest) (hm : MsgOk m) :
    readNext file off minTs =
      (off + (record m.1 m.2).length, .ok (m.1, if (m.1 : Int) ≥ minTs then some m.2 else none)) := by
  obtain ⟨ts, msg⟩ := m
  obtain ⟨h1, h2⟩ := hm
  simp only at h1 h2 h ⊢
  have e1 : (if off ≤ 32 then 32 else off) = off := by split <;> omega
  have hh : Flat.readAt file off 11 = some (header ts msg) := by
    rw [← header_length ts msg]
    exact readAt_of_drop (rest := msg ++ [byte (checksum8 (header ts msg ++ msg) true 0 + 1)] ++ rest) ho2
      (by rw [h, record]; simp)
  have hl := congrArg List.length h
  simp only [List.length_drop, List.length_append, record_length] at hl
  have hb : Flat.readAt file (off + 11) (msg.length + 1) =
      some (msg ++ [byte (checksum8 (header ts msg ++ msg) true 0 + 1)]) := by
    have hx : (msg ++ [byte (checksum8 (header ts msg ++ msg) true 0 + 1)]).length = msg.length + 1 := by simp
    rw [← hx]
    refine readAt_of_drop (rest := rest) (by omega) ?_
    rw [← List.drop_drop, h, record, ← header_length ts msg, List.append_assoc, List.append_assoc, List.append_assoc,
      List.drop_left]
  have hd : (header ts msg).head? = some 0xFF := rfl
  have e2 : off + 11 + (msg.length + 1) = off + (record ts msg).length := by rw [record_length]; omega
  simp only [readNext, e1, hh, hd, ne_eq, not_true, if_false, header_ts msg h1, header_size ts (by omega : msg.length < 2 ^ 32), hb]
  rw [if_neg (by omega)]
  by_cases hc : (ts : Int) ≥ minTs
  · rw [if_pos hc, if_pos hc, List.take_left, List.drop_left, if_neg (by rw [check_eq]; simp), e2]
  · rw [if_neg hc, if_neg hc, e2]

theorem metaBlock_length (c i t s) : (metaBlock c i t s).length = 32 := by
  simp [metaBlock, writeFixNum_length]

theorem fix_mod (n w : Nat) (hw : w ≤ 8) (rest : Bytes) : readFixNum (writeFixNum n w ++ rest) w = n % 256 ^ w := by
  rw [readFixNum_eq _ hw, List.take_left' (writeFixNum_length n hw), fromBe64_writeFixNum n hw]

theorem loadMeta_block {c i t s : Nat} (hc : c < 256) (hi : i < 2 ^ 48) (ht : t < 2 ^ 48) (rest : Bytes) :
    loadMeta (metaBlock c i t s ++ rest) = .ok ⟨some c, i, t, s % 2 ^ 48⟩ := by
  have hr : Flat.readAt (metaBlock c i t s ++ rest) 0 32 = some (metaBlock c i t s) := by
    rw [← metaBlock_length c i t s]
    exact readAt_of_drop (rest := rest) (Nat.zero_le _) (by simp)
  have l1 := writeFixNum_length (w := 1) c (by omega)
  have l2 := writeFixNum_length (w := 6) i (by omega)
  have l3 := writeFixNum_length (w := 6) t (by omega)
  have l4 := writeFixNum_length (w := 6) s (by omega)
  have d9 : (metaBlock c i t s).drop 9 = writeFixNum c 1 ++ (writeFixNum i 6 ++ (writeFixNum t 6 ++ (writeFixNum s 6 ++ ([0, 0, 0] ++ writeFixNum c 1)))) := by
    simp [metaBlock]
  have d10 : (metaBlock c i t s).drop 10 = writeFixNum i 6 ++ (writeFixNum t 6 ++ (writeFixNum s 6 ++ ([0, 0, 0] ++ writeFixNum c 1))) := by
    rw [show 10 = 9 + (writeFixNum c 1).length by omega, ← List.drop_drop, d9, List.drop_left]
  have d16 : (metaBlock c i t s).drop 16 = writeFixNum t 6 ++ (writeFixNum s 6 ++ ([0, 0, 0] ++ writeFixNum c 1)) := by
    rw [show 16 = 10 + (writeFixNum i 6).length by omega, ← List.drop_drop, d10, List.drop_left]
  have d22 : (metaBlock c i t s).drop 22 = writeFixNum s 6 ++ ([0, 0, 0] ++ writeFixNum c 1) := by
    rw [show 22 = 16 + (writeFixNum t 6).length by omega, ← List.drop_drop, d16, List.drop_left]
  have d31 : (metaBlock c i t s).drop 31 = writeFixNum c 1 ++ [] := by
    rw [show 31 = 22 + (writeFixNum s 6).length + 3 by omega, ← List.drop_drop, ← List.drop_drop, d22, List.drop_left,
      List.append_nil]
    rfl
  have t9 : (metaBlock c i t s).take 9 = [0x54, 0x6B, 0x72, 0x7A, 0x77, 0x4D, 0x51, 0x58, 0x0A] := by simp [metaBlock]
  simp only [loadMeta, hr, t9, d9, d10, d16, d22, d31, fix_read c 1 (by omega) (by omega : c < 2 ^ 8),
    fix_read i 6 (by omega) (by omega : i < 2 ^ 48), fix_read t 6 (by omega) (by omega : t < 2 ^ 48),
    fix_mod s 6 (by omega)]
  simp

/-- The records of a list of messages. -/
def recs (l : List (Nat × Bytes)) : Bytes := l.flatMap fun m => record m.1 m.2

theorem recs_append (a b) : recs (a ++ b) = recs a ++ recs b := by simp [recs]
theorem recs_cons (m l) : recs (m :: l) = record m.1 m.2 ++ recs l := by simp [recs]
theorem recs_single (m) : recs [m] = record m.1 m.2 := by simp [recs]

theorem recs_length_ge (l) : 12 * l.length ≤ (recs l).length := by
  induction l with
  | nil => simp
  | cons m l ih => rw [recs_cons, List.length_append, record_length, List.length_cons]; omega

/-- A file with metadata `i` and the messages `msgs`. -/
structure FileIs (f : Bytes) (i : Info) (msgs : List (Nat × Bytes)) : Prop where
  long : 32 ≤ f.length
  body : f.drop 32 = recs msgs
  load : loadMeta f = .ok i
  ok : ∀ m ∈ msgs, MsgOk m
  cyc : ∃ c, i.cyclic = some c
  size : i.size ≤ f.length

theorem loadMeta_prefix {f g : Bytes} (hf : 32 ≤ f.length) : loadMeta (f ++ g) = loadMeta f := by
  have : Flat.readAt (f ++ g) 0 32 = Flat.readAt f 0 32 := by
    simp only [Flat.readAt]
    rw [if_pos (by simp; omega), if_pos (by omega), List.drop_zero, List.drop_zero, List.take_append_of_le_length hf]
  simp only [loadMeta, this]

theorem FileIs.append {f i msgs} (h : FileIs f i msgs) (m : Nat × Bytes) (hm : MsgOk m) :
    FileIs (f ++ record m.1 m.2) i (msgs ++ [m]) := by
  have hl := h.long
  refine ⟨by rw [List.length_append]; omega, ?_, by rw [loadMeta_prefix h.long]; exact h.load, ?_, h.cyc, by
    have := h.size
    rw [List.length_append]; omega⟩
  · rw [List.drop_append_of_le_length h.long, h.body, recs_append, recs_single]
  · intro x hx
    rcases List.mem_append.mp hx with hx | hx
    · exact h.ok x hx
    · simp at hx; rw [hx]; exact hm

theorem FileIs.save {f i msgs} (h : FileIs f i msgs) {c id t : Nat} (hc : c < 256) (hi : id < 2 ^ 48) (ht : t < 2 ^ 48) :
    FileIs (saveMeta f c id t) ⟨some c, id, t, f.length % 2 ^ 48⟩ msgs := by
  have hl := h.long
  have e : max f.length 32 = f.length := by omega
  refine ⟨?_, ?_, ?_, h.ok, ⟨c, rfl⟩, ?_⟩
  · rw [saveMeta, List.length_append, metaBlock_length]; omega
  · rw [saveMeta, List.drop_left' (metaBlock_length _ _ _ _), h.body]
  · rw [saveMeta, loadMeta_block hc hi ht, e]
  · have := Nat.mod_le f.length (2 ^ 48)
    simp only
    rw [saveMeta, List.length_append, metaBlock_length, List.length_drop]; omega

theorem FileIs.fresh {c id t : Nat} (hc : c < 256) (hi : id < 2 ^ 48) (ht : t < 2 ^ 48) :
    FileIs (saveMeta [] c id t) ⟨some c, id, t, 32⟩ [] := by
  have e : max ([] : Bytes).length 32 = 32 := by simp
  refine ⟨?_, ?_, ?_, by simp, ⟨c, rfl⟩, ?_⟩
  · rw [saveMeta, List.length_append, metaBlock_length]; omega
  · rw [saveMeta, List.drop_left' (metaBlock_length _ _ _ _)]; rfl
  · rw [saveMeta, loadMeta_block hc hi ht, e]
  · simp only
    rw [saveMeta, List.length_append, metaBlock_length]; omega

/-- The files of a queue, from the id `n` on: the metadata of every file but the last tell a timestamp that no message of
it exceeds. -/
inductive Files : Nat → List Bytes → List (List (Nat × Bytes)) → Prop
  | last {n f i msgs} : FileIs f i msgs → i.id = n → Files n [f] [msgs]
  | cons {n f i msgs fs ss} : FileIs f i msgs → i.id = n → (∀ m ∈ msgs, m.1 ≤ i.ts) ∧ i.size = f.length % 2 ^ 48 → Files (n + 1) fs ss →
      Files n (f :: fs) (msgs :: ss)

theorem Files.length {n fs ss} (h : Files n fs ss) : fs.length = ss.length ∧ fs ≠ [] := by
  induction h with
  | last => simp
  | cons _ _ _ _ ih => simp [ih.1]

theorem Files.split {n fs ss} (h : Files n fs ss) : ∃ fs0 f ss0 msgs i, fs = fs0 ++ [f] ∧ ss = ss0 ++ [msgs] ∧
    FileIs f i msgs ∧ i.id = n + fs0.length ∧ fs0.length = ss0.length ∧
    ∀ gs ts, Files (n + fs0.length) gs ts → Files n (fs0 ++ gs) (ss0 ++ ts) := by
  induction h with
  | last h hn => exact ⟨[], _, [], _, _, rfl, rfl, h, by simpa using hn, rfl, fun gs ts h => by simpa using h⟩
  | cons h hn hb _ ih =>
    obtain ⟨fs0, f, ss0, msgs, i, rfl, rfl, h1, h2, h3, h4⟩ := ih
    refine ⟨_ :: fs0, f, _ :: ss0, msgs, i, rfl, rfl, h1, by rw [h2, List.length_cons]; omega, by simp [h3], ?_⟩
    intro gs ts hg
    refine .cons h hn hb (h4 gs ts ?_)
    rw [List.length_cons] at hg
    rw [Nat.add_right_comm]; exact hg

theorem Files.get {n fs ss} (h : Files n fs ss) {pre msgs post} (e : ss = pre ++ msgs :: post) :
    ∃ f i, fs[pre.length]? = some f ∧ FileIs f i msgs := by
  induction h generalizing pre with
  | last h hn =>
    cases pre with
    | nil => simp at e; obtain ⟨rfl, rfl⟩ := e; exact ⟨_, _, rfl, h⟩
    | cons a pre => simp at e
  | cons h hn hb _ ih =>
    cases pre with
    | nil => simp at e; obtain ⟨rfl, rfl⟩ := e; exact ⟨_, _, rfl, h⟩
    | cons a pre =>
      simp at e
      obtain ⟨f, i, h1, h2⟩ := ih e.2
      exact ⟨f, i, by simpa using h1, h2⟩

theorem Files.total {n fs ss} (h : Files n fs ss) : ss.flatten.length ≤ (fs.map List.length).sum := by
  have one : ∀ {f i msgs}, FileIs f i msgs → msgs.length ≤ f.length := by
    intro f i msgs h
    have := recs_length_ge msgs
    have e := congrArg List.length h.body
    rw [List.length_drop] at e
    omega
  induction h with
  | last h hn => simpa using one h
  | cons h hn hb _ ih =>
    have := one h
    rw [List.flatten_cons, List.length_append, List.map_cons, List.sum_cons]; omega

theorem Files.find {n fs ss} (h : Files n fs ss) (minTs : Int) : ∃ o pre post, findFile minTs fs = .ok o ∧
    ss = pre ++ post ∧ post ≠ [] ∧ o.getD (n + fs.length - 1) = n + pre.length ∧ ∀ m ∈ pre.flatten, (m.1 : Int) < minTs := by
  induction h with
  | @last n f i msgs h hn =>
    by_cases hc : (i.ts : Int) ≥ minTs
    · exact ⟨some i.id, [], [msgs], by simp only [findFile, h.load, if_pos hc], rfl, by simp, by simp [hn], by simp⟩
    · exact ⟨none, [], [msgs], by simp only [findFile, h.load, if_neg hc], rfl, by simp, by simp, by simp⟩
  | @cons n f i msgs fs ss h hn hb hf ih =>
    by_cases hc : (i.ts : Int) ≥ minTs
    · exact ⟨some i.id, [], msgs :: ss, by simp only [findFile, h.load, if_pos hc], rfl, by simp, by simp [hn], by simp⟩
    · obtain ⟨o, pre, post, e, rfl, h1, h2, h3⟩ := ih
      refine ⟨o, msgs :: pre, post, by simp only [findFile, h.load, if_neg hc, e], rfl, h1, ?_, ?_⟩
      · rw [List.length_cons, List.length_cons, show n + (fs.length + 1) - 1 = n + 1 + fs.length - 1 by omega, h2]; omega
      · intro m hm
        rw [List.flatten_cons] at hm
        rcases List.mem_append.mp hm with hm | hm
        · have := hb.1 m hm; omega
        · exact h3 m hm

end Verif.Mq
