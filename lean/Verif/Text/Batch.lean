import Verif.Text.SearchProps
/-
All occurrences of several patterns (tkrzw_str_util.cc 1053-1077, 1215-1311): C38.
-/
namespace Verif.Search

/-! ### Model -/

/-- `std::string_view::find` by its contract: the first position from `pos` on at which the pattern occurs. -/
def find (text pat : Bytes) (pos : Nat) : Option Nat := (List.range' pos (text.length + 1 - pos)).find? fun i => decide (Occurs text pat i)

/-- The loop of `StrSearchWhole` (tkrzw_str_util.cc 1064-1075). -/
def wholeLoop (text pat : Bytes) (max : Nat) : (fuel pos : Nat) → List Nat → Option (List Nat)
  | 0, _, _ => none
  | fuel + 1, pos, acc =>
    if pos ≠ text.length then
      match find text pat pos with
      | none => some acc
      | some p => if max > 0 ∧ (acc ++ [p]).length ≥ max then some (acc ++ [p]) else wholeLoop text pat max fuel (p + 1) (acc ++ [p])
    else some acc

/-- `StrSearchWhole` (tkrzw_str_util.cc 1053-1077). -/
def whole (text pat : Bytes) (max : Nat) : Option (List Nat) :=
  if pat.isEmpty then some (wholeEmpty text max) else wholeLoop text pat max (text.length + 2) 0 []

/-- `StrSearchBatch`, `StrSearchBatchKMP`, `StrSearchBatchBM` (tkrzw_str_util.cc 1215-1243) with the function for one pattern. -/
def batchWith (f : Bytes → Bytes → Nat → Option (List Nat)) (text : Bytes) (max : Nat) : List Bytes → Option (List (List Nat))
  | [] => some []
  | p :: ps => do
    let r ← f text p max
    let rs ← batchWith f text max ps
    some (r :: rs)

/-- `batch[n].emplace_back(i)` for a `std::map` ordered by the size (tkrzw_str_util.cc 1250-1252). -/
def groupIns (n i : Nat) : List (Nat × List Nat) → List (Nat × List Nat)
  | [] => [(n, [i])]
  | (m, l) :: gs => if n < m then (n, [i]) :: (m, l) :: gs else if n = m then (m, l ++ [i]) :: gs else (m, l) :: groupIns n i gs

/-- `batch` (tkrzw_str_util.cc 1249-1252): the indices of the patterns by their sizes. -/
def groupAll : List Bytes → Nat → List (Nat × List Nat) → List (Nat × List Nat)
  | [], _, gs => gs
  | p :: ps, i, gs => groupAll ps (i + 1) (groupIns p.length i gs)

/-- What a position does to the results of a pattern (tkrzw_str_util.cc 1292-1305). -/
def batchHit (text pat : Bytes) (max i : Nat) (ph h : Int) (acc : List Nat) : List Nat :=
  if ph = h ∧ i ≥ pat.length - 1 ∧ window text pat (i - (pat.length - 1)) = true then
    if max > 0 then if acc.length < max then acc ++ [i - (pat.length - 1)] else acc
    else acc ++ [i - (pat.length - 1)]
  else acc

/-- The loop over the patterns of a size (tkrzw_str_util.cc 1290-1307). -/
def batchHits (text : Bytes) (patterns : List Bytes) (max i : Nat) (h : Int) : List (Int × Nat) → List (List Nat) → Option (List (List Nat))
  | [], res => some res
  | (ph, k) :: l, res => do
    let pat ← patterns[k]?
    let acc ← res[k]?
    batchHits text patterns max i h l (res.set k (batchHit text pat max i ph h acc))

/-- The loop over the text (tkrzw_str_util.cc 1281-1308). -/
def batchLoop (text : Bytes) (patterns : List Bytes) (max n : Nat) (power : Int) (hashes : List (Int × Nat)) :
    (fuel i : Nat) → Int → List (List Nat) → Option (List (List Nat))
  | 0, _, _, res => some res
  | fuel + 1, i, h, res => do
    let h ← rkRoll text n power h i
    let res ← batchHits text patterns max i h hashes res
    batchLoop text patterns max n power hashes fuel (i + 1) h res

/-- The hashes of the patterns of a size (tkrzw_str_util.cc 1268-1279). -/
def batchHashes (patterns : List Bytes) : List Nat → Option (List (Int × Nat))
  | [] => some []
  | k :: ks => do
    let pat ← patterns[k]?
    let l ← batchHashes patterns ks
    some ((rkHash pat, k) :: l)

/-- For empty patterns (tkrzw_str_util.cc 1257-1261). -/
def batchEmpty (text : Bytes) : List Nat → List (List Nat) → Option (List (List Nat))
  | [], res => some res
  | k :: ks, res => do
    let acc ← res[k]?
    batchEmpty text ks (res.set k (acc ++ List.range text.length))

/-- The patterns of a size (tkrzw_str_util.cc 1253-1309). -/
def batchGroup (text : Bytes) (patterns : List Bytes) (max : Nat) (g : Nat × List Nat) (res : List (List Nat)) : Option (List (List Nat)) :=
  if g.1 < 1 then batchEmpty text g.2 res
  else do
    let hashes ← batchHashes patterns g.2
    batchLoop text patterns max g.1 (rkPower g.1) hashes text.length 0 0 res

/-- The loop over the sizes in ascending order (tkrzw_str_util.cc 1253-1309). -/
def batchGroups (text : Bytes) (patterns : List Bytes) (max : Nat) : List (Nat × List Nat) → List (List Nat) → Option (List (List Nat))
  | [], res => some res
  | g :: gs, res => do
    let res ← batchGroup text patterns max g res
    batchGroups text patterns max gs res

/-- `StrSearchBatchRK` (tkrzw_str_util.cc 1245-1311). -/
def batchRK (text : Bytes) (patterns : List Bytes) (max : Nat) : Option (List (List Nat)) :=
  batchGroups text patterns max (groupAll patterns 0 []) (patterns.map fun _ => [])

/-! ### Proofs -/

theorem find_spec {text pat : Bytes} {pos : Nat} :
    (∃ p, find text pat pos = some p ∧ pos ≤ p ∧ Occurs text pat p ∧ ∀ j, pos ≤ j → j < p → ¬ Occurs text pat j) ∨
    (find text pat pos = none ∧ ∀ j, pos ≤ j → ¬ Occurs text pat j) := by
  unfold find
  cases h : (List.range' pos (text.length + 1 - pos)).find? fun i => decide (Occurs text pat i) with
  | none =>
    refine Or.inr ⟨rfl, fun j hj ho => ?_⟩
    rw [List.find?_eq_none] at h
    have := (occurs_iff.1 ho).1
    exact h j (List.mem_range'_1.2 ⟨hj, by omega⟩) (by simpa using ho)
  | some p =>
    refine Or.inl ⟨p, rfl, ?_⟩
    have hm := List.mem_range'_1.1 (List.mem_of_find?_eq_some h)
    have hp := List.find?_some h
    refine ⟨hm.1, by simpa using hp, fun j h1 h2 ho => ?_⟩
    rw [List.find?_eq_some_iff_append] at h
    obtain ⟨_, as, bs, e1, h3⟩ := h
    have hlen : as.length = p - pos := by
      have h4 : (List.range' pos (text.length + 1 - pos))[as.length]? = some p := by rw [e1]; simp
      have hlt := (List.getElem?_eq_some_iff.1 h4).1
      rw [List.getElem?_range' (by simpa using hlt)] at h4
      simp at h4; omega
    have hj : j ∈ as := by
      have h4 : (List.range' pos (text.length + 1 - pos))[j - pos]? = some j := by
        rw [List.getElem?_range' (by omega)]; simp; omega
      rw [e1, List.getElem?_append_left (by omega)] at h4
      exact List.mem_of_getElem? h4
    have := h3 j hj
    simp [ho] at this

theorem wholeLoop_spec {text pat : Bytes} (hp : pat ≠ []) (max : Nat) : ∀ (fuel pos : Nat) (acc : List Nat), pos ≤ text.length → text.length - pos < fuel →
    (max > 0 → acc.length < max) → wholeLoop text pat max fuel pos acc = some (fin max (acc ++ occFrom text pat pos)) := by
  intro fuel
  induction fuel with
  | zero => intro pos acc _ h; omega
  | succ fuel ih =>
    intro pos acc hpos hf ha
    simp only [wholeLoop]
    by_cases hz : pos = text.length
    · rw [if_neg (by simpa using hz), occFrom_end (by omega), List.append_nil, fin_all ha]
    · rw [if_pos hz]
      rcases find_spec (text := text) (pat := pat) (pos := pos) with ⟨p, h1, h2, h3, h4⟩ | ⟨h1, h2⟩
      · rw [h1]
        dsimp only
        have hlt := occurs_lt hp h3
        rw [occFrom_first h2 hlt h3 h4]
        by_cases hm : max > 0 ∧ (acc ++ [p]).length ≥ max
        · rw [if_pos hm, show acc ++ p :: occFrom text pat (p + 1) = (acc ++ [p]) ++ occFrom text pat (p + 1) by simp, fin_done hm]
          have := ha hm.1
          simp only [List.length_append, List.length_singleton]; omega
        · rw [if_neg hm, ih (p + 1) _ (by omega) (by omega) (by intro h; simp only [List.length_append, List.length_singleton] at hm ⊢; omega)]
          simp
      · rw [h1, occFrom_none h2, List.append_nil, fin_all ha]

/-- C38: `StrSearchWhole` returns the positions of all occurrences. -/
theorem C38_whole (text pat : Bytes) (max : Nat) : whole text pat max = some (allOccurrences text pat max) := by
  unfold whole
  by_cases hp : pat = []
  · subst hp; simp only [List.isEmpty_nil, if_true]; rw [wholeEmpty_eq]
  · rw [if_neg (by simpa using hp), wholeLoop_spec hp max _ 0 [] (by omega) (by omega) (by intro h; simpa using h), allOccurrences_eq]
    rfl

theorem batchWith_spec {f : Bytes → Bytes → Nat → Option (List Nat)} {text : Bytes} {max : Nat} (ps : List Bytes)
    (h : ∀ p ∈ ps, f text p max = some (allOccurrences text p max)) :
    batchWith f text max ps = some (ps.map fun p => allOccurrences text p max) := by
  induction ps with
  | nil => rfl
  | cons p ps ih =>
    simp only [batchWith, h p (by simp), ih fun q hq => h q (by simp [hq])]
    rfl

/-- C38: `StrSearchBatch` and `StrSearchBatchKMP` return the positions of all occurrences of each pattern. -/
theorem C38_batch (text : Bytes) (patterns : List Bytes) (max : Nat) :
    batchWith whole text max patterns = some (patterns.map fun p => allOccurrences text p max) ∧
    batchWith wholeKMP text max patterns = some (patterns.map fun p => allOccurrences text p max) :=
  ⟨batchWith_spec _ fun p _ => C38_whole text p max, batchWith_spec _ fun p _ => C38_whole_kmp text p max⟩

/-- C38: `StrSearchBatchBM` too, for texts and patterns without the byte 255. -/
theorem C38_batch_bm_partial (text : Bytes) (patterns : List Bytes) (max : Nat) (h1 : ∀ c ∈ text, c ≠ 255) (h2 : ∀ p ∈ patterns, ∀ c ∈ p, c ≠ 255) :
    batchWith wholeBM text max patterns = some (patterns.map fun p => allOccurrences text p max) :=
  batchWith_spec _ fun p hp => C38_whole_bm_partial text p max h1 (h2 p hp)

/-! ### The batch of Rabin-Karp -/

/-- What the results of a pattern are at a position of the text. -/
def BatchAt (text pat : Bytes) (max i : Nat) (acc : List Nat) : Prop :=
  (max > 0 → acc.length ≤ max) ∧ fin max (acc ++ occFrom text pat (i - (pat.length - 1))) = allOccurrences text pat max

theorem batchHit_spec {text pat : Bytes} (hp : pat ≠ []) {max i : Nat} (hi : i < text.length) {acc : List Nat} (h : BatchAt text pat max i acc) :
    BatchAt text pat max (i + 1) (batchHit text pat max i (rkHash pat) (poly (win text pat.length (i + 1)) % 1798201) acc) := by
  have hl : 0 < pat.length := List.length_pos_iff.2 hp
  unfold batchHit
  by_cases hc : pat.length - 1 ≤ i ∧ Occurs text pat (i - (pat.length - 1))
  · rw [if_pos ((rk_test hi hp).2 hc)]
    obtain ⟨h1, h2⟩ := h
    rw [occFrom_first (Nat.le_refl _) (occurs_lt hp hc.2) hc.2 (fun j h1 h2 => by omega)] at h2
    have e1 : i + 1 - (pat.length - 1) = i - (pat.length - 1) + 1 := by omega
    unfold BatchAt
    rw [e1]
    generalize hbe : i - (pat.length - 1) = b at h2
    by_cases hm : max > 0
    · rw [if_pos hm]
      by_cases hlt : acc.length < max
      · rw [if_pos hlt]
        refine ⟨fun _ => by simp; omega, by rw [← h2]; simp⟩
      · rw [if_neg hlt]
        refine ⟨h1, ?_⟩
        have := h1 hm
        rw [fin_done ⟨hm, by omega⟩ (h1 hm)] at h2 ⊢
        exact h2
    · rw [if_neg hm]
      exact ⟨fun h => absurd h hm, by rw [← h2]; simp⟩
  · rw [if_neg (fun hx => hc ((rk_test hi hp).1 hx))]
    refine ⟨h.1, ?_⟩
    rw [← h.2]
    congr 2
    by_cases hle : pat.length - 1 ≤ i
    · rw [show i + 1 - (pat.length - 1) = i - (pat.length - 1) + 1 by omega]
      rw [occFrom_skip (b := i - (pat.length - 1)) (fun ho => hc ⟨hle, ho⟩)]
    · rw [show i + 1 - (pat.length - 1) = 0 by omega, show i - (pat.length - 1) = 0 by omega]

theorem batchHits_spec {text : Bytes} {patterns : List Bytes} {max i n : Nat} (hn : 0 < n) (hi : i < text.length) : ∀ (ks : List Nat) (res : List (List Nat)),
    ks.Nodup → (∀ k ∈ ks, ∃ p acc, patterns[k]? = some p ∧ p.length = n ∧ res[k]? = some acc ∧ BatchAt text p max i acc) →
    ∃ l res', batchHashes patterns ks = some l ∧ batchHits text patterns max i (poly (win text n (i + 1)) % 1798201) l res = some res' ∧
      (∀ k ∈ ks, ∃ p acc, patterns[k]? = some p ∧ p.length = n ∧ res'[k]? = some acc ∧ BatchAt text p max (i + 1) acc) ∧
      (∀ k, k ∉ ks → res'[k]? = res[k]?) ∧ res'.length = res.length := by
  intro ks
  induction ks with
  | nil => intro res _ _; exact ⟨[], res, rfl, rfl, by simp, fun _ _ => rfl, rfl⟩
  | cons k ks ih =>
    intro res hnd h
    obtain ⟨p, acc, h1, h2, h3, h4⟩ := h k (by simp)
    have hp : p ≠ [] := by intro h; rw [h] at h2; simp at h2; omega
    have hnot : k ∉ ks := (List.nodup_cons.1 hnd).1
    have hklt : k < res.length := (List.getElem?_eq_some_iff.1 h3).1
    have hstep := batchHit_spec hp hi h4
    rw [h2] at hstep
    obtain ⟨l, res', g1, g2, g3, g4, g5⟩ := ih (res.set k (batchHit text p max i (rkHash p) (poly (win text n (i + 1)) % 1798201) acc))
      (List.nodup_cons.1 hnd).2 (by
        intro j hj
        obtain ⟨q, acc', a1, a2, a3, a4⟩ := h j (by simp [hj])
        refine ⟨q, acc', a1, a2, ?_, a4⟩
        rw [List.getElem?_set_ne (by intro e; exact hnot (e ▸ hj))]
        exact a3)
    refine ⟨(rkHash p, k) :: l, res', by simp [batchHashes, h1, g1], by simp [batchHits, h1, h3, g2], ?_, ?_, by rw [g5]; simp⟩
    · intro j hj
      rcases List.mem_cons.1 hj with rfl | hj
      · refine ⟨p, _, h1, h2, ?_, hstep⟩
        rw [g4 j hnot, List.getElem?_set_self hklt]
      · exact g3 j hj
    · intro j hj
      rw [g4 j (fun h => hj (by simp [h])), List.getElem?_set_ne (by intro e; exact hj (by simp [e]))]

theorem batchLoop_spec {text : Bytes} {patterns : List Bytes} {max n : Nat} (hn : 0 < n) {ks : List Nat} (hnd : ks.Nodup) {l : List (Int × Nat)}
    (hl : batchHashes patterns ks = some l) : ∀ (fuel i : Nat) (res : List (List Nat)), i + fuel = text.length →
    (∀ k ∈ ks, ∃ p acc, patterns[k]? = some p ∧ p.length = n ∧ res[k]? = some acc ∧ BatchAt text p max i acc) →
    ∃ res', batchLoop text patterns max n (rkPower n) l fuel i (poly (win text n i) % 1798201) res = some res' ∧
      (∀ k ∈ ks, ∃ p, patterns[k]? = some p ∧ res'[k]? = some (allOccurrences text p max)) ∧
      (∀ k, k ∉ ks → res'[k]? = res[k]?) ∧ res'.length = res.length := by
  intro fuel
  induction fuel with
  | zero =>
    intro i res hf h
    refine ⟨res, rfl, fun k hk => ?_, fun _ _ => rfl, rfl⟩
    obtain ⟨p, acc, h1, h2, h3, h4, h5⟩ := h k hk
    refine ⟨p, h1, ?_⟩
    have hp : p ≠ [] := by intro h; rw [h] at h2; simp at h2; omega
    rw [occFrom_none (fun j hj ho => by have := (occurs_iff.1 ho).1; omega), List.append_nil] at h5
    rw [h3, ← h5]
    unfold fin
    by_cases hm : max > 0
    · rw [if_pos hm, List.take_of_length_le (h4 hm)]
    · rw [if_neg hm]
  | succ fuel ih =>
    intro i res hf h
    have hi : i < text.length := by omega
    obtain ⟨l', res1, g1, g2, g3, g4, g5⟩ := batchHits_spec hn hi ks res hnd h
    rw [hl] at g1
    cases g1
    obtain ⟨res2, k1, k2, k3, k4⟩ := ih (i + 1) res1 (by omega) g3
    refine ⟨res2, ?_, k2, fun k hk => by rw [k3 k hk, g4 k hk], by rw [k4, g5]⟩
    simp only [batchLoop, rkRoll_spec hn hi, g2, k1, Option.bind_eq_bind, Option.bind_some]

/-- The results of `StrSearchBatchRK` for a pattern: an empty one is found at every position, whatever the maximum. -/
def rkResult (text : Bytes) (max : Nat) (p : Bytes) : List Nat := if p = [] then List.range text.length else allOccurrences text p max

theorem batchEmpty_spec {text : Bytes} : ∀ (ks : List Nat) (res : List (List Nat)), ks.Nodup → (∀ k ∈ ks, res[k]? = some []) →
    ∃ res', batchEmpty text ks res = some res' ∧ (∀ k ∈ ks, res'[k]? = some (List.range text.length)) ∧ (∀ k, k ∉ ks → res'[k]? = res[k]?) ∧
      res'.length = res.length := by
  intro ks
  induction ks with
  | nil => intro res _ _; exact ⟨res, rfl, by simp, fun _ _ => rfl, rfl⟩
  | cons k ks ih =>
    intro res hnd h
    have hnot : k ∉ ks := (List.nodup_cons.1 hnd).1
    have hk := h k (by simp)
    have hklt : k < res.length := (List.getElem?_eq_some_iff.1 hk).1
    obtain ⟨res', g1, g2, g3, g4⟩ := ih (res.set k (List.range text.length)) (List.nodup_cons.1 hnd).2 (by
      intro j hj
      rw [List.getElem?_set_ne (by intro e; exact hnot (e ▸ hj))]
      exact h j (by simp [hj]))
    refine ⟨res', by simp [batchEmpty, hk, g1], ?_, ?_, by rw [g4]; simp⟩
    · intro j hj
      rcases List.mem_cons.1 hj with rfl | hj
      · rw [g3 j hnot, List.getElem?_set_self hklt]
      · exact g2 j hj
    · intro j hj
      rw [g3 j (fun h => hj (by simp [h])), List.getElem?_set_ne (by intro e; exact hj (by simp [e]))]

theorem batchGroup_spec {text : Bytes} {patterns : List Bytes} {max n : Nat} {ks : List Nat} (hnd : ks.Nodup)
    (hk : ∀ k ∈ ks, ∃ p, patterns[k]? = some p ∧ p.length = n) {res : List (List Nat)} (hres : ∀ k ∈ ks, res[k]? = some []) :
    ∃ res', batchGroup text patterns max (n, ks) res = some res' ∧
      (∀ k ∈ ks, ∃ p, patterns[k]? = some p ∧ res'[k]? = some (rkResult text max p)) ∧
      (∀ k, k ∉ ks → res'[k]? = res[k]?) ∧ res'.length = res.length := by
  unfold batchGroup
  by_cases hz : n < 1
  · rw [if_pos hz]
    obtain ⟨res', g1, g2, g3, g4⟩ := batchEmpty_spec (text := text) ks res hnd hres
    refine ⟨res', g1, fun k h => ?_, g3, g4⟩
    obtain ⟨p, h1, h2⟩ := hk k h
    refine ⟨p, h1, ?_⟩
    rw [g2 k h, rkResult, if_pos (List.length_eq_zero_iff.1 (by omega))]
  · rw [if_neg hz]
    have hashes : ∀ ks : List Nat, (∀ k ∈ ks, ∃ p, patterns[k]? = some p ∧ p.length = n) → ∃ l, batchHashes patterns ks = some l := by
      intro ks
      induction ks with
      | nil => intro _; exact ⟨[], rfl⟩
      | cons k ks ih =>
        intro h
        obtain ⟨l, hl⟩ := ih fun j hj => h j (by simp [hj])
        obtain ⟨p, h1, _⟩ := h k (by simp)
        exact ⟨(rkHash p, k) :: l, by simp [batchHashes, h1, hl]⟩
    obtain ⟨l, hl⟩ := hashes ks hk
    obtain ⟨res', g1, g2, g3, g4⟩ := batchLoop_spec (text := text) (max := max) (n := n) (by omega) hnd hl text.length 0 res (by omega) (by
      intro k h
      obtain ⟨p, h1, h2⟩ := hk k h
      refine ⟨p, [], h1, h2, hres k h, by simp, ?_⟩
      rw [List.nil_append, Nat.zero_sub, allOccurrences_eq]; rfl)
    rw [show poly (win text n 0) % 1798201 = 0 by simp [win, poly]] at g1
    refine ⟨res', by simp only [hl, Option.bind_eq_bind, Option.bind_some, g1], fun k h => ?_, g3, g4⟩
    obtain ⟨p, h1, h2⟩ := hk k h
    obtain ⟨p', h1', h2'⟩ := g2 k h
    rw [h1] at h1'
    cases h1'
    refine ⟨p, h1, ?_⟩
    rw [h2', rkResult, if_neg (by intro h; rw [h] at h2; simp at h2; omega)]

/-- What the groups are: each index is in the group of the size of its pattern. -/
structure Groups (patterns : List Bytes) (m : Nat) (gs : List (Nat × List Nat)) : Prop where
  sizes : (gs.map (·.1)).Nodup
  nodup : ∀ g ∈ gs, g.2.Nodup
  mem : ∀ g ∈ gs, ∀ k ∈ g.2, k < m ∧ ∃ p, patterns[k]? = some p ∧ p.length = g.1
  all : ∀ k, k < m → ∃ g ∈ gs, k ∈ g.2

theorem groupIns_mem (n i : Nat) : ∀ (gs : List (Nat × List Nat)), gs.Pairwise (fun a b => a.1 < b.1) →
    (groupIns n i gs).Pairwise (fun a b => a.1 < b.1) ∧
    (∀ x, (∃ g ∈ groupIns n i gs, g.1 = x) ↔ x = n ∨ ∃ g ∈ gs, g.1 = x) ∧
    (∀ g ∈ groupIns n i gs, ∀ k, k ∈ g.2 → (g.1 = n ∧ k = i) ∨ ∃ g' ∈ gs, g'.1 = g.1 ∧ k ∈ g'.2) ∧
    (∃ g ∈ groupIns n i gs, i ∈ g.2) ∧ (∀ g ∈ gs, ∀ k ∈ g.2, ∃ g' ∈ groupIns n i gs, k ∈ g'.2) ∧
    ((∀ g ∈ gs, g.2.Nodup ∧ i ∉ g.2) → ∀ g ∈ groupIns n i gs, g.2.Nodup) := by
  intro gs
  induction gs with
  | nil =>
    intro _
    simp [groupIns, eq_comm]
  | cons a gs ih =>
    obtain ⟨m, l⟩ := a
    intro h
    obtain ⟨h1, h2⟩ := List.pairwise_cons.1 h
    simp only [groupIns]
    by_cases hlt : n < m
    · rw [if_pos hlt]
      refine ⟨?_, ?_, ?_, ⟨(n, [i]), by simp, by simp⟩, ?_, ?_⟩
      · refine List.pairwise_cons.2 ⟨?_, h⟩
        intro b hb
        rcases List.mem_cons.1 hb with rfl | hb
        · exact hlt
        · exact Nat.lt_trans hlt (h1 b hb)
      · intro x; simp [eq_comm]
      · intro g hg k hk
        rcases List.mem_cons.1 hg with rfl | hg
        · left; exact ⟨rfl, by simpa using hk⟩
        · exact Or.inr ⟨g, hg, rfl, hk⟩
      · intro g hg k hk; exact ⟨g, List.mem_cons_of_mem _ hg, hk⟩
      · intro hh g hg
        rcases List.mem_cons.1 hg with rfl | hg
        · simp
        · exact (hh g hg).1
    · rw [if_neg hlt]
      by_cases heq : n = m
      · rw [if_pos heq]
        subst heq
        refine ⟨?_, ?_, ?_, ⟨(n, l ++ [i]), by simp, by simp⟩, ?_, ?_⟩
        · exact List.pairwise_cons.2 ⟨h1, h2⟩
        · intro x
          simp only [List.mem_cons, exists_eq_or_imp]
          constructor
          · rintro (h | h)
            · exact Or.inl h.symm
            · exact Or.inr (Or.inr h)
          · rintro (h | h | h)
            · exact Or.inl h.symm
            · exact Or.inl h
            · exact Or.inr h
        · intro g hg k hk
          rcases List.mem_cons.1 hg with rfl | hg
          · rcases List.mem_append.1 hk with hk | hk
            · exact Or.inr ⟨(n, l), by simp, rfl, hk⟩
            · exact Or.inl ⟨rfl, by simpa using hk⟩
          · exact Or.inr ⟨g, List.mem_cons_of_mem _ hg, rfl, hk⟩
        · intro g hg k hk
          rcases List.mem_cons.1 hg with rfl | hg
          · exact ⟨(n, l ++ [i]), by simp, by simp only [List.mem_append]; exact Or.inl hk⟩
          · exact ⟨g, List.mem_cons_of_mem _ hg, hk⟩
        · intro hh g hg
          rcases List.mem_cons.1 hg with rfl | hg
          · have := hh (n, l) (by simp)
            rw [List.nodup_append]
            refine ⟨this.1, by simp, fun a ha b hb e => ?_⟩
            rw [List.mem_singleton] at hb
            exact this.2 (hb ▸ e ▸ ha)
          · exact (hh g (List.mem_cons_of_mem _ hg)).1
      · rw [if_neg heq]
        obtain ⟨i1, i2, i3, i4, i5, i6⟩ := ih h2
        refine ⟨?_, ?_, ?_, ?_, ?_, ?_⟩
        · refine List.pairwise_cons.2 ⟨?_, i1⟩
          intro b hb
          rcases (i2 b.1).1 ⟨b, hb, rfl⟩ with e | ⟨g, hg, e⟩
          · show m < b.1; omega
          · rw [← e]; exact h1 g hg
        · intro x
          constructor
          · rintro ⟨g, hg, e⟩
            rcases List.mem_cons.1 hg with rfl | hg
            · exact Or.inr ⟨_, by simp, e⟩
            · rcases (i2 x).1 ⟨g, hg, e⟩ with h | ⟨g', hg', e'⟩
              · exact Or.inl h
              · exact Or.inr ⟨g', List.mem_cons_of_mem _ hg', e'⟩
          · rintro (h | ⟨g, hg, e⟩)
            · obtain ⟨g, hg, e⟩ := (i2 x).2 (Or.inl h)
              exact ⟨g, List.mem_cons_of_mem _ hg, e⟩
            · rcases List.mem_cons.1 hg with rfl | hg
              · exact ⟨_, by simp, e⟩
              · obtain ⟨g', hg', e'⟩ := (i2 x).2 (Or.inr ⟨g, hg, e⟩)
                exact ⟨g', List.mem_cons_of_mem _ hg', e'⟩
        · intro g hg k hk
          rcases List.mem_cons.1 hg with rfl | hg
          · exact Or.inr ⟨_, by simp, rfl, hk⟩
          · rcases i3 g hg k hk with h | ⟨g', hg', e', hk'⟩
            · exact Or.inl h
            · exact Or.inr ⟨g', List.mem_cons_of_mem _ hg', e', hk'⟩
        · obtain ⟨g, hg, hi⟩ := i4
          exact ⟨g, List.mem_cons_of_mem _ hg, hi⟩
        · intro g hg k hk
          rcases List.mem_cons.1 hg with rfl | hg
          · exact ⟨_, by simp, hk⟩
          · obtain ⟨g', hg', hk'⟩ := i5 g hg k hk
            exact ⟨g', List.mem_cons_of_mem _ hg', hk'⟩
        · intro hh g hg
          rcases List.mem_cons.1 hg with rfl | hg
          · exact (hh _ (by simp)).1
          · exact i6 (fun g hg => hh g (List.mem_cons_of_mem _ hg)) g hg

theorem groupAll_spec (patterns : List Bytes) : ∀ (ps : List Bytes) (i : Nat) (gs : List (Nat × List Nat)), patterns.drop i = ps → i ≤ patterns.length →
    gs.Pairwise (fun a b => a.1 < b.1) → Groups patterns i gs → Groups patterns patterns.length (groupAll ps i gs) := by
  intro ps
  induction ps with
  | nil =>
    intro i gs hd hi hpw hg
    have hle : patterns.length ≤ i := by
      have := congrArg List.length hd
      simp at this; omega
    have : i = patterns.length := by omega
    rw [← this]
    exact hg
  | cons p ps ih =>
    intro i gs hd hi hpw hg
    have hpi : patterns[i]? = some p := by
      have := congrArg (fun l => l[0]?) hd
      simpa using this
    have hilt := (List.getElem?_eq_some_iff.1 hpi).1
    obtain ⟨a1, a2, a3, a4, a5, a6⟩ := groupIns_mem p.length i gs hpw
    simp only [groupAll]
    refine ih (i + 1) _ ?_ (by omega) a1 ⟨?_, ?_, ?_, ?_⟩
    · have := congrArg List.tail hd
      simpa [List.tail_drop] using this
    · rw [List.nodup_iff_pairwise_ne, List.pairwise_map]
      exact a1.imp fun h => Nat.ne_of_lt h
    · refine a6 fun g h => ⟨hg.nodup g h, fun h' => ?_⟩
      have := (hg.mem g h i h').1
      omega
    · intro g h k hk
      rcases a3 g h k hk with ⟨e1, rfl⟩ | ⟨g', h1, h2, h3⟩
      · exact ⟨by omega, p, hpi, e1.symm⟩
      · obtain ⟨b1, b2⟩ := hg.mem g' h1 k h3
        exact ⟨by omega, by rw [← h2]; exact b2⟩
    · intro k hk
      by_cases e : k = i
      · rw [e]; exact a4
      · obtain ⟨g, h1, h2⟩ := hg.all k (by omega)
        exact a5 g h1 k h2

theorem batchGroups_spec {text : Bytes} {patterns : List Bytes} {max : Nat} : ∀ (gs : List (Nat × List Nat)) (res : List (List Nat)),
    (gs.map (·.1)).Nodup → (∀ g ∈ gs, g.2.Nodup) → (∀ g ∈ gs, ∀ k ∈ g.2, ∃ p, patterns[k]? = some p ∧ p.length = g.1) →
    (∀ g ∈ gs, ∀ k ∈ g.2, res[k]? = some []) →
    ∃ res', batchGroups text patterns max gs res = some res' ∧
      (∀ g ∈ gs, ∀ k ∈ g.2, ∃ p, patterns[k]? = some p ∧ res'[k]? = some (rkResult text max p)) ∧
      (∀ k, (∀ g ∈ gs, k ∉ g.2) → res'[k]? = res[k]?) ∧ res'.length = res.length := by
  intro gs
  induction gs with
  | nil => intro res _ _ _ _; exact ⟨res, rfl, by simp, fun _ _ => rfl, rfl⟩
  | cons g gs ih =>
    obtain ⟨n, ks⟩ := g
    intro res h1 h2 h3 h4
    simp only [List.map_cons] at h1
    obtain ⟨h1a, h1b⟩ := List.nodup_cons.1 h1
    obtain ⟨res1, g1, g2, g3, g4⟩ := batchGroup_spec (text := text) (max := max) (h2 _ (by simp)) (h3 (n, ks) (by simp)) (h4 (n, ks) (by simp))
    have disj : ∀ g ∈ gs, ∀ k ∈ g.2, k ∉ ks := by
      intro g hg k hk hk'
      obtain ⟨p, a1, a2⟩ := h3 g (by simp [hg]) k hk
      obtain ⟨p', b1, b2⟩ := h3 (n, ks) (by simp) k hk'
      rw [a1] at b1
      cases b1
      have e : g.1 = n := by rw [← a2, b2]
      exact h1a (List.mem_map.2 ⟨g, hg, e⟩)
    obtain ⟨res2, k1, k2, k3, k4⟩ := ih res1 h1b (fun g hg => h2 g (by simp [hg])) (fun g hg => h3 g (by simp [hg])) (by
      intro g hg k hk
      rw [g3 k (disj g hg k hk)]
      exact h4 g (by simp [hg]) k hk)
    refine ⟨res2, by simp only [batchGroups, g1, Option.bind_eq_bind, Option.bind_some, k1], ?_, ?_, by rw [k4, g4]⟩
    · intro g hg k hk
      rcases List.mem_cons.1 hg with rfl | hg
      · obtain ⟨p, a1, a2⟩ := g2 k hk
        exact ⟨p, a1, by rw [k3 k (fun g hg h => disj g hg k h hk)]; exact a2⟩
      · exact k2 g hg k hk
    · intro k hk
      rw [k3 k (fun g hg => hk g (by simp [hg])), g3 k (hk (n, ks) (by simp))]

theorem batchRK_eq (text : Bytes) (patterns : List Bytes) (max : Nat) :
    batchRK text patterns max = some (patterns.map (rkResult text max)) := by
  have hG := groupAll_spec patterns patterns 0 [] (by simp) (by omega) List.Pairwise.nil ⟨by simp, by simp, by simp, by intro k h; omega⟩
  obtain ⟨res, h1, h2, _, h4⟩ := batchGroups_spec (text := text) (max := max) (groupAll patterns 0 []) (patterns.map fun _ => ([] : List Nat)) hG.sizes hG.nodup
    (fun g hg k hk => (hG.mem g hg k hk).2) (by
      intro g hg k hk
      obtain ⟨p, hp, _⟩ := (hG.mem g hg k hk).2
      simp [hp])
  unfold batchRK
  rw [h1, Option.some.injEq]
  apply List.ext_getElem?
  intro k
  by_cases hk : k < patterns.length
  · obtain ⟨g, hg, hkg⟩ := hG.all k hk
    obtain ⟨p, hp, hr⟩ := h2 g hg k hkg
    rw [hr]; simp [hp]
  · rw [List.getElem?_eq_none (by rw [h4]; simp; omega), List.getElem?_eq_none (by simp; omega)]

/-- C38: `StrSearchBatchRK` returns the positions of all occurrences of each pattern, if no pattern is empty or there is no maximum. -/
theorem C38_batch_rk_partial (text : Bytes) (patterns : List Bytes) (max : Nat) (h : max = 0 ∨ ∀ p ∈ patterns, p ≠ []) :
    batchRK text patterns max = some (patterns.map fun p => allOccurrences text p max) := by
  rw [batchRK_eq, Option.some.injEq]
  refine List.map_congr_left fun p hp => ?_
  unfold rkResult
  by_cases he : p = []
  · rcases h with h | h
    · rw [if_pos he, he, h, ← wholeEmpty_eq]
      rfl
    · exact absurd he (h p hp)
  · rw [if_neg he]

/-- C38 is violated: the limit on the number of results is ignored for an empty pattern by `StrSearchBatchRK` alone. -/
theorem C38_batch_rk_violated : batchRK [97, 98, 99] [[]] 1 = some [[0, 1, 2]] ∧ batchWith whole [97, 98, 99] 1 [[]] = some [[0]] := by decide +kernel

example : batchRK [97, 97, 98, 97, 98] [[97, 98], [97], [98, 97], [97, 97]] 2 = some [[1, 3], [0, 1], [2], [0]] := by decide +kernel

end Verif.Search
