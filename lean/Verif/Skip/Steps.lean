import Verif.Skip.Life
/-
Every call does what the specification says.
-/
namespace Verif.Skip
open Verif

/-- The position of the iterator. -/
def IterOk (c : Cfg) (recs : Recs) : Iter → Option Nat → Prop
  | none, none => True
  | some (o, i, sz), some j => i = j ∧ o = offs c recs j ∧ j ≤ recs.length ∧ (sz = 0 ∨ (j < recs.length ∧ sz = sizeAt c recs j))
  | _, _ => False

/-! Reading -/

theorem search_ok {d : Db} {s : S} (h : Inv d s) (key : Bytes) (upper : Bool) :
    ∃ md cc, md.length = metadataSize ∧ d.file = image d.cfg md s.stored ∧ Inv { d with cache := cc } s ∧ d.search key upper = .ok ({ d with cache := cc },
      if h : lowerIndex s.stored key < s.stored.length then
        if upper = true ∨ s.stored[lowerIndex s.stored key].1 = key then some (theRec d.cfg md s.stored (lowerIndex s.stored key)) else none
       else none) := by
  obtain ⟨md, hm, hf, hcc⟩ := h.file
  obtain ⟨cc, hcc', e⟩ := search_image h.valid.ok hm h.fits h.stored hcc key upper
  refine ⟨md, cc, hm, hf, cache_inv h hm hf hcc', ?_⟩
  rw [Db.search, hf, e]

theorem searchByIndex_ok {d : Db} {s : S} (h : Inv d s) (i : Nat) :
    ∃ md cc, md.length = metadataSize ∧ d.file = image d.cfg md s.stored ∧ Inv { d with cache := cc } s ∧ d.searchByIndex i = .ok ({ d with cache := cc },
      if i < s.stored.length then some (theRec d.cfg md s.stored i) else none) := by
  obtain ⟨md, hm, hf, hcc⟩ := h.file
  obtain ⟨cc, hcc', e⟩ := searchByIndex_image h.valid.ok hm h.fits hcc i
  refine ⟨md, cc, hm, hf, cache_inv h hm hf hcc', ?_⟩
  rw [Db.searchByIndex, hf, e]

/-- The first record of a key is at the lower bound. -/
theorem find_lower : ∀ {recs : Recs}, SortedRecs recs → ∀ (key : Bytes), recs.find? (fun r => r.1 = key) =
    if h : lowerIndex recs key < recs.length then
      if recs[lowerIndex recs key].1 = key then some recs[lowerIndex recs key] else none
    else none
  | [], _, key => by simp
  | r :: l, hs, key => by
    have hl := List.Pairwise.of_cons hs
    have ih := find_lower hl key
    by_cases hlt : bytesLt r.1 key = true
    · have hi : lowerIndex (r :: l) key = lowerIndex l key + 1 := by simp [lowerIndex, List.takeWhile_cons, hlt]
      have hne : r.1 ≠ key := by
        intro e
        rw [e, bytesLt_weak.irrefl] at hlt
        cases hlt
      rw [List.find?_cons_of_neg (by simpa using hne), ih]
      simp only [hi, List.length_cons, Nat.add_lt_add_iff_right, List.getElem_cons_succ]
    · have hi : lowerIndex (r :: l) key = 0 := by simp [lowerIndex, List.takeWhile_cons, hlt]
      simp only [hi, List.length_cons, Nat.zero_lt_succ, dite_true, List.getElem_cons_zero]
      by_cases hk : r.1 = key
      · rw [if_pos hk, List.find?_cons_of_pos (by simpa using hk)]
      · rw [if_neg hk]
        rw [List.find?_eq_none]
        intro x hx hxk
        simp only [decide_eq_true_eq] at hxk
        rcases List.mem_cons.mp hx with rfl | hx
        · exact hk hxk
        · have h1 := List.rel_of_pairwise_cons hs hx
          rw [hxk] at h1
          have hlt' : bytesLt r.1 key = false := by simpa using hlt
          rcases bytes_trichotomy r.1 key with h2 | h2 | h2
          · simp [bytesLt, h2] at hlt'
          · exact hk h2
          · simp [bytesLt, h2] at h1

theorem updateIf_inv {d : Db} {s : S} (h : Inv d s) (w : Bool) (key : Bytes) (a : Action) (ha : w = true → s.UpdOk key a) :
    ∃ d', d.updateIf w key a = .ok d' ∧ Inv d' (if w then s.act key a else s) ∧ d'.cfg = d.cfg ∧ d'.file = d.file := by
  cases w with
  | false => exact ⟨d, rfl, h, rfl, rfl⟩
  | true => exact update_inv h key a (ha rfl)

theorem process_ok {d : Db} {s : S} (h : Inv d s) (key : Bytes) (proc : Proc) (w : Bool) (ha : w = true → s.UpdOk key (proc (s.get key))) :
    ∃ d', d.process key proc w = .ok (d', ⟨.success, [(key, s.get key)], 0⟩) ∧
      Inv d' (if w then s.act key (proc (s.get key)) else s) ∧ d'.cfg = d.cfg := by
  obtain ⟨md, cc, hm, hf, hi, e⟩ := search_ok h key false
  have hg : s.get key = (s.stored.find? fun r => r.1 = key).map (·.2) := rfl
  rw [find_lower h.stored key] at hg
  unfold Db.process
  rw [e, Rd.bind_ok]
  by_cases hin : lowerIndex s.stored key < s.stored.length
  · simp only [hin, dite_true, Bool.false_eq_true, false_or] at hg ⊢
    by_cases hk : s.stored[lowerIndex s.stored key].1 = key
    · simp only [hk, if_true, Option.map_some] at hg ⊢
      rw [hf, loadValue_image h.valid.ok hm h.fits _ hin, Rd.bind_ok, ← hg]
      obtain ⟨d', e', hi', hc', _⟩ := updateIf_inv hi w key _ ha
      exact ⟨d', by rw [hf] at e'; rw [e', Rd.bind_ok, Rd.pure_eq], hi', hc'⟩
    · simp only [hk, if_false, Option.map_none] at hg ⊢
      rw [← hg]
      obtain ⟨d', e', hi', hc', _⟩ := updateIf_inv hi w key _ ha
      exact ⟨d', by rw [e', Rd.bind_ok, Rd.pure_eq], hi', hc'⟩
  · simp only [hin, dite_false, Option.map_none] at hg ⊢
    rw [← hg]
    obtain ⟨d', e', hi', hc', _⟩ := updateIf_inv hi w key _ ha
    exact ⟨d', by rw [e', Rd.bind_ok, Rd.pure_eq], hi', hc'⟩

theorem getByIndex_ok {d : Db} {s : S} (h : Inv d s) (i : Nat) :
    ∃ d', d.getByIndex i = .ok (d', match s.stored[i]? with | some r => ⟨.success, [(r.1, some r.2)], 0⟩ | none => Out.of .notFound) ∧
      Inv d' s ∧ d'.cfg = d.cfg := by
  obtain ⟨md, cc, hm, hf, hi, e⟩ := searchByIndex_ok h i
  refine ⟨_, ?_, hi, rfl⟩
  unfold Db.getByIndex
  rw [e, Rd.bind_ok]
  by_cases hin : i < s.stored.length
  · simp only [hin, if_true, List.getElem?_eq_getElem]
    rw [hf, loadValue_image h.valid.ok hm h.fits _ hin, Rd.bind_ok, (theRec_fields h.valid.ok hm h.fits hin).2.2.2.1]
    rfl
  · have : s.stored[i]? = none := List.getElem?_eq_none (by omega)
    simp only [hin, if_false, this]
    rfl

theorem file_length {d : Db} {s : S} (h : Inv d s) : d.file.length = offs d.cfg s.stored s.stored.length := by
  obtain ⟨md, hm, hf, _⟩ := h.file
  rw [hf, image_length h.valid.ok.w hm]

/-- Reading the record at a place. -/
theorem read_ok {d : Db} {s : S} (h : Inv d s) {i : Nat} (hi : i < s.stored.length) :
    ∃ r, readMetadataKey d.cfg d.file (offs d.cfg s.stored i) i = .ok r ∧ loadValue d.file r = .ok s.stored[i].2 ∧ r.key = s.stored[i].1 ∧
      r.index = i ∧ r.offset = offs d.cfg s.stored i ∧ r.whole = sizeAt d.cfg s.stored i := by
  obtain ⟨md, hm, hf, _⟩ := h.file
  rw [hf]
  obtain ⟨_, _, h1, h2, h3, h4⟩ := theRec_fields h.valid.ok hm h.fits (md := md) hi
  exact ⟨_, read_image h.valid.ok hm h.fits i hi, loadValue_image h.valid.ok hm h.fits i hi, h2, h3, h4, h1⟩

theorem processFirst_ok {d : Db} {s : S} (h : Inv d s) (proc : Bytes → Bytes → Action) (w : Bool)
    (ha : w = true → ∀ r, s.stored.head? = some r → s.UpdOk r.1 (proc r.1 r.2)) :
    ∃ d' s' o, d.processFirst proc w = .ok (d', o) ∧ Spec s (.processFirst proc w) s' o ∧ Inv d' s' ∧ d'.cfg = d.cfg := by
  have hl := file_length h
  unfold Db.processFirst
  rcases Nat.eq_zero_or_pos s.stored.length with h0 | h0
  · have he : s.stored = [] := List.eq_nil_of_length_eq_zero h0
    rw [h0] at hl
    simp only [offs] at hl
    rw [if_pos (by omega)]
    refine ⟨d, s, _, rfl, ?_, h, rfl⟩
    simp [Spec, he]
  · have := offs_lt (c := d.cfg) (recs := s.stored) h0 h0
    simp only [offs] at this
    rw [if_neg (by omega)]
    obtain ⟨r, er, ev, hk, _, _, _⟩ := read_ok h h0
    simp only [offs] at er
    rw [er, Rd.bind_ok, ev, Rd.bind_ok, hk]
    have hh : s.stored.head? = some s.stored[0] := by rw [List.head?_eq_getElem?, List.getElem?_eq_getElem h0]
    obtain ⟨d', e', hi', hc', _⟩ := updateIf_inv h w s.stored[0].1 (proc s.stored[0].1 s.stored[0].2) (fun hw => ha hw _ hh)
    refine ⟨d', _, _, by rw [e', Rd.bind_ok, Rd.pure_eq], ?_, hi', hc'⟩
    rw [Spec.eq_def]
    simp only [hh]
    exact ⟨trivial, trivial⟩

theorem processEach_ok {d : Db} {s : S} (h : Inv d s) (proc : Bytes → Bytes → Action) (w : Bool) (ha : w = true → S.UpdEachOk proc s s.stored) :
    ∃ d', d.processEach proc w = .ok (d', ⟨.success, s.stored.map fun r => (r.1, some r.2), 0⟩) ∧
      Inv d' (if w then s.actEach proc s.stored else s) ∧ d'.cfg = d.cfg := by
  obtain ⟨md, hm, hf, _⟩ := h.file
  unfold Db.processEach
  rw [hf, scan_image h.valid.ok hm h.fits, Rd.bind_ok]
  cases w with
  | false => exact ⟨d, rfl, h, rfl⟩
  | true =>
    obtain ⟨d', e', hi', hc', _⟩ := updateEach_inv proc s.stored h (ha rfl)
    refine ⟨d', ?_, hi', hc'⟩
    simp only [if_true]
    rw [e']
    rfl

/-! Iterators -/

theorem place_ok {c : Cfg} {recs : Recs} {j : Nat} (hj : j < recs.length) {r : Rec} (h1 : r.index = j) (h2 : r.offset = offs c recs j) (h3 : r.whole = sizeAt c recs j) :
    IterOk c recs (Iter.of r) (some j) := by
  simp only [Iter.of, IterOk]
  exact ⟨h1, h2, by omega, Or.inr ⟨hj, h3⟩⟩

theorem theRec_place {d : Db} {s : S} (h : Inv d s) {md : Bytes} (hm : md.length = metadataSize) {j : Nat} (hj : j < s.stored.length) :
    IterOk d.cfg s.stored (Iter.of (theRec d.cfg md s.stored j)) (some j) := by
  obtain ⟨_, _, h1, h2, h3, h4⟩ := theRec_fields h.valid.ok hm h.fits (md := md) hj
  exact place_ok hj h3 h4 h1

theorem num_eq {d : Db} {s : S} (h : Inv d s) (ha : s.inOrder = true → s.pending = []) : d.md.num = s.stored.length := by
  rw [h.num]
  split
  · rename_i ho; rw [ha ho]; simp
  · rfl

theorem eff_eq {d : Db} {s : S} (h : Inv d s) (ha : s.inOrder = true → s.pending = []) : d.md.eff = effOf s.stored := by
  rw [h.eff]
  split
  · rename_i ho; simp [S.pend, ha ho, effOf]
  · rfl

theorem last_ok {d : Db} {s : S} (h : Inv d s) (ha : s.inOrder = true → s.pending = []) (it : Iter) :
    ∃ d' it', Iter.last it d = .ok (d', it', Out.of .success) ∧ Inv d' s ∧ d'.cfg = d.cfg ∧ IterOk d.cfg s.stored it' (some (s.stored.length - 1)) := by
  have hn := num_eq h ha
  unfold Iter.last
  rw [hn]
  by_cases h0 : 0 < s.stored.length
  · rw [if_pos h0]
    obtain ⟨md, cc, hm, hf, hi, e⟩ := searchByIndex_ok h (s.stored.length - 1)
    rw [e, Rd.bind_ok]
    have hl : s.stored.length - 1 < s.stored.length := by omega
    simp only [hl, if_true]
    exact ⟨_, _, rfl, hi, rfl, theRec_place h hm hl⟩
  · rw [if_neg h0]
    refine ⟨d, _, rfl, h, rfl, ?_⟩
    have : s.stored.length = 0 := by omega
    simp [Iter.first, IterOk, offs, this]

theorem jump_ok {d : Db} {s : S} (h : Inv d s) (key : Bytes) :
    ∃ d' it', Iter.jump d key = .ok (d', it', Out.of .success) ∧ Inv d' s ∧ d'.cfg = d.cfg ∧
      IterOk d.cfg s.stored it' (place s.stored (lowerIndex s.stored key)) := by
  obtain ⟨md, cc, hm, hf, hi, e⟩ := search_ok h key true
  unfold Iter.jump
  rw [e, Rd.bind_ok]
  by_cases hin : lowerIndex s.stored key < s.stored.length
  · simp only [hin, dite_true, true_or, if_true, place]
    exact ⟨_, _, rfl, hi, rfl, theRec_place h hm hin⟩
  · simp only [hin, dite_false, place, if_false]
    exact ⟨_, _, rfl, hi, rfl, trivial⟩

/-- The place where JumpLower ends when it starts at `j`. -/
theorem lowerLoop_ok (key : Bytes) (inclusive : Bool) : ∀ (n : Nat) {d : Db} {s : S} {j : Nat} (r : Rec), Inv d s → (hj : j < s.stored.length) → j < n →
    r.key = s.stored[j].1 → r.offset = offs d.cfg s.stored j → r.whole = sizeAt d.cfg s.stored j →
    ∃ d' it' p, lowerLoop key inclusive n d r (r.offset, j, r.whole) = .ok (d', it', Out.of .success) ∧ Inv d' s ∧ d'.cfg = d.cfg ∧ IterOk d.cfg s.stored it' p ∧
      p = ((List.range (j + 1)).reverse.find? fun i => (s.stored[i]?).any fun x => if inclusive then !bytesLt key x.1 else bytesLt x.1 key)
  | 0, d, s, j, r, h, hj, hn, hk, ho, hw => by omega
  | n + 1, d, s, j, r, h, hj, hn, hk, ho, hw => by
    rw [lowerLoop, hk]
    rw [List.range_succ, List.reverse_append, List.reverse_singleton, List.singleton_append]
    by_cases hb : (if inclusive then !bytesLt key s.stored[j].1 else bytesLt s.stored[j].1 key) = true
    · rw [if_pos hb, List.find?_cons_of_pos (by simpa [List.getElem?_eq_getElem hj] using hb)]
      refine ⟨d, _, _, rfl, h, rfl, ?_, rfl⟩
      exact ⟨rfl, ho, by omega, Or.inr ⟨hj, hw⟩⟩
    · rw [if_neg hb, List.find?_cons_of_neg (by simpa [List.getElem?_eq_getElem hj] using hb)]
      by_cases h0 : j = 0
      · subst h0
        rw [if_pos rfl]
        exact ⟨d, none, none, rfl, h, rfl, trivial, by simp⟩
      · rw [if_neg h0]
        obtain ⟨md, cc, hm, hf, hi, e⟩ := searchByIndex_ok h (j - 1)
        have hl : j - 1 < s.stored.length := by omega
        rw [e, Rd.bind_ok]
        simp only [hl, if_true]
        obtain ⟨_, _, h1, h2, h3, h4⟩ := theRec_fields h.valid.ok hm h.fits (md := md) hl
        obtain ⟨d', it', p, e', hi', hc', hit, hp⟩ := lowerLoop_ok key inclusive n (theRec d.cfg md s.stored (j - 1)) hi hl (by omega) h2 h4 h1
        refine ⟨d', it', p, e', hi', hc', hit, ?_⟩
        rw [hp, Nat.sub_add_cancel (by omega)]

theorem find_down {P : Nat → Bool} (j : Nat) : ((List.range (j + 1)).reverse.find? P) = if P j then some j else (List.range j).reverse.find? P := by
  rw [List.range_succ, List.reverse_append, List.reverse_singleton, List.singleton_append, List.find?_cons]
  cases P j <;> rfl

theorem lower_found {recs : Recs} (hs : SortedRecs recs) (key : Bytes) (inclusive : Bool) {j : Nat} (hj : j < recs.length)
    (h : j = lowerIndex recs key ∨ (lowerIndex recs key = recs.length ∧ j = recs.length - 1)) :
    ((List.range (j + 1)).reverse.find? fun i => (recs[i]?).any fun x => if inclusive then !bytesLt key x.1 else bytesLt x.1 key) =
      lowerPlace recs key inclusive := by
  have below : ∀ i, i < lowerIndex recs key → (hi : i < recs.length) → (if inclusive then !bytesLt key recs[i].1 else bytesLt recs[i].1 key) = true := by
    intro i h1 hi
    have := lt_lowerIndex key hi h1
    cases inclusive with
    | false => simpa using this
    | true => simpa using bytesLt_weak.asymm this
  rcases h with rfl | ⟨he, rfl⟩
  · rw [find_down, List.getElem?_eq_getElem hj]
    have hge := at_lowerIndex key hj
    simp only [Option.any_some]
    by_cases hk : inclusive = true ∧ recs[lowerIndex recs key].1 = key
    · rw [if_pos (by rw [hk.1, hk.2]; simp [bytesLt_weak.irrefl]), lowerPlace, if_pos ⟨hk.1, by rw [List.getElem?_eq_getElem hj, Option.map_some, hk.2]⟩]
    · have hno : (if inclusive then !bytesLt key recs[lowerIndex recs key].1 else bytesLt recs[lowerIndex recs key].1 key) = false := by
        cases inclusive with
        | false => simpa using hge
        | true =>
          simp only [true_and] at hk
          rcases bytes_trichotomy key recs[lowerIndex recs key].1 with h2 | h2 | h2
          · simp [bytesLt, h2]
          · exact absurd h2.symm hk
          · simp [bytesLt, h2] at hge
      rw [if_neg (by rw [hno]; simp), lowerPlace, if_neg (by
        rintro ⟨h1, h2⟩
        rw [List.getElem?_eq_getElem hj, Option.map_some, Option.some.injEq] at h2
        exact hk ⟨h1, h2⟩)]
      by_cases h0 : lowerIndex recs key = 0
      · simp [h0]
      · rw [if_neg h0]
        have e : lowerIndex recs key = (lowerIndex recs key - 1) + 1 := by omega
        have hb := below (lowerIndex recs key - 1) (by omega) (by omega)
        conv => lhs; rw [e]
        rw [find_down, List.getElem?_eq_getElem (by omega)]
        simp only [Option.any_some]
        rw [if_pos hb]
  · rw [find_down, List.getElem?_eq_getElem hj]
    simp only [Option.any_some]
    rw [if_pos (below _ (by omega) hj), lowerPlace, he, if_neg (by simp), if_neg (by omega)]

theorem jumpLower_ok {d : Db} {s : S} (h : Inv d s) (ha : s.inOrder = true → s.pending = []) (it : Iter) (key : Bytes) (inclusive : Bool) :
    ∃ d' it', Iter.jumpLower it d key inclusive = .ok (d', it', Out.of .success) ∧ Inv d' s ∧ d'.cfg = d.cfg ∧
      IterOk d.cfg s.stored it' (lowerPlace s.stored key inclusive) := by
  have hn := num_eq h ha
  obtain ⟨md, cc, hm, hf, hi, e⟩ := search_ok h key true
  unfold Iter.jumpLower
  rw [e, Rd.bind_ok]
  by_cases hin : lowerIndex s.stored key < s.stored.length
  · simp only [hin, dite_true, true_or, if_true]
    obtain ⟨_, _, h1, h2, h3, h4⟩ := theRec_fields h.valid.ok hm h.fits (md := md) hin
    rw [h3]
    obtain ⟨d', it', p, e', hi', hc', hit, hp⟩ := lowerLoop_ok key inclusive (lowerIndex s.stored key + 1) _ hi hin (by omega) h2 h4 h1
    rw [lower_found h.stored key inclusive hin (Or.inl rfl)] at hp
    exact ⟨d', it', e', hi', hc', by rw [← hp]; exact hit⟩
  · simp only [hin, dite_false, hn]
    have he : lowerIndex s.stored key = s.stored.length := by have := lowerIndex_le s.stored key; omega
    by_cases h0 : s.stored.length < 1
    · rw [if_pos h0]
      refine ⟨_, none, rfl, hi, rfl, ?_⟩
      have : s.stored = [] := List.eq_nil_of_length_eq_zero (by omega)
      simp [lowerPlace, this, lowerIndex, IterOk]
    · rw [if_neg h0]
      obtain ⟨md2, cc2, hm2, hf2, hi2, e2⟩ := searchByIndex_ok hi (s.stored.length - 1)
      have hl : s.stored.length - 1 < s.stored.length := by omega
      rw [e2, Rd.bind_ok]
      simp only [hl, if_true]
      obtain ⟨_, _, h1, h2, h3, h4⟩ := theRec_fields h.valid.ok hm2 h.fits (md := md2) hl
      rw [h3]
      obtain ⟨d', it', p, e', hi', hc', hit, hp⟩ := lowerLoop_ok key inclusive (s.stored.length - 1 + 1) _ hi2 hl (by omega) h2 h4 h1
      rw [lower_found h.stored key inclusive hl (Or.inr ⟨he, rfl⟩)] at hp
      exact ⟨d', it', e', hi', hc', by rw [← hp]; exact hit⟩

theorem upperIndex_le (recs : Recs) (key : Bytes) : upperIndex recs key ≤ recs.length := (List.takeWhile_prefix _).length_le

theorem lt_upperIndex {recs : Recs} (key : Bytes) : ∀ {i : Nat} (h : i < recs.length), i < upperIndex recs key → bytesLt key recs[i].1 = false := by
  induction recs with
  | nil => intro i h; simp at h
  | cons r l ih =>
    intro i h hi
    unfold upperIndex at hi
    rw [List.takeWhile_cons] at hi
    split at hi
    · rename_i hr
      cases i with
      | zero => simpa using hr
      | succ i => exact ih (by simpa using h) (by simpa [upperIndex] using hi)
    · simp at hi

theorem at_upperIndex {recs : Recs} (key : Bytes) (h : upperIndex recs key < recs.length) : bytesLt key recs[upperIndex recs key].1 = true := by
  induction recs with
  | nil => simp [upperIndex] at h
  | cons r l ih =>
    cases hr : bytesLt key r.1 with
    | false =>
      have e : upperIndex (r :: l) key = upperIndex l key + 1 := by simp [upperIndex, List.takeWhile_cons, hr]
      have := ih (by simp [e] at h; exact h)
      simp [e, this]
    | true =>
      have e : upperIndex (r :: l) key = 0 := by simp [upperIndex, List.takeWhile_cons, hr]
      simp [e, hr]

theorem lower_le_upper (recs : Recs) (key : Bytes) : lowerIndex recs key ≤ upperIndex recs key := by
  have h1 := lowerIndex_le recs key
  rcases Nat.lt_or_ge (upperIndex recs key) (lowerIndex recs key) with h | h
  · have hu : upperIndex recs key < recs.length := by omega
    have a := at_upperIndex key hu
    have b := lt_lowerIndex key hu h
    rw [bytesLt_weak.asymm b] at a
    cases a
  · exact h

theorem upperLoop_ok {d : Db} {s : S} (h : Inv d s) (ha : s.inOrder = true → s.pending = []) (key : Bytes) (inclusive : Bool) :
    ∀ (n : Nat) {j : Nat} (r : Rec), (hj : j < s.stored.length) → s.stored.length < j + n → lowerIndex s.stored key ≤ j →
      j ≤ (if inclusive then lowerIndex s.stored key else upperIndex s.stored key) →
      r.key = s.stored[j].1 → r.index = j → r.offset = offs d.cfg s.stored j → r.whole = sizeAt d.cfg s.stored j →
      ∃ it', upperLoop key inclusive d n r = .ok (d, it', Out.of .success) ∧ IterOk d.cfg s.stored it' (upperPlace s.stored key inclusive)
  | 0, j, r, hj, hn, hlo, hup, hk, hx, ho, hw => by omega
  | n + 1, j, r, hj, hn, hlo, hup, hk, hx, ho, hw => by
    have hnum := num_eq h ha
    rw [upperLoop, hk]
    by_cases hb : j = (if inclusive then lowerIndex s.stored key else upperIndex s.stored key)
    · have : (if inclusive then !bytesLt s.stored[j].1 key else bytesLt key s.stored[j].1) = true := by
        cases inclusive with
        | true =>
          have := ge_lowerIndex h.stored key hj hlo
          simpa using this
        | false =>
          simp only [Bool.false_eq_true, if_false] at hb ⊢
          subst hb
          exact at_upperIndex key hj
      rw [if_pos this]
      refine ⟨_, rfl, ?_⟩
      rw [upperPlace, ← hb, place, if_pos hj]
      exact place_ok hj hx ho hw
    · have hinc : inclusive = false := by
        cases inclusive with
        | false => rfl
        | true =>
          simp only [if_true] at hup hb
          omega
      subst hinc
      simp only [Bool.false_eq_true, if_false] at hup hb
      have hlt : j < upperIndex s.stored key := by omega
      have hf : bytesLt key s.stored[j].1 = false := lt_upperIndex key hj hlt
      rw [if_neg (by simp [hf]), hnum, hx]
      by_cases hend : j + 1 = s.stored.length
      · rw [if_pos hend]
        refine ⟨none, rfl, ?_⟩
        have := upperIndex_le s.stored key
        rw [upperPlace, place, if_neg (by simp; omega)]
        trivial
      · rw [if_neg hend, ho, hw]
        obtain ⟨r', er, _, a1, a2, a3, a4⟩ := read_ok h (i := j + 1) (by omega)
        rw [show offs d.cfg s.stored j + sizeAt d.cfg s.stored j = offs d.cfg s.stored (j + 1) from rfl, er]
        exact upperLoop_ok h ha key false n r' (by omega) (by omega) (by omega) (by simp only [Bool.false_eq_true, if_false]; omega) a1 a2 a3 a4

theorem jumpUpper_ok {d : Db} {s : S} (h : Inv d s) (ha : s.inOrder = true → s.pending = []) (key : Bytes) (inclusive : Bool) :
    ∃ d' it', Iter.jumpUpper d key inclusive = .ok (d', it', Out.of .success) ∧ Inv d' s ∧ d'.cfg = d.cfg ∧
      IterOk d.cfg s.stored it' (upperPlace s.stored key inclusive) := by
  obtain ⟨md, cc, hm, hf, hi, e⟩ := search_ok h key true
  unfold Iter.jumpUpper
  rw [e, Rd.bind_ok]
  have hlu := lower_le_upper s.stored key
  by_cases hin : lowerIndex s.stored key < s.stored.length
  · simp only [hin, dite_true, true_or, if_true]
    obtain ⟨_, _, h1, h2, h3, h4⟩ := theRec_fields h.valid.ok hm h.fits (md := md) hin
    have hl := file_length h
    have := length_le_offs d.cfg s.stored s.stored.length (Nat.le_refl _)
    obtain ⟨it', e', hit⟩ := upperLoop_ok hi ha key inclusive (d.file.length + 1) _ hin (by omega) (Nat.le_refl _) (by split <;> omega) h2 h3 h4 h1
    exact ⟨_, it', e', hi, rfl, hit⟩
  · simp only [hin, dite_false]
    refine ⟨_, none, rfl, hi, rfl, ?_⟩
    rw [upperPlace, place, if_neg (by split <;> omega)]
    trivial

/-- Whether the iterator is at a record. -/
theorem at_ok {d : Db} {s : S} (h : Inv d s) {it : Iter} (hit : IterOk d.cfg s.stored it s.pos) :
    (s.cur = none ∧ it.at d = none) ∨
    ∃ j sz, ∃ hj : j < s.stored.length, s.pos = some j ∧ s.cur = some s.stored[j] ∧ it = some (offs d.cfg s.stored j, j, sz) ∧
      it.at d = some (offs d.cfg s.stored j, j, sz) ∧ (sz = 0 ∨ sz = sizeAt d.cfg s.stored j) := by
  have hl := file_length h
  cases it with
  | none =>
    cases hp : s.pos with
    | none => exact Or.inl ⟨by simp [S.cur, hp], rfl⟩
    | some j => rw [hp] at hit; exact hit.elim
  | some t =>
    obtain ⟨o, i, sz⟩ := t
    cases hp : s.pos with
    | none => rw [hp] at hit; exact hit.elim
    | some j =>
      rw [hp] at hit
      obtain ⟨rfl, rfl, hle, hsz⟩ := hit
      by_cases hj : i < s.stored.length
      · right
        have hlt : offs d.cfg s.stored i < offs d.cfg s.stored s.stored.length := offs_lt hj hj
        refine ⟨i, sz, hj, rfl, by simp [S.cur, hp, List.getElem?_eq_getElem hj], rfl, ?_, ?_⟩
        · rw [Iter.at, if_neg (by omega)]
        · rcases hsz with h1 | h1
          · exact Or.inl h1
          · exact Or.inr h1.2
      · left
        have he : i = s.stored.length := by omega
        refine ⟨by simp [S.cur, hp, he], ?_⟩
        rw [Iter.at, if_pos (by rw [he]; omega)]

theorem next_ok {d : Db} {s : S} (h : Inv d s) {it : Iter} (hit : IterOk d.cfg s.stored it s.pos) :
    ∃ it' s' o, Iter.next it d = .ok (d, it', o) ∧ Spec s .next s' o ∧ Inv d s' ∧ IterOk d.cfg s'.stored it' s'.pos := by
  rcases at_ok h hit with ⟨hc, ha⟩ | ⟨j, sz, hj, hp, hc, hi, ha, hsz⟩
  · refine ⟨it, s, Out.of .notFound, by simp [Iter.next, ha], ?_, h, hit⟩
    rw [Spec.eq_def]; simp only [hc]; exact ⟨trivial, trivial⟩
  · refine ⟨some (offs d.cfg s.stored (j + 1), j + 1, 0), { s with pos := s.pos.map (· + 1) }, Out.of .success, ?_, ?_, pos_inv h _, ?_⟩
    · simp only [Iter.next, ha]
      rcases hsz with rfl | rfl
      · obtain ⟨r, er, _, _, _, _, hw⟩ := read_ok h hj
        simp only [Nat.zero_lt_one, if_true, er, Rd.bind_ok, Rd.pure_eq, hw]
        rfl
      · have := sizeAt_pos (c := d.cfg) hj
        have hlt : ¬ sizeAt d.cfg s.stored j < 1 := by omega
        simp only [hlt, if_false, Rd.pure_eq, Rd.bind_ok]
        rfl
    · rw [Spec.eq_def]; simp only [hc]; exact ⟨trivial, trivial⟩
    · simp only [hp, Option.map_some, IterOk]
      exact ⟨trivial, trivial, by omega, Or.inl trivial⟩

theorem previous_ok {d : Db} {s : S} (h : Inv d s) {it : Iter} (hit : IterOk d.cfg s.stored it s.pos) :
    ∃ d' it' s' o, Iter.previous it d = .ok (d', it', o) ∧ Spec s .previous s' o ∧ Inv d' s' ∧ d'.cfg = d.cfg ∧ IterOk d.cfg s'.stored it' s'.pos := by
  rcases at_ok h hit with ⟨hc, ha⟩ | ⟨j, sz, hj, hp, hc, hi, ha, hsz⟩
  · refine ⟨d, it, s, Out.of .notFound, by simp [Iter.previous, ha], ?_, h, rfl, hit⟩
    rw [Spec.eq_def]; simp only [hc]; exact ⟨trivial, trivial⟩
  · have hspec : ∀ s', s' = { s with pos := s.pos.bind fun i => if i = 0 then none else some (i - 1) } → Spec s .previous s' (Out.of .success) := by
      intro s' hs'
      rw [Spec.eq_def]; simp only [hc]; exact ⟨hs', trivial⟩
    by_cases h0 : 0 < j
    · obtain ⟨md, cc, hm, hf, hi2, e⟩ := searchByIndex_ok h (j - 1)
      have hl : j - 1 < s.stored.length := by omega
      simp only [hl, if_true] at e
      obtain ⟨_, _, h1, h2, h3, h4⟩ := theRec_fields h.valid.ok hm h.fits (md := md) hl
      refine ⟨{ d with cache := cc }, some ((theRec d.cfg md s.stored (j - 1)).offset, j - 1, (theRec d.cfg md s.stored (j - 1)).whole),
        { s with pos := s.pos.bind fun i => if i = 0 then none else some (i - 1) }, Out.of .success, ?_, hspec _ rfl, pos_inv hi2 _, rfl, ?_⟩
      · simp only [Iter.previous, ha, h0, if_true, e, Rd.bind_ok]
        rfl
      · have hne : ¬ j = 0 := by omega
        simp only [hp, Option.bind_some, hne, if_false, IterOk]
        exact ⟨trivial, h4, by omega, Or.inr ⟨hl, h1⟩⟩
    · have hz : j = 0 := by omega
      refine ⟨d, none, { s with pos := s.pos.bind fun i => if i = 0 then none else some (i - 1) }, Out.of .success, ?_, hspec _ rfl, pos_inv h _, rfl, ?_⟩
      · simp only [Iter.previous, ha, h0, if_false]
      · simp [hp, hz, IterOk]

theorem iter_ok {d : Db} {s : S} (h : Inv d s) {it : Iter} (hit : IterOk d.cfg s.stored it s.pos) (proc : Bytes → Bytes → Action) (w : Bool)
    (hup : w = true → ∀ r, s.cur = some r → s.UpdOk r.1 (proc r.1 r.2)) :
    ∃ d' it' s' o, Iter.process it d proc w = .ok (d', it', o) ∧ Spec s (.iter proc w) s' o ∧ Inv d' s' ∧ d'.cfg = d.cfg ∧ IterOk d.cfg s'.stored it' s'.pos := by
  rcases at_ok h hit with ⟨hc, ha⟩ | ⟨j, sz, hj, hp, hc, hi, ha, hsz⟩
  · refine ⟨d, it, s, Out.of .notFound, by simp [Iter.process, ha], ?_, h, rfl, hit⟩
    rw [Spec.eq_def]; simp only [hc]; exact ⟨trivial, trivial⟩
  · obtain ⟨r, er, ev, hk, _, _, hw⟩ := read_ok h hj
    simp only [Iter.process, ha, er, Rd.bind_ok, ev, hk]
    cases w with
    | false =>
      refine ⟨d, _, s, _, rfl, ?_, h, rfl, ?_⟩
      · rw [Spec.eq_def]; simp only [hc]; exact ⟨by simp, trivial⟩
      · simp only [hp, IterOk]
        exact ⟨trivial, trivial, by omega, Or.inr ⟨hj, hw⟩⟩
    | true =>
      obtain ⟨d', e', hi', hc', _⟩ := update_inv h s.stored[j].1 (proc s.stored[j].1 s.stored[j].2) (hup rfl _ hc)
      have hst := act_stored s s.stored[j].1 (proc s.stored[j].1 s.stored[j].2)
      have hspec : ∀ s', s' = { s.act s.stored[j].1 (proc s.stored[j].1 s.stored[j].2) with
          pos := if proc s.stored[j].1 s.stored[j].2 = .remove then s.pos.map (· + 1) else s.pos } →
          Spec s (.iter proc true) s' ⟨.success, [(s.stored[j].1, some s.stored[j].2)], 0⟩ := by
        intro s' hs'
        rw [Spec.eq_def]; simp only [hc, if_true]; exact ⟨hs', trivial⟩
      simp only [if_true, e', Rd.bind_ok]
      by_cases hr : proc s.stored[j].1 s.stored[j].2 = .remove
      · rw [if_pos hr]
        refine ⟨d', _, _, _, rfl, hspec _ rfl, pos_inv hi' _, hc', ?_⟩
        simp only [hst.1]
        simp only [hr, if_true, hp, Option.map_some, hw]
        exact ⟨rfl, rfl, by omega, Or.inl rfl⟩
      · rw [if_neg hr]
        refine ⟨d', _, _, _, rfl, hspec _ rfl, pos_inv hi' _, hc', ?_⟩
        simp only [hst.1, hr, if_false, hp]
        exact ⟨rfl, rfl, by omega, Or.inr ⟨hj, hw⟩⟩

/-- Every call. -/
theorem step_ok {d : Db} {s : S} (h : Inv d s) {it : Iter} (hit : IterOk d.cfg s.stored it s.pos) (op : Op) (ha : Allowed s op) :
    ∃ d' it' s' o, step d it op = .ok (d', it', o) ∧ Spec s op s' o ∧ Inv d' s' ∧ IterOk d'.cfg s'.stored it' s'.pos := by
  have same : ∀ {d' : Db} {s' : S}, d'.cfg = d.cfg → s'.stored = s.stored → s'.pos = s.pos → IterOk d'.cfg s'.stored it s'.pos := by
    intro d' s' h1 h2 h3
    rw [h1, h2, h3]; exact hit
  have ifs : ∀ (w : Bool) (s1 : S), s1.stored = s.stored → s1.pos = s.pos → (if w then s1 else s).stored = s.stored ∧ (if w then s1 else s).pos = s.pos := by
    intro w s1 h1 h2
    cases w with
    | false => exact ⟨rfl, rfl⟩
    | true => exact ⟨h1, h2⟩
  cases op with
  | process key proc w =>
    obtain ⟨d', e, hi, hc⟩ := process_ok h key proc w ha
    have := ifs w (s.act key (proc (s.get key))) (act_stored _ _ _).1 (act_stored _ _ _).2.1
    exact ⟨d', it, _, _, by simp [step, e, Rd.bind_ok, Rd.pure_eq], ⟨rfl, rfl⟩, hi, same hc this.1 this.2⟩
  | insert key a =>
    obtain ⟨d', e, hi, hc, _⟩ := update_inv h key a ha
    exact ⟨d', it, _, _, by simp [step, Db.insert, e, Rd.bind_ok, Rd.pure_eq], ⟨rfl, rfl⟩, hi, same hc (act_stored _ _ _).1 (act_stored _ _ _).2.1⟩
  | getByIndex i =>
    obtain ⟨d', e, hi, hc⟩ := getByIndex_ok h i
    exact ⟨d', it, s, _, by simp only [step, e, Rd.bind_ok, Rd.pure_eq]; rfl, ⟨rfl, rfl⟩, hi, same hc rfl rfl⟩
  | processFirst proc w =>
    obtain ⟨d', s', o, e, hsp, hi, hc⟩ := processFirst_ok h proc w ha
    refine ⟨d', it, s', o, by simp [step, e, Rd.bind_ok, Rd.pure_eq], hsp, hi, ?_⟩
    rw [Spec.eq_def] at hsp
    simp only at hsp
    split at hsp
    · rename_i r _
      have := ifs w (s.act r.1 (proc r.1 r.2)) (act_stored _ _ _).1 (act_stored _ _ _).2.1
      exact same hc (by rw [hsp.1]; exact this.1) (by rw [hsp.1]; exact this.2)
    · exact same hc (by rw [hsp.1]) (by rw [hsp.1])
  | processEach proc w =>
    obtain ⟨d', e, hi, hc⟩ := processEach_ok h proc w ha
    have := ifs w (s.actEach proc s.stored) (actEach_stored _ _ _).1 (actEach_stored _ _ _).2
    exact ⟨d', it, _, _, by simp [step, e, Rd.bind_ok, Rd.pure_eq], ⟨rfl, rfl⟩, hi, same hc this.1 this.2⟩
  | count => exact ⟨d, it, s, _, rfl, ⟨rfl, by rw [Db.count, num_eq h ha]⟩, h, hit⟩
  | effSize => exact ⟨d, it, s, _, rfl, ⟨rfl, by rw [Db.effSize, eff_eq h ha, effOf]⟩, h, hit⟩
  | clear now =>
    obtain ⟨d', e, hi⟩ := clear_inv h ha now
    exact ⟨d', none, _, _, by simp [step, e, Rd.bind_ok, Rd.pure_eq], ⟨rfl, rfl⟩, hi, trivial⟩
  | sync now reducer =>
    obtain ⟨new, d', hn, e, hi⟩ := sync_inv h ha.1 now reducer ha.2.1 ha.2.2
    exact ⟨d', none, _, _, by simp [step, e, Rd.bind_ok, Rd.pure_eq], ⟨hn, rfl, rfl⟩, hi, trivial⟩
  | revert =>
    have hc : d.revert.cfg = d.cfg := by
      cases ho : d.inOrder <;> simp [Db.revert, Db.discardStorage, Db.prepareStorage, ho]
    exact ⟨_, it, _, _, rfl, ⟨rfl, rfl⟩, revert_inv h, same hc rfl rfl⟩
  | merge src =>
    obtain ⟨l, hl, hcl⟩ := ha
    obtain ⟨d', e, hi, hc⟩ := merge_inv h hl hcl
    exact ⟨d', it, _, _, by simp [step, e, Rd.bind_ok, Rd.pure_eq], ⟨⟨l, hl, rfl⟩, rfl⟩, hi, same hc rfl rfl⟩
  | rebuild now c =>
    obtain ⟨new, d', hn, e, hi⟩ := rebuild_inv h ha.1 now ha.2.1 ha.2.2
    exact ⟨d', none, _, _, by simp [step, e, Rd.bind_ok, Rd.pure_eq], ⟨hn, rfl, rfl⟩, hi, trivial⟩
  | reopen now p now' =>
    obtain ⟨new, m, F, hn, e, hcl, _⟩ := close_ok h ha.1 now
    obtain ⟨d', e2, hi, _⟩ := open_ok h.valid hcl (by rw [h.cfg]; exact ha.2 new hn) hn.1 (synced_clean h (by intro f hf; cases hf) hn) p now'
    rw [h.cfg] at hi
    exact ⟨d', none, _, _, by simp [step, e, e2, Rd.bind_ok, Rd.pure_eq], ⟨hn, rfl, rfl⟩, hi, trivial⟩
  | first =>
    refine ⟨d, Iter.first, _, _, rfl, ⟨rfl, rfl⟩, pos_inv h _, ?_⟩
    exact ⟨rfl, rfl, by omega, Or.inl rfl⟩
  | last =>
    obtain ⟨d', it', e, hi, hc, hit'⟩ := last_ok h ha it
    exact ⟨d', it', _, _, e, ⟨rfl, rfl⟩, pos_inv hi _, by rw [hc]; exact hit'⟩
  | jump key =>
    obtain ⟨d', it', e, hi, hc, hit'⟩ := jump_ok h key
    exact ⟨d', it', _, _, e, ⟨rfl, rfl⟩, pos_inv hi _, by rw [hc]; exact hit'⟩
  | jumpLower key inclusive =>
    obtain ⟨d', it', e, hi, hc, hit'⟩ := jumpLower_ok h ha it key inclusive
    exact ⟨d', it', _, _, e, ⟨rfl, rfl⟩, pos_inv hi _, by rw [hc]; exact hit'⟩
  | jumpUpper key inclusive =>
    obtain ⟨d', it', e, hi, hc, hit'⟩ := jumpUpper_ok h ha key inclusive
    exact ⟨d', it', _, _, e, ⟨rfl, rfl⟩, pos_inv hi _, by rw [hc]; exact hit'⟩
  | next =>
    obtain ⟨it', s', o, e, hs, hi, hit'⟩ := next_ok h hit
    exact ⟨d, it', s', o, e, hs, hi, hit'⟩
  | previous =>
    obtain ⟨d', it', s', o, e, hs, hi, hc, hit'⟩ := previous_ok h hit
    exact ⟨d', it', s', o, e, hs, hi, by rw [hc]; exact hit'⟩
  | iter proc w =>
    obtain ⟨d', it', s', o, e, hs, hi, hc, hit'⟩ := iter_ok h hit proc w ha
    exact ⟨d', it', s', o, e, hs, hi, by rw [hc]; exact hit'⟩

/-- A series of calls. -/
theorem run_ok : ∀ (ops : List Op) {d : Db} {s : S} {it : Iter}, Inv d s → IterOk d.cfg s.stored it s.pos → AllowedRun s ops →
    ∃ d' it' s' os, run d it ops = .ok (d', it', os) ∧ SpecRun s ops s' os ∧ Inv d' s' ∧ IterOk d'.cfg s'.stored it' s'.pos
  | [], d, s, it, h, hit, _ => ⟨d, it, s, [], rfl, ⟨rfl, rfl⟩, h, hit⟩
  | op :: rest, d, s, it, h, hit, ha => by
    obtain ⟨d1, it1, s1, o, e1, hs1, h1, hit1⟩ := step_ok h hit op ha.1
    obtain ⟨d2, it2, s2, os, e2, hs2, h2, hit2⟩ := run_ok rest h1 hit1 (ha.2 s1 o hs1)
    exact ⟨d2, it2, s2, o :: os, by simp [run, e1, e2, Rd.bind_ok, Rd.pure_eq], ⟨s1, o, os, hs1, hs2, rfl⟩, h2, hit2⟩

end Verif.Skip
