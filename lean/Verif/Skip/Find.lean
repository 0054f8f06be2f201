import Verif.Skip.Read
/-
The search over the skip links ends at the place the comparisons ask for.
-/
namespace Verif.Skip
open Verif

variable {c : Cfg} {md : Bytes} {recs : Recs}

/-- The answers of a probe lead to the record `t`. -/
structure ProbeOk (c : Cfg) (md : Bytes) (recs : Recs) (p : Probe) (t : Nat) : Prop where
  le : t ≤ recs.length
  go : ∀ i, i < recs.length → p.move i (theRec c md recs i) = .go → i ≤ t
  narrow : ∀ i, i < recs.length → p.move i (theRec c md recs i) = .narrow → t ≤ i ∧ (t = i → p.stop i (theRec c md recs i) ≠ .found)
  below : ∀ i, i < t → p.stop i (theRec c md recs i) = .next
  at_ : t < recs.length → p.stop t (theRec c md recs t) ≠ .next

/-- The end of the range is at or after the record `t`. -/
def EndOk (c : Cfg) (md : Bytes) (recs : Recs) (p : Probe) (t e : Nat) : Prop :=
  ∃ m, e = offs c recs m ∧ t ≤ m ∧ m ≤ recs.length ∧ (t = m → t < recs.length → p.stop t (theRec c md recs t) ≠ .found)

theorem tryLevels_spec (hc : c.Ok) (hm : md.length = metadataSize) (hfit : Fits c recs) {p : Probe} {t : Nat} (hp : ProbeOk c md recs p t)
    {i : Nat} : ∀ (l : Nat) (cc : Cache) (e : Nat), l ≤ c.level i → CacheOk c md recs cc → EndOk c md recs p t e →
    ∃ cc' e' out, CacheOk c md recs cc' ∧ EndOk c md recs p t e' ∧
      tryLevels c (image c md recs) p i ((List.range (c.level i)).map (link c recs i)) l cc e = (cc', .ok (e', out)) ∧
      (out = none ∨ ∃ i', i < i' ∧ i' ≤ t ∧ i' < recs.length ∧ out = some (offs c recs i', i', theRec c md recs i'))
  | 0, cc, e, _, hcc, he => ⟨cc, e, none, hcc, he, rfl, Or.inl rfl⟩
  | l + 1, cc, e, hl, hcc, he => by
    have hget : ((List.range (c.level i)).map (link c recs i)).getD l 0 = link c recs i l := by
      rw [List.getD_eq_getElem?_getD, List.getElem?_map, List.getElem?_range (by omega)]
      rfl
    rw [tryLevels]
    simp only [hget]
    split
    · exact tryLevels_spec hc hm hfit hp l cc e (by omega) hcc he
    · rename_i hcond
      have hlt : i + c.step ^ (l + 1) < recs.length := by
        rcases Nat.lt_or_ge (i + c.step ^ (l + 1)) recs.length with h | h
        · exact h
        · exact absurd (Or.inl (by rw [link, if_neg (by omega)])) hcond
      have hlink : link c recs i l = offs c recs (i + c.step ^ (l + 1)) := by rw [link, if_pos hlt]
      obtain ⟨cc', hcc', hfe⟩ := fetch_spec hc hm hfit hcc hlt
      rw [hlink, hfe]
      simp only
      have hpos : 0 < c.step ^ (l + 1) := Nat.pow_pos (by have := hc.step; omega)
      split
      · rename_i hmv
        exact ⟨cc', e, _, hcc', he, rfl, Or.inr ⟨_, by omega, hp.go _ hlt hmv, hlt, rfl⟩⟩
      · rename_i hmv
        refine tryLevels_spec hc hm hfit hp l cc' _ (by omega) hcc' ⟨_, rfl, (hp.narrow _ hlt hmv).1, by omega, ?_⟩
        intro ht _
        have := (hp.narrow _ hlt hmv).2 ht
        rw [← ht] at this
        exact this
      · exact tryLevels_spec hc hm hfit hp l cc' e (by omega) hcc' he

theorem theRec_fields (hc : c.Ok) (hm : md.length = metadataSize) (hfit : Fits c recs) {i : Nat} (h : i < recs.length) :
    (theRec c md recs i).skips = (List.range (c.level i)).map (link c recs i) ∧ (theRec c md recs i).level = c.level i ∧
    (theRec c md recs i).whole = sizeAt c recs i ∧ (theRec c md recs i).key = recs[i].1 ∧ (theRec c md recs i).index = i ∧
    (theRec c md recs i).offset = offs c recs i := by
  obtain ⟨o, _, he⟩ := theRec_eq hc hm hfit i h
  rw [he]
  exact ⟨rfl, rfl, rfl, rfl, rfl, rfl⟩

/-- Where the loop ends. -/
def endAt (c : Cfg) (md : Bytes) (recs : Recs) (p : Probe) (t : Nat) : LoopEnd :=
  if t < recs.length ∧ p.stop t (theRec c md recs t) = .found then .hit (theRec c md recs t) else .out (offs c recs t) t

theorem searchLoop_spec (hc : c.Ok) (hm : md.length = metadataSize) (hfit : Fits c recs) {p : Probe} {t : Nat} (hp : ProbeOk c md recs p t) :
    ∀ (n : Nat) (cc : Cache) (i e : Nat) (ready : Option Rec), recs.length < i + n → i ≤ t → CacheOk c md recs cc → EndOk c md recs p t e →
    (ready = none ∨ (i < recs.length ∧ ready = some (theRec c md recs i))) →
    ∃ cc', CacheOk c md recs cc' ∧ searchLoop c (image c md recs) p n cc (offs c recs i) i e ready = (cc', .ok (endAt c md recs p t))
  | 0, cc, i, e, ready, hn, hi, hcc, he, hr => by
    have := hp.le
    omega
  | n + 1, cc, i, e, ready, hn, hi, hcc, he, hr => by
    rw [searchLoop]
    obtain ⟨m, hem, htm, hmn, hne⟩ := he
    by_cases hle : e ≤ offs c recs i
    · have him : i = m := by
        rcases Nat.lt_or_ge i m with h | h
        · have := offs_lt (c := c) (recs := recs) h (by omega)
          omega
        · omega
      have hit : i = t := by omega
      subst hit
      refine ⟨cc, hcc, ?_⟩
      rw [if_pos hle, endAt, if_neg]
      rintro ⟨h1, h2⟩
      exact hne him h1 h2
    · rw [if_neg hle]
      have him : i < m := by
        rcases Nat.lt_or_ge i m with h | h
        · exact h
        · exact absurd (by rw [hem]; exact offs_mono c recs h) hle
      have hin : i < recs.length := by omega
      obtain ⟨cc1, hcc1, hf⟩ : ∃ cc1, CacheOk c md recs cc1 ∧
          current c (image c md recs) cc (offs c recs i) i ready = (cc1, .ok (theRec c md recs i)) := by
        rcases hr with rfl | ⟨_, rfl⟩
        · exact fetch_spec hc hm hfit hcc hin
        · exact ⟨cc, hcc, rfl⟩
      rw [hf]
      simp only
      obtain ⟨hsk, hlv, hwh, _, _, _⟩ := theRec_fields hc hm hfit hin
      by_cases hit : i = t
      · subst hit
        have hat := hp.at_ hin
        cases hst : p.stop i (theRec c md recs i) with
        | found => exact ⟨cc1, hcc1, by simp only [endAt]; rw [if_pos ⟨hin, hst⟩]⟩
        | leave => exact ⟨cc1, hcc1, by simp only [endAt]; rw [if_neg (by rw [hst]; rintro ⟨_, h⟩; cases h)]⟩
        | next => exact absurd hst hat
      · rw [hp.below i (by omega), hsk, hlv, hwh]
        simp only
        obtain ⟨cc2, e2, out, hcc2, he2, htl, hout⟩ := tryLevels_spec hc hm hfit hp (i := i) (c.level i) cc1 e (Nat.le_refl _) hcc1 ⟨m, hem, htm, hmn, hne⟩
        rw [htl]
        rcases hout with rfl | ⟨i', h1, h2, h3, rfl⟩
        · exact searchLoop_spec hc hm hfit hp n cc2 (i + 1) e2 none (by omega) (by omega) hcc2 he2 (Or.inl rfl)
        · exact searchLoop_spec hc hm hfit hp n cc2 i' e2 _ (by omega) h2 hcc2 he2 (Or.inr ⟨h3, rfl⟩)

theorem length_le_offs (c : Cfg) (recs : Recs) : ∀ i, i ≤ recs.length → i ≤ offs c recs i
  | 0, _ => Nat.zero_le _
  | i + 1, h => by
    have := length_le_offs c recs i (by omega)
    have := sizeAt_pos (c := c) (recs := recs) (i := i) (by omega)
    rw [offs]
    omega

theorem searchLoop_image (hc : c.Ok) (hm : md.length = metadataSize) (hfit : Fits c recs) {p : Probe} {t : Nat} (hp : ProbeOk c md recs p t)
    {cc : Cache} (hcc : CacheOk c md recs cc) :
    ∃ cc', CacheOk c md recs cc' ∧
      searchLoop c (image c md recs) p ((image c md recs).length + 1) cc metadataSize 0 (image c md recs).length none = (cc', .ok (endAt c md recs p t)) := by
  have hlen := image_length hc.w hm recs
  have := length_le_offs c recs recs.length (Nat.le_refl _)
  exact searchLoop_spec hc hm hfit hp _ cc 0 _ none (by omega) (by omega) hcc ⟨recs.length, hlen, hp.le, Nat.le_refl _, fun h1 h2 => absurd h1 (by omega)⟩ (Or.inl rfl)

/-- SPECIFICATION: the records are in ascending order of the key (equal keys are allowed). -/
def SortedRecs (recs : Recs) : Prop := recs.Pairwise fun a b => bytesLt b.1 a.1 = false

/-- SPECIFICATION: the place of the first record whose key is not less than the given one. -/
def lowerIndex (recs : Recs) (key : Bytes) : Nat := (recs.takeWhile fun r => bytesLt r.1 key).length

theorem lowerIndex_le (recs : Recs) (key : Bytes) : lowerIndex recs key ≤ recs.length := by
  unfold lowerIndex
  exact (List.takeWhile_prefix _).length_le

theorem lt_lowerIndex {recs : Recs} (key : Bytes) : ∀ {i : Nat} (h : i < recs.length), i < lowerIndex recs key → bytesLt recs[i].1 key = true := by
  induction recs with
  | nil => intro i h; simp at h
  | cons r l ih =>
    intro i h hi
    unfold lowerIndex at hi
    rw [List.takeWhile_cons] at hi
    split at hi
    · rename_i hr
      cases i with
      | zero => exact hr
      | succ i => exact ih (by simpa using h) (by simpa [lowerIndex] using hi)
    · simp at hi

theorem at_lowerIndex {recs : Recs} (key : Bytes) (h : lowerIndex recs key < recs.length) : bytesLt recs[lowerIndex recs key].1 key = false := by
  induction recs with
  | nil => simp [lowerIndex] at h
  | cons r l ih =>
    cases hr : bytesLt r.1 key with
    | true =>
      have e : lowerIndex (r :: l) key = lowerIndex l key + 1 := by simp [lowerIndex, List.takeWhile_cons, hr]
      have := ih (by simp [e] at h; exact h)
      simp [e, this]
    | false =>
      have e : lowerIndex (r :: l) key = 0 := by simp [lowerIndex, List.takeWhile_cons, hr]
      simp [e, hr]

theorem ge_lowerIndex {recs : Recs} (hs : SortedRecs recs) (key : Bytes) {i : Nat} (h : i < recs.length) (hi : lowerIndex recs key ≤ i) :
    bytesLt recs[i].1 key = false := by
  have h0 := at_lowerIndex (recs := recs) key (by omega)
  rcases Nat.eq_or_lt_of_le hi with h' | h'
  · have e : recs[i] = recs[lowerIndex recs key]'(by omega) := by simp only [h']
    rw [e]; exact h0
  · have h1 := List.pairwise_iff_getElem.1 hs _ _ (by omega) h h'
    cases hb : bytesLt recs[i].1 key with
    | false => rfl
    | true =>
      rcases bytesLt_weak.cotrans _ (recs[lowerIndex recs key]'(by omega)).1 _ hb with h2 | h2
      · rw [h1] at h2; cases h2
      · rw [h0] at h2; cases h2

theorem probeKey_ok (hc : c.Ok) (hm : md.length = metadataSize) (hfit : Fits c recs) (hs : SortedRecs recs) (key : Bytes) :
    ProbeOk c md recs (probeKey key) (lowerIndex recs key) where
  le := lowerIndex_le recs key
  go := by
    intro i hi h
    have hk := (theRec_fields hc hm hfit (md := md) hi).2.2.2.1
    simp only [probeKey, hk] at h
    rcases Nat.lt_or_ge (lowerIndex recs key) i with h' | h'
    · rw [ge_lowerIndex hs key hi (by omega)] at h
      simp only [Bool.false_eq_true, if_false] at h
      split at h <;> cases h
    · exact h'
  narrow := by
    intro i hi h
    have hk := (theRec_fields hc hm hfit (md := md) hi).2.2.2.1
    simp only [probeKey, hk] at h ⊢
    have hlt : bytesLt key recs[i].1 = true := by
      split at h
      · cases h
      · split at h
        · assumption
        · cases h
    refine ⟨?_, ?_⟩
    · rcases Nat.lt_or_ge i (lowerIndex recs key) with h' | h'
      · rw [lt_lowerIndex key hi h'] at h
        cases h
      · exact h'
    · intro _
      have hne : recs[i].1 ≠ key := by
        intro e
        rw [e, bytesLt_weak.irrefl] at hlt
        cases hlt
      rw [if_neg hne, if_pos hlt]
      intro h; cases h
  below := by
    intro i hi
    have hin : i < recs.length := by have := lowerIndex_le recs key; omega
    have hk := (theRec_fields hc hm hfit (md := md) hin).2.2.2.1
    have hlt := lt_lowerIndex key hin hi
    simp only [probeKey, hk]
    rw [if_neg (by intro e; rw [e, bytesLt_weak.irrefl] at hlt; cases hlt), if_neg (by rw [bytesLt_weak.asymm hlt]; simp)]
  at_ := by
    intro hin
    have hk := (theRec_fields hc hm hfit (md := md) hin).2.2.2.1
    have hge := at_lowerIndex key hin
    simp only [probeKey, hk]
    split
    · intro h; cases h
    · split
      · intro h; cases h
      · rename_i h1 h2
        exact absurd ((bytesLt_eqv _ _).1 (StrictWeak.eqv_iff.2 ⟨hge, by simpa using h2⟩)) h1

theorem probeIndex_ok (c : Cfg) (md : Bytes) (recs : Recs) (index : Nat) : ProbeOk c md recs (probeIndex index) (min index recs.length) where
  le := Nat.min_le_right _ _
  go := by
    intro i hi h
    simp only [probeIndex] at h
    split at h
    · omega
    · cases h
  narrow := by
    intro i hi h
    simp only [probeIndex] at h ⊢
    split at h
    · cases h
    · exact ⟨by omega, by intro h'; omega⟩
  below := by
    intro i hi
    simp only [probeIndex]
    rw [if_neg (by omega)]
  at_ := by
    intro h
    simp only [probeIndex]
    rw [if_pos (by omega)]
    intro h; cases h

/-- Search in a file. -/
theorem search_image (hc : c.Ok) (hm : md.length = metadataSize) (hfit : Fits c recs) (hs : SortedRecs recs) {cc : Cache} (hcc : CacheOk c md recs cc)
    (key : Bytes) (upper : Bool) :
    ∃ cc', CacheOk c md recs cc' ∧ search c (image c md recs) cc key upper = (cc', .ok
      (if h : lowerIndex recs key < recs.length then
        if upper = true ∨ recs[lowerIndex recs key].1 = key then some (theRec c md recs (lowerIndex recs key)) else none
       else none)) := by
  obtain ⟨cc1, hcc1, hl⟩ := searchLoop_image hc hm hfit (probeKey_ok hc hm hfit hs key) hcc
  have hlen := image_length hc.w hm recs
  unfold search
  rw [hl, endAt]
  by_cases hin : lowerIndex recs key < recs.length
  · rw [dif_pos hin]
    have hk := (theRec_fields hc hm hfit (md := md) hin).2.2.2.1
    by_cases hkey : recs[lowerIndex recs key].1 = key
    · rw [if_pos ⟨hin, by simp only [probeKey, hk]; rw [if_pos hkey]⟩]
      exact ⟨cc1, hcc1, by simp [hkey]⟩
    · rw [if_neg (by
        rintro ⟨_, h⟩
        simp only [probeKey, hk] at h
        rw [if_neg hkey] at h
        split at h <;> cases h)]
      simp only
      cases upper with
      | true =>
        obtain ⟨cc2, hcc2, hf⟩ := fetch_spec hc hm hfit hcc1 hin
        rw [if_pos ⟨rfl, by rw [hlen]; exact offs_lt hin hin⟩, hf]
        exact ⟨cc2, hcc2, by simp⟩
      | false => exact ⟨cc1, hcc1, by simp [hkey]⟩
  · rw [dif_neg hin, if_neg (by rintro ⟨h, _⟩; exact hin h)]
    simp only
    have he : lowerIndex recs key = recs.length := by have := lowerIndex_le recs key; omega
    rw [if_neg (by rw [hlen, he]; omega)]
    exact ⟨cc1, hcc1, rfl⟩

/-- Search by the index. -/
theorem searchByIndex_image (hc : c.Ok) (hm : md.length = metadataSize) (hfit : Fits c recs) {cc : Cache} (hcc : CacheOk c md recs cc) (index : Nat) :
    ∃ cc', CacheOk c md recs cc' ∧ searchByIndex c (image c md recs) cc index = (cc', .ok
      (if index < recs.length then some (theRec c md recs index) else none)) := by
  obtain ⟨cc1, hcc1, hl⟩ := searchLoop_image hc hm hfit (probeIndex_ok c md recs index) hcc
  refine ⟨cc1, hcc1, ?_⟩
  unfold searchByIndex
  rw [hl, endAt]
  by_cases hin : index < recs.length
  · have e : min index recs.length = index := by omega
    rw [e, if_pos ⟨hin, by simp [probeIndex]⟩, if_pos hin]
  · rw [if_neg (by rintro ⟨h, _⟩; omega), if_neg hin]

/-- Reading all the records. -/
theorem scanFrom_image (hc : c.Ok) (hm : md.length = metadataSize) (hfit : Fits c recs) : ∀ (n i : Nat), i ≤ recs.length → recs.length < i + n →
    scanFrom c (image c md recs) n (offs c recs i) i = .ok (recs.drop i)
  | 0, i, h1, h2 => by omega
  | n + 1, i, h1, h2 => by
    have hlen := image_length hc.w hm recs
    rw [scanFrom]
    by_cases hi : i = recs.length
    · subst hi
      rw [if_pos (by omega), List.drop_length]
    · have hin : i < recs.length := by omega
      have hlt := offs_lt (c := c) hin hin
      rw [if_neg (by omega), read_image hc hm hfit i hin, Rd.bind_ok, loadValue_image hc hm hfit i hin, Rd.bind_ok]
      obtain ⟨_, _, hwh, hk, _, _⟩ := theRec_fields hc hm hfit (md := md) hin
      rw [hwh, show offs c recs i + sizeAt c recs i = offs c recs (i + 1) from rfl, scanFrom_image hc hm hfit n (i + 1) (by omega) (by omega), Rd.bind_ok, hk,
        Rd.pure_eq, List.drop_eq_getElem_cons hin]

theorem scan_image (hc : c.Ok) (hm : md.length = metadataSize) (hfit : Fits c recs) : scan c (image c md recs) = .ok recs := by
  have hlen := image_length hc.w hm recs
  have := length_le_offs c recs recs.length (Nat.le_refl _)
  have := scanFrom_image hc hm hfit ((image c md recs).length + 1) 0 (by omega) (by omega)
  simpa [scan, offs] using this

end Verif.Skip
