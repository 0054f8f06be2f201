import Verif.File.StdSpec
namespace Verif.StdFile
open Verif

theorem resize_length (b : Bytes) (n : Nat) : (resize b n).length = n := by
  simp [resize]; omega

theorem resize_get (b : Bytes) (n pos : Nat) (h : pos < n) :
    (resize b n)[pos]? = if pos < b.length then b[pos]? else some 0 := by
  rw [resize, List.getElem?_take_of_lt h]
  split
  · rename_i hp
    rw [List.getElem?_append_left hp]
  · rename_i hp
    rw [List.getElem?_append_right (by omega), List.getElem?_replicate, if_pos (by omega)]

theorem resize_le (b : Bytes) (n : Nat) (h : n ≤ b.length) : resize b n = b.take n := by
  have : n - b.length = 0 := by omega
  simp [resize, this]

theorem put_length (b : Bytes) (off : Nat) (d : Bytes) : (put b off d).length = max b.length (off + d.length) := by
  simp [put, resize_length]; omega

theorem put_before (b : Bytes) (off : Nat) (d : Bytes) (pos : Nat) (h : pos < off) :
    (put b off d)[pos]? = if pos < b.length then b[pos]? else some 0 := by
  rw [put, List.append_assoc, List.getElem?_append_left (by rw [resize_length]; exact h), resize_get _ _ _ h]

theorem put_at (b : Bytes) (off : Nat) (d : Bytes) (i : Nat) (h : i < d.length) : (put b off d)[off + i]? = d[i]? := by
  rw [put, List.append_assoc, List.getElem?_append_right (by rw [resize_length]; omega), resize_length,
    List.getElem?_append_left (by omega)]
  congr 1; omega

theorem put_after (b : Bytes) (off : Nat) (d : Bytes) (pos : Nat) (h : off + d.length ≤ pos) :
    (put b off d)[pos]? = b[pos]? := by
  rw [put, List.getElem?_append_right (by simp [resize_length]; omega), List.getElem?_drop]
  congr 1; simp [resize_length]; omega

theorem take_get (b : Bytes) (n pos : Nat) (h : pos < n) : (b.take n)[pos]? = b[pos]? := List.getElem?_take_of_lt h

theorem puts_put (fake : Bool) (b : Bytes) (n off : Nat) (d : Bytes) (hn : n ≤ b.length) (hf : fake = false → n = b.length) :
    Puts fake (b.take n) off d ((put b off d).take (max n (off + d.length))) := by
  have hl : (b.take n).length = n := by simp; omega
  constructor
  · rw [hl, List.length_take, put_length]; omega
  · intro i hi
    rw [take_get _ _ _ (by omega), put_at _ _ _ _ hi]
  · intro pos hp h
    rw [hl] at hp
    rw [take_get _ _ _ (by omega), take_get _ _ _ hp]
    rcases h with h | h
    · rw [put_before _ _ _ _ h, if_pos (by omega)]
    · rw [put_after _ _ _ _ h]
  · intro hk pos hp h
    rw [hl] at hp
    rw [take_get _ _ _ (by omega), put_before _ _ _ _ h, if_neg (by have := hf hk; omega)]

theorem grows_put (fake : Bool) (b : Bytes) (n m : Nat) (hm : n < m) (hn : n ≤ b.length) (hf : fake = false → n = b.length) :
    Grows fake (b.take n) m ((put b (m - 1) [0]).take m) := by
  have hl : (b.take n).length = n := by simp; omega
  constructor
  · rw [List.length_take, put_length, List.length_singleton]; omega
  · intro pos hp
    rw [hl] at hp
    rw [take_get _ _ _ (by omega), take_get _ _ _ hp, put_before _ _ _ _ (by omega), if_pos (by omega)]
  · intro hk pos hp h
    rw [hl] at hp
    rw [take_get _ _ _ (by omega)]
    by_cases e : pos = m - 1
    · subst e
      have := put_at b (m - 1) [0] 0 (by simp)
      simpa using this
    · rw [put_before _ _ _ _ (by omega), if_neg (by have := hf hk; omega)]

theorem Grows.puts {fake : Bool} {f : Bytes} {m : Nat} {f' : Bytes} (hm : f.length ≤ m) (h : Grows fake f m f') : Puts fake f m [] f' := by
  constructor
  · rw [h.len]; simp; omega
  · intro i hi; simp at hi
  · intro pos hp _; exact h.old pos hp
  · intro hk pos hp hl; exact h.zero hk pos hp hl

theorem Grows.refl (fake : Bool) (f : Bytes) : Grows fake f f.length f :=
  ⟨rfl, fun _ _ => rfl, fun _ _ h h' => by omega⟩

theorem Puts.refl (fake : Bool) (f : Bytes) (off : Nat) (h : off ≤ f.length) : Puts fake f off [] f :=
  ⟨by simp; omega, fun i hi => by simp at hi, fun _ _ _ => rfl, fun _ _ h h' => by omega⟩

theorem append_put (b : Bytes) (n : Nat) (d : Bytes) (hn : n ≤ b.length) :
    (put b n d).take (n + d.length) = b.take n ++ d := by
  rw [put, resize_le _ _ hn, List.take_append_of_le_length (by simp; omega), List.take_of_length_le (by simp; omega)]

theorem set_set (fs : Files) (p : Bytes) (x y : Option Bytes) : (fs.set p x).set p y = fs.set p y := by
  funext q; simp only [Files.set]; split <;> rfl

theorem set_self (fs : Files) (p : Bytes) (x : Option Bytes) : (fs.set p x) p = x := by simp [Files.set]

theorem set_same (fs : Files) (p : Bytes) (x : Option Bytes) (h : fs p = x) : fs.set p x = fs := by
  funext q; simp only [Files.set]; split
  · rename_i e; rw [e, h]
  · rfl

theorem isFile_of {fs : Files} {p b : Bytes} (hp : p ≠ []) (h : fs p = some b) : pathIsFile fs p = true := by
  simp [pathIsFile, hp, h]

/-- What an open file looks like to the caller. -/
structure Open (fake : Bool) (s : St) (v : View) (p b : Bytes) : Prop where
  file : s.file = some p
  disk : s.fs p = some b
  le : s.size ≤ b.length
  eq : fake = false → s.size = b.length
  ne : p ≠ []
  path : s.path = p ∨ s.path = []
  view : v = ⟨s.fs.set p (some (b.take s.size)), some ⟨p, s.writable, s.path ≠ []⟩⟩

def R (fake : Bool) (s : St) (v : View) : Prop :=
  (s.file = none ∧ v = ⟨s.fs, none⟩) ∨ ∃ p b, Open fake s v p b

theorem step_closed (fake : Bool) (s : St) (c : Call) (hc : s.file = none) :
    ∃ v', DoesClosed s.fs c v' (step s c).2 ∧ R fake (step s c).1 v' := by
  cases c with
  | open_ p w nc tr =>
    have hs : step s (.open_ p w nc tr) = openImpl s p w nc tr := by simp [step, hc]
    rw [hs]
    by_cases hp : p = []
    · subst hp
      have hx : pathIsFile s.fs [] = false := by simp [pathIsFile]
      cases w <;> cases nc <;> simp only [openImpl, hx, DoesClosed] <;>
        refine ⟨⟨s.fs, none⟩, by simp, Or.inl ⟨?_, rfl⟩⟩ <;> simp [hc]
    · cases hb : s.fs p with
      | none =>
        have hx : pathIsFile s.fs p = false := by simp [pathIsFile, hb]
        cases w
        · refine ⟨⟨s.fs, none⟩, ?_, Or.inl ⟨?_, ?_⟩⟩ <;> simp [DoesClosed, openImpl, hx, hp, hb, hc]
        · cases nc
          · refine ⟨⟨s.fs.set p (some []), some ⟨p, true, true⟩⟩, ?_, Or.inr ⟨p, [], ?_⟩⟩
            · simp [DoesClosed, openImpl, hx, hp, hb]
            · constructor <;> simp [openImpl, hx, hp, set_self, set_set]
          · refine ⟨⟨s.fs, none⟩, ?_, Or.inl ⟨?_, ?_⟩⟩ <;> simp [DoesClosed, openImpl, hx, hp, hb, hc]
      | some b =>
        have hx := isFile_of hp hb
        cases w
        · refine ⟨⟨s.fs, some ⟨p, false, true⟩⟩, ?_, Or.inr ⟨p, b, ?_⟩⟩
          · simp [DoesClosed, openImpl, hx, hp, hb]
          · constructor <;> simp [openImpl, hx, hp, hb, set_same]
        · cases tr
          · refine ⟨⟨s.fs.set p (some b), some ⟨p, true, true⟩⟩, ?_, Or.inr ⟨p, b, ?_⟩⟩
            · simp [DoesClosed, openImpl, hx, hp, hb]
            · constructor <;> simp [openImpl, hx, hp, hb]
          · refine ⟨⟨s.fs.set p (some []), some ⟨p, true, true⟩⟩, ?_, Or.inr ⟨p, [], ?_⟩⟩
            · simp [DoesClosed, openImpl, hx, hp, hb]
            · constructor <;> simp [openImpl, hx, hp, set_self, set_set]
  | _ => exact ⟨⟨s.fs, none⟩, by simp [DoesClosed, step, hc], Or.inl (by simp [step, hc])⟩

theorem closeImpl_fs {fake : Bool} {s : St} {v : View} {p b : Bytes} (h : Open fake s v p b) :
    ∃ f', Left fake ⟨p, s.writable, s.path ≠ []⟩ (b.take s.size) f' ∧ (closeImpl s).fs = s.fs.set p (some f') := by
  by_cases hw : s.writable = true ∧ s.path ≠ []
  · obtain ⟨hw, hp⟩ := hw
    have he : s.path = p := h.path.resolve_right hp
    refine ⟨b.take s.size, Or.inl rfl, ?_⟩
    simp [closeImpl, hw, he, h.ne, isFile_of h.ne h.disk, h.disk, resize_le _ _ h.le]
  · refine ⟨b, ?_, ?_⟩
    · cases fake with
      | false => left; rw [h.eq rfl, List.take_length]
      | true =>
        right
        refine ⟨rfl, ?_, List.take_prefix _ _⟩
        by_cases hx : s.writable = true
        · right; simpa using fun e => hw ⟨hx, e⟩
        · left; simpa using hx
    · rw [set_same _ _ _ h.disk]
      simp only [closeImpl]
      rw [if_neg]
      simp only [Bool.and_eq_true, decide_eq_true_eq, ne_eq]
      intro hx; exact hw ⟨hx.1.1, hx.1.2⟩

/-- A file that was opened again, with all of its bytes. -/
theorem open_existing (fake : Bool) (s : St) (p b : Bytes) (w nc : Bool) (hp : p ≠ []) (hb : s.fs p = some b) :
    (openImpl s p w nc false).2 = .done ∧ Open fake (openImpl s p w nc false).1 ⟨s.fs, some ⟨p, w, true⟩⟩ p b := by
  have hx := isFile_of hp hb
  cases w
  · refine ⟨by simp [openImpl, hx], ?_⟩
    constructor <;> simp [openImpl, hx, hp, hb, set_same]
  · refine ⟨by simp [openImpl, hx, hp], ?_⟩
    constructor <;> simp [openImpl, hx, hp, hb, set_same]

/-- The file on the disk has changed and with it the size. -/
theorem Open.change {fake : Bool} {s : St} {v : View} {p b : Bytes} (h : Open fake s v p b) (b' : Bytes) (n : Nat)
    (hn : n ≤ b'.length) (he : fake = false → n = b'.length) :
    R fake { s with fs := s.fs.set p (some b'), size := n }
      ⟨v.files.set p (some (b'.take n)), some ⟨p, s.writable, s.path ≠ []⟩⟩ := by
  refine Or.inr ⟨p, b', ⟨h.file, by simp [set_self], hn, he, h.ne, h.path, ?_⟩⟩
  rw [h.view]; simp [set_set]

theorem step_open (fake : Bool) (s : St) (v : View) (p b : Bytes) (c : Call) (h : Open fake s v p b) (hk : Kept fake c) :
    ∃ v', DoesOpen fake v.files ⟨p, s.writable, s.path ≠ []⟩ (b.take s.size) c v' (step s c).2 ∧ R fake (step s c).1 v' := by
  have hR : R fake s v := Or.inr ⟨p, b, h⟩
  have hv : v = ⟨v.files, some ⟨p, s.writable, s.path ≠ []⟩⟩ := by
    have := h.view; rw [this]
  have hl : (b.take s.size).length = s.size := by rw [List.length_take]; have := h.le; omega
  have hd : (s.fs p).getD [] = b := by rw [h.disk]; rfl
  have hle := h.le
  cases c with
  | open_ q w nc tr => exact ⟨v, by simp only [step, h.file]; exact ⟨hv, rfl⟩, by simpa only [step, h.file] using hR⟩
  | close =>
    obtain ⟨f', hL, hf⟩ := closeImpl_fs h
    refine ⟨⟨v.files.set p (some f'), none⟩, ?_, ?_⟩
    · simp only [step, h.file]; exact ⟨rfl, f', hL, rfl⟩
    · simp only [step, h.file]
      refine Or.inl ⟨rfl, ?_⟩
      rw [hf, h.view]; simp [set_set]
  | read off n =>
    refine ⟨v, ?_, by simpa only [step, h.file] using hR⟩
    simp only [step, h.file]
    refine ⟨hv, ?_⟩
    rw [hl]; unfold readImpl
    by_cases hx : off + n ≤ s.size
    · rw [if_pos hx, if_neg (by omega), hd]
      refine ⟨_, rfl, by simp; omega, fun i hi => ?_⟩
      rw [take_get _ _ _ hi, List.getElem?_drop, take_get _ _ _ (by omega)]
    · rw [if_neg hx, if_pos (by omega)]
  | write off data =>
    by_cases hw : s.writable = true
    · simp only [step, h.file, hw, if_true, DoesOpen, writeImpl]
      by_cases hdt : data = []
      · subst hdt
        rw [if_pos rfl]
        by_cases ho : off > s.size
        · rw [if_pos ho]
          have hm : max s.size (off - 1 + 1) = off := by omega
          have := h.change (put b (off - 1) [0]) off (by rw [put_length]; simp; omega)
            (fun e => by rw [put_length]; have := h.eq e; simp; omega)
          refine ⟨_, ⟨by trivial, (put b (off - 1) [0]).take off, ?_, rfl⟩, ?_⟩
          · exact (grows_put fake b s.size off ho h.le h.eq).puts (by omega)
          · rw [hw] at this; simp only [poke, hd, hm]; rw [hw]; exact this
        · rw [if_neg ho]
          refine ⟨v, ⟨by trivial, b.take s.size, Puts.refl _ _ _ (by omega), ?_⟩, hR⟩
          rw [set_same _ _ _ (by rw [h.view]; simp [set_self])]
          rw [hw] at hv; exact hv
      · rw [if_neg hdt]
        have h0 : 0 < data.length := List.length_pos_iff.mpr hdt
        have := h.change (put b off data) (max s.size (off + data.length)) (by rw [put_length]; omega)
            (fun e => by rw [put_length]; have := h.eq e; omega)
        refine ⟨_, ⟨by trivial, _, puts_put fake b s.size off data h.le h.eq, rfl⟩, ?_⟩
        rw [hw] at this; simp only [poke, hd]; rw [hw]; exact this
    · have hw : s.writable = false := by simpa using hw
      refine ⟨v, ?_, by simpa [step, h.file, hw] using hR⟩
      simp only [step, h.file, hw, DoesOpen]; rw [hw] at hv; simpa using hv
  | append data =>
    by_cases hw : s.writable = true
    · simp only [step, h.file, hw, if_true, DoesOpen, appendImpl]
      by_cases hdt : data = []
      · subst hdt
        rw [if_pos rfl]
        refine ⟨v, ⟨by rw [hl], ?_⟩, hR⟩
        rw [List.append_nil, set_same _ _ _ (by rw [h.view]; simp [set_self])]
        rw [hw] at hv; exact hv
      · rw [if_neg hdt]
        have h0 : 0 < data.length := List.length_pos_iff.mpr hdt
        have := h.change (put b s.size data) (s.size + data.length) (by rw [put_length]; omega)
            (fun e => by rw [put_length]; have := h.eq e; omega)
        refine ⟨_, ⟨by rw [hl], rfl⟩, ?_⟩
        rw [hw, append_put _ _ _ h.le] at this; simp only [poke, hd]; rw [hw]; exact this
    · have hw : s.writable = false := by simpa using hw
      refine ⟨v, ?_, by simpa [step, h.file, hw] using hR⟩
      simp only [step, h.file, hw, DoesOpen]; rw [hw] at hv; simpa using hv
  | expand n =>
    by_cases hw : s.writable = true
    · have hn : n ≠ 0 := hk
      simp only [step, h.file, hw, if_true, DoesOpen, expandImpl, if_neg hn]
      have := h.change (put b (s.size + n - 1) [0]) (s.size + n) (by rw [put_length]; simp; omega)
            (fun e => by rw [put_length]; have := h.eq e; simp; omega)
      refine ⟨_, ⟨by rw [hl], (put b (s.size + n - 1) [0]).take (s.size + n), ?_, rfl⟩, ?_⟩
      · rw [hl]; exact grows_put fake b s.size (s.size + n) (by omega) h.le h.eq
      · rw [hw] at this; simp only [poke, hd]; rw [hw]; exact this
    · have hw : s.writable = false := by simpa using hw
      refine ⟨v, ?_, by simpa [step, h.file, hw] using hR⟩
      simp only [step, h.file, hw, DoesOpen]; rw [hw] at hv; simpa using hv
  | truncate n =>
    by_cases hw : s.writable = true
    · simp only [step, h.file, hw, if_true, DoesOpen, truncateImpl, hl]
      by_cases he : n = s.size
      · have hy : s.size ≤ n := by omega
        rw [if_pos he]; simp only [if_pos hy]
        refine ⟨v, ⟨by trivial, b.take s.size, ?_, ?_⟩, hR⟩
        · have := Grows.refl fake (b.take s.size); rw [hl] at this; rw [he]; exact this
        · rw [set_same _ _ _ (by rw [h.view]; simp [set_self])]
          rw [hw] at hv; exact hv
      · rw [if_neg he]
        by_cases hg : n > s.size
        · have hy : s.size ≤ n := by omega
          rw [if_pos hg]; simp only [if_pos hy]
          have := h.change (put b (n - 1) [0]) n (by rw [put_length]; simp; omega)
            (fun e => by rw [put_length]; have := h.eq e; simp; omega)
          refine ⟨_, ⟨by trivial, _, grows_put fake b s.size n hg h.le h.eq, rfl⟩, ?_⟩
          rw [hw] at this; simp only [poke, hd]; rw [hw]; exact this
        · have hy : ¬ s.size ≤ n := by omega
          rw [if_neg hg]; simp only [if_neg hy]
          by_cases hp : s.path = []
          · have hx : pathIsFile s.fs s.path = false := by simp [pathIsFile, hp]
            have hz : ¬ decide (s.path ≠ []) = true := by simp [hp]
            have hu : (!pathIsFile s.fs s.path) = true := by simp [hx]
            rw [if_pos hu]; simp only [if_neg hz]
            refine ⟨v, ⟨?_, by trivial⟩, hR⟩
            rw [hw] at hv; exact hv
          · have hpp : s.path = p := h.path.resolve_right hp
            have hx : pathIsFile s.fs s.path = true := by rw [hpp]; exact isFile_of h.ne h.disk
            have hcl : (closeImpl s).fs = s.fs.set p (some (b.take s.size)) := by
              simp [closeImpl, hw, hpp, h.ne, isFile_of h.ne h.disk, h.disk, resize_le _ _ h.le]
            have hz : decide (s.path ≠ []) = true := by simpa using hp
            simp only [if_pos hz]
            have hu : ¬ (!pathIsFile s.fs s.path) = true := by simp [hx]
            rw [if_neg hu]
            simp only [hcl, hpp, set_self, set_set, Option.getD_some]
            rw [resize_le _ _ (by rw [hl]; omega)]
            generalize hc : ({ closeImpl s with fs := s.fs.set p (some ((b.take s.size).take n)) } : St) = cs
            have hcf : cs.fs = s.fs.set p (some ((b.take s.size).take n)) := by rw [← hc]
            obtain ⟨h1, h2⟩ := open_existing fake cs p ((b.take s.size).take n) true s.noCreate h.ne (by rw [hcf, set_self])
            refine ⟨_, ⟨h1, rfl⟩, Or.inr ⟨p, (b.take s.size).take n, ?_⟩⟩
            · have : (⟨v.files.set p (some ((b.take s.size).take n)), some ⟨p, true, decide (p ≠ [])⟩⟩ : View)
                  = ⟨cs.fs, some ⟨p, true, true⟩⟩ := by
                rw [hcf, h.view]; simp [set_set, h.ne]
              rw [this]; exact h2
    · have hw : s.writable = false := by simpa using hw
      refine ⟨v, ?_, by simpa [step, h.file, hw] using hR⟩
      simp only [step, h.file, hw, DoesOpen]; rw [hw] at hv; simpa using hv
  | truncateFakely n =>
    have hk : fake = true := hk
    simp only [step, h.file, DoesOpen, hl]
    by_cases hg : n > s.size
    · have hy : ¬ n ≤ s.size := by omega
      rw [if_pos hg]; simp only [if_neg hy]; exact ⟨v, ⟨hv, by trivial⟩, hR⟩
    · have hy : n ≤ s.size := by omega
      rw [if_neg hg]; simp only [if_pos hy]
      refine ⟨_, ⟨by trivial, rfl⟩, Or.inr ⟨p, b, rfl, h.disk, by show n ≤ _; omega, fun e => by simp [hk] at e, h.ne, h.path, ?_⟩⟩
      rw [h.view]; simp only [set_set, List.take_take]
      rw [Nat.min_eq_left (by omega)]
  | synchronize => exact ⟨v, by simp only [step, h.file]; exact ⟨hv, rfl⟩, by simpa only [step, h.file] using hR⟩
  | getSize => exact ⟨v, by simp only [step, h.file]; exact ⟨hv, by rw [hl]⟩, by simpa only [step, h.file] using hR⟩
  | getPath =>
    simp only [step, h.file, DoesOpen]
    rcases h.path with hp | hp
    · have : s.path ≠ [] := by rw [hp]; exact h.ne
      rw [if_neg this]; exact ⟨v, ⟨hv, by simp [this, hp, h.ne]⟩, hR⟩
    · rw [if_pos hp]; exact ⟨v, ⟨hv, by simp [hp]⟩, hR⟩
  | rename new ok =>
    obtain ⟨hn, rfl⟩ := hk
    simp only [step, h.file, DoesOpen]
    by_cases hp : s.path = []
    · have hz : ¬ decide (s.path ≠ []) = true := by simp [hp]
      rw [if_pos hp]; simp only [if_neg hz]; exact ⟨v, ⟨hv, by trivial⟩, hR⟩
    · have hpp : s.path = p := h.path.resolve_right hp
      have hz : decide (s.path ≠ []) = true := by simpa using hp
      rw [if_neg hp]; simp only [if_pos hz]
      obtain ⟨f', hL, hf⟩ := closeImpl_fs h
      simp only [renameImpl, Bool.true_and, decide_eq_true_eq, if_pos hn, hpp]
      have hr : renamed (closeImpl s).fs p new = (v.files.set p none).set new (some f') := by
        rw [renamed, hf, h.view]; simp [set_set, set_self]
      obtain ⟨h1, h2⟩ := open_existing fake { closeImpl s with fs := renamed (closeImpl s).fs p new } new f' s.writable s.noCreate hn
        (by show renamed (closeImpl s).fs p new new = _; rw [hr, set_self])
      refine ⟨_, ⟨h1, f', hpp ▸ hL, rfl⟩, Or.inr ⟨new, f', ?_⟩⟩
      have : (⟨(v.files.set p none).set new (some f'), some ⟨new, s.writable, decide (p ≠ [])⟩⟩ : View)
          = ⟨renamed (closeImpl s).fs p new, some ⟨new, s.writable, true⟩⟩ := by
        rw [hr]; simp [h.ne]
      rw [this]; exact h2
  | disablePath =>
    refine ⟨⟨v.files, some ⟨p, s.writable, false⟩⟩, by simp only [step, h.file]; exact ⟨rfl, rfl⟩, ?_⟩
    simp only [step, h.file]
    refine Or.inr ⟨p, b, rfl, h.disk, h.le, h.eq, h.ne, Or.inr rfl, ?_⟩
    rw [h.view]; simp
  | isOpen => exact ⟨v, by simp only [step, h.file]; exact ⟨hv, rfl⟩, by simpa only [step, h.file] using hR⟩

theorem step_does (fake : Bool) (s : St) (v : View) (c : Call) (h : R fake s v) (hk : Kept fake c) :
    ∃ v', Does fake v c v' (step s c).2 ∧ R fake (step s c).1 v' := by
  rcases h with ⟨hc, rfl⟩ | ⟨p, b, h⟩
  · exact step_closed fake s c hc
  · obtain ⟨v', h1, h2⟩ := step_open fake s v p b c h hk
    refine ⟨v', ?_, h2⟩
    rw [h.view] at h1 ⊢
    exact ⟨b.take s.size, by simp [set_self], h1⟩

theorem run_traces (fake : Bool) (cs : List Call) : ∀ (s : St) (v : View), R fake s v → (∀ c ∈ cs, Kept fake c) →
    ∃ w, Trace fake v cs w (run s cs).2 ∧ R fake (run s cs).1 w := by
  induction cs with
  | nil => intro s v h _; exact ⟨v, .nil v, h⟩
  | cons c cs ih =>
    intro s v h hk
    obtain ⟨v', h1, h2⟩ := step_does fake s v c h (hk c (by simp))
    obtain ⟨w, h3, h4⟩ := ih _ v' h2 (fun d hd => hk d (by simp [hd]))
    exact ⟨w, .cons h1 h3, h4⟩

end Verif.StdFile
