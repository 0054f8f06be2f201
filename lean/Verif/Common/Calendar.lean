/-
`GetDayOfWeek` (tkrzw_time_util.cc 84-90): C49.
-/
namespace Verif.Calendar

/-- A 32-bit signed result; `none` is overflow, which is undefined behaviour. -/
def i32 (x : Int) : Option Int := if -2147483648 ≤ x ∧ x ≤ 2147483647 then some x else none

/-- `GetDayOfWeek` (tkrzw_time_util.cc 84-90). `Int.tdiv` and `Int.tmod` are the division and the remainder of C++. The partial
sums are checked in the order in which the expression is evaluated. -/
def getDayOfWeek (year mon day : Int) : Option Int := do
  let (year, mon) ← if mon < 3 then do
      let y ← i32 (year - 1)
      let m ← i32 (mon + 12)
      pure (y, m)
    else pure (year, mon)
  let a ← i32 (13 * mon)
  let b ← i32 (8 + a)
  let c ← i32 (day + b.tdiv 5)
  let d ← i32 (year + year.tdiv 4)
  let e ← i32 (d - year.tdiv 100)
  let f ← i32 (e + year.tdiv 400)
  let g ← i32 (c + f)
  pure (g.tmod 7)

/-! ### SPECIFICATION: the Gregorian calendar -/

/-- A leap year is divisible by 4, except the years divisible by 100 but not by 400. -/
def leap (y : Int) : Bool := y % 4 = 0 && (y % 100 ≠ 0 || y % 400 = 0)

/-- The days of a month. -/
def monthDays (y m : Int) : Int :=
  if m = 2 then (if leap y then 29 else 28) else if m = 4 ∨ m = 6 ∨ m = 9 ∨ m = 11 then 30 else 31

structure Date where
  year : Int
  mon : Int
  day : Int
deriving Repr, DecidableEq

/-- A date of the calendar. -/
def Date.Valid (d : Date) : Prop := 1 ≤ d.mon ∧ d.mon ≤ 12 ∧ 1 ≤ d.day ∧ d.day ≤ monthDays d.year d.mon

instance (d : Date) : Decidable d.Valid := inferInstanceAs (Decidable (_ ∧ _))

/-- The next day. -/
def Date.next (d : Date) : Date :=
  if d.day < monthDays d.year d.mon then { d with day := d.day + 1 }
  else if d.mon < 12 then { d with mon := d.mon + 1, day := 1 }
  else { year := d.year + 1, mon := 1, day := 1 }

/-- `n` days later. -/
def Date.later (d : Date) : Nat → Date
  | 0 => d
  | n + 1 => (d.later n).next

/-! ### Proof -/

theorem i32_some {x : Int} (h : -2147483648 ≤ x ∧ x ≤ 2147483647) : i32 x = some x := if_pos h

/-- Without overflow the function computes Zeller's formula. -/
def zeller (year mon day : Int) : Int :=
  let y := if mon < 3 then year - 1 else year
  let m := if mon < 3 then mon + 12 else mon
  (day + (8 + 13 * m) / 5 + (y + y / 4 - y / 100 + y / 400)) % 7

theorem tdiv_eq {a b : Int} (h : 0 ≤ a) : a.tdiv b = a / b := Int.tdiv_eq_ediv_of_nonneg h
theorem tmod_eq {a b : Int} (h : 0 ≤ a) : a.tmod b = a % b := Int.tmod_eq_emod_of_nonneg h

theorem getDayOfWeek_eq {y m d : Int} (hy : 1 ≤ y) (hy2 : y ≤ 1500000000) (hm : 1 ≤ m) (hm2 : m ≤ 12) (hd : 1 ≤ d) (hd2 : d ≤ 31) :
    getDayOfWeek y m d = some (zeller y m d) := by
  unfold getDayOfWeek zeller
  by_cases h : m < 3
  · simp only [h, if_true]
    rw [i32_some (by omega), i32_some (by omega)]
    simp only [Option.bind_eq_bind, Option.bind_some, Option.pure_def]
    rw [i32_some (by omega)]; simp only [Option.bind_some]
    rw [i32_some (by omega)]; simp only [Option.bind_some]
    rw [tdiv_eq (by omega : (0:Int) ≤ 8 + 13 * (m + 12)), tdiv_eq (by omega : (0:Int) ≤ y - 1), tdiv_eq (by omega : (0:Int) ≤ y - 1),
      tdiv_eq (by omega : (0:Int) ≤ y - 1)]
    rw [i32_some (by omega)]; simp only [Option.bind_some]
    rw [i32_some (by omega)]; simp only [Option.bind_some]
    rw [i32_some (by omega)]; simp only [Option.bind_some]
    rw [i32_some (by omega)]; simp only [Option.bind_some]
    rw [i32_some (by omega)]; simp only [Option.bind_some]
    rw [tmod_eq (by omega)]
  · simp only [h, if_false]
    simp only [Option.bind_eq_bind, Option.bind_some, Option.pure_def]
    rw [i32_some (by omega)]; simp only [Option.bind_some]
    rw [i32_some (by omega)]; simp only [Option.bind_some]
    rw [tdiv_eq (by omega : (0:Int) ≤ 8 + 13 * m), tdiv_eq (by omega : (0:Int) ≤ y), tdiv_eq (by omega : (0:Int) ≤ y),
      tdiv_eq (by omega : (0:Int) ≤ y)]
    rw [i32_some (by omega)]; simp only [Option.bind_some]
    rw [i32_some (by omega)]; simp only [Option.bind_some]
    rw [i32_some (by omega)]; simp only [Option.bind_some]
    rw [i32_some (by omega)]; simp only [Option.bind_some]
    rw [i32_some (by omega)]; simp only [Option.bind_some]
    rw [tmod_eq (by omega)]

theorem monthDays_le (y m : Int) : monthDays y m ≤ 31 ∧ 28 ≤ monthDays y m := by
  unfold monthDays; repeat' split
  all_goals omega

theorem leap_iff (y : Int) : leap y = true ↔ y % 4 = 0 ∧ (y % 100 ≠ 0 ∨ y % 400 = 0) := by
  unfold leap; simp

theorem next_valid {d : Date} (h : d.Valid) : d.next.Valid := by
  unfold Date.Valid at h
  unfold Date.next
  have h28 := fun y m => (monthDays_le y m).2
  split
  · exact ⟨h.1, h.2.1, by dsimp only; omega, by dsimp only; omega⟩
  · split
    · exact ⟨by dsimp only; omega, by dsimp only; omega, by dsimp only; omega, by dsimp only; have := h28 d.year (d.mon + 1); omega⟩
    · exact ⟨by dsimp only; omega, by dsimp only; omega, by dsimp only; omega, by dsimp only; have := h28 (d.year + 1) 1; omega⟩

theorem zeller_next {d : Date} (h : d.Valid) :
    zeller d.next.year d.next.mon d.next.day = (zeller d.year d.mon d.day + 1) % 7 := by
  obtain ⟨y, m, dd⟩ := d
  obtain ⟨h1, h2, h3, h4⟩ := h
  dsimp only at h1 h2 h3 h4
  unfold Date.next zeller
  dsimp only
  have hl := leap_iff y
  by_cases hlt : dd < monthDays y m
  · rw [if_pos hlt]; dsimp only; split <;> omega
  · rw [if_neg hlt]
    have hm : m = 1 ∨ m = 2 ∨ m = 3 ∨ m = 4 ∨ m = 5 ∨ m = 6 ∨ m = 7 ∨ m = 8 ∨ m = 9 ∨ m = 10 ∨ m = 11 ∨ m = 12 := by omega
    unfold monthDays at hlt h4
    rcases hm with rfl | rfl | rfl | rfl | rfl | rfl | rfl | rfl | rfl | rfl | rfl | rfl
    case inr.inl =>
      simp at hlt h4 ⊢
      by_cases hly : leap y = true
      · rw [if_pos hly] at hlt h4
        obtain ⟨q1, q2⟩ := hl.1 hly
        have e1 : y / 4 = (y - 1) / 4 + 1 := by omega
        by_cases q3 : y % 100 = 0
        · have q4 : y % 400 = 0 := by omega
          have e2 : y / 100 = (y - 1) / 100 + 1 := by omega
          have e3 : y / 400 = (y - 1) / 400 + 1 := by omega
          rw [e1, e2, e3]; omega
        · have e2 : y / 100 = (y - 1) / 100 := by omega
          have e3 : y / 400 = (y - 1) / 400 := by omega
          rw [e1, e2, e3]; omega
      · rw [if_neg hly] at hlt h4
        have q := mt hl.2 hly
        by_cases q1 : y % 4 = 0
        · have q2 : y % 100 = 0 ∧ y % 400 ≠ 0 := by omega
          have e1 : y / 4 = (y - 1) / 4 + 1 := by omega
          have e2 : y / 100 = (y - 1) / 100 + 1 := by omega
          have e3 : y / 400 = (y - 1) / 400 := by omega
          rw [e1, e2, e3]; omega
        · have e1 : y / 4 = (y - 1) / 4 := by omega
          have e2 : y / 100 = (y - 1) / 100 := by omega
          have e3 : y / 400 = (y - 1) / 400 := by omega
          rw [e1, e2, e3]; omega
    all_goals (simp at hlt h4 ⊢; omega)

/-- C49: 1970-01-01 is a Thursday (4), and on every date from the year 1 on the weekday is the one of the day before plus one;
so `n` days after any date it has advanced by `n` modulo seven. -/
theorem C49_day_of_week (d : Date) (hv : d.Valid) (hy : 1 ≤ d.year) (n : Nat) (hy2 : (d.later n).year ≤ 1500000000) :
    getDayOfWeek 1970 1 1 = some 4 ∧
    ∃ w, 0 ≤ w ∧ w < 7 ∧ getDayOfWeek d.year d.mon d.day = some w ∧
      getDayOfWeek (d.later n).year (d.later n).mon (d.later n).day = some ((w + n) % 7) := by
  refine ⟨by decide, ?_⟩
  have key : ∀ n, (d.later n).Valid ∧ d.year ≤ (d.later n).year ∧
      zeller (d.later n).year (d.later n).mon (d.later n).day = (zeller d.year d.mon d.day + n) % 7 := by
    intro n
    induction n with
    | zero =>
      refine ⟨hv, Int.le_refl _, ?_⟩
      simp only [Date.later, zeller, Int.ofNat_zero, Int.natCast_zero, Int.add_zero, Int.emod_emod_of_dvd, Int.emod_emod]
      rfl
    | succ n ih =>
      obtain ⟨h1, h2, h3⟩ := ih
      refine ⟨next_valid h1, ?_, ?_⟩
      · refine Int.le_trans h2 ?_
        simp only [Date.later, Date.next]
        split
        · exact Int.le_refl _
        · split
          · exact Int.le_refl _
          · dsimp only; omega
      · simp only [Date.later]
        rw [zeller_next h1, h3]
        omega
  obtain ⟨h1, h2, h3⟩ := key n
  have hb := fun (d : Date) (h : d.Valid) => (⟨h.1, h.2.1, h.2.2.1, Int.le_trans h.2.2.2 (monthDays_le _ _).1⟩ : 1 ≤ d.mon ∧ d.mon ≤ 12 ∧ 1 ≤ d.day ∧ d.day ≤ 31)
  obtain ⟨a1, a2, a3, a4⟩ := hb d hv
  obtain ⟨b1, b2, b3, b4⟩ := hb _ h1
  refine ⟨zeller d.year d.mon d.day, ?_, ?_, getDayOfWeek_eq hy (by omega) a1 a2 a3 a4, ?_⟩
  · simp only [zeller]; omega
  · simp only [zeller]; omega
  · rw [getDayOfWeek_eq (by omega) hy2 b1 b2 b3 b4, h3]

/-- The hypotheses are met across the end of a century that is a leap year. -/
example : (⟨2000, 2, 28⟩ : Date).Valid ∧ (⟨2000, 2, 28⟩ : Date).later 2 = ⟨2000, 3, 1⟩ ∧ getDayOfWeek 2000 3 1 = some 3 ∧
    getDayOfWeek 2000 2 28 = some 1 := by decide

/-- Before the year 1 the function is wrong: it rounds to zero where the calendar needs rounding down. 0000-02-29 and the next day
0000-03-01 do not get consecutive weekdays. -/
theorem C49_year_zero_violated : (⟨0, 2, 29⟩ : Date).Valid ∧ (⟨0, 2, 29⟩ : Date).next = ⟨0, 3, 1⟩ ∧
    ∃ a b, getDayOfWeek 0 2 29 = some a ∧ getDayOfWeek 0 3 1 = some b ∧ b ≠ (a + 1) % 7 := by
  refine ⟨by decide, by decide, _, _, rfl, rfl, by decide⟩

end Verif.Calendar
