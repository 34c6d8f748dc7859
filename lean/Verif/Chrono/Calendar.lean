import Verif.Chrono.HhMmSs

/-!
# C43: calendar rules
-/
namespace Verif.Chrono

/-! ## Specification: the Gregorian calendar -/

/-- leap years are the multiples of 4, except the multiples of 100 that are not multiples of 400 -/
def Spec.leap (y : Int) : Prop := 4 ∣ y ∧ (100 ∣ y → 400 ∣ y)

instance (y : Int) : Decidable (Spec.leap y) := by unfold Spec.leap; infer_instance

/-- days in each month of a Gregorian year -/
def Spec.monthLengths (y : Int) : List Int :=
  [31, if Spec.leap y then 29 else 28, 31, 30, 31, 30, 31, 31, 30, 31, 30, 31]

def Spec.daysInMonth (y : Int) (m : Nat) : Option Int := (Spec.monthLengths y)[m - 1]?

/-! ## The code against it -/

/-- C43, leap years: `is_leap` answers correctly exactly for the years that are multiples of 400 or are not leap
years at all; for every other leap year (2024, 2028, …) it says no. -/
theorem isLeap_partial (y : Int) :
    ((isLeap y = true ↔ Spec.leap y) ↔ (¬ 4 ∣ y ∨ 100 ∣ y)) ∧ (isLeap y = true → Spec.leap y) := by
  unfold isLeap Spec.leap
  simp only [decide_eq_true_eq]
  have e : y.tmod 400 = 0 ↔ (400 : Int) ∣ y := ⟨Int.dvd_of_tmod_eq_zero, Int.tmod_eq_zero_of_dvd⟩
  rw [e]
  omega

theorem isLeap_wrong_2024 : isLeap 2024 = false ∧ Spec.leap 2024 := by decide +kernel
/-- `is_leap` is wrong in every century: any multiple of 4 that is not a multiple of 100. -/
theorem isLeap_wrong (y : Int) (h4 : 4 ∣ y) (h100 : ¬ 100 ∣ y) : isLeap y = false ∧ Spec.leap y := by
  refine ⟨?_, h4, fun h => absurd h h100⟩
  unfold isLeap
  simp only [decide_eq_false_iff_not]
  intro h
  have := Int.dvd_of_tmod_eq_zero h
  omega
example : (4 : Int) ∣ 2028 ∧ ¬ (100 : Int) ∣ 2028 := by decide

/-- C43, last day of a month: the table gives the Gregorian length for every year and every month other than
September, and February outside leap years that are not multiples of 100.

Missing: those two, where the code is wrong (`lastDay_wrong`). -/
theorem lastDay_partial (y : Int) (m : Nat) (h1 : 1 ≤ m) (h12 : m ≤ 12) (h9 : m ≠ 9)
    (h2 : m = 2 → (¬ 4 ∣ y ∨ 100 ∣ y)) :
    Spec.daysInMonth y m = some (lastDay y m) := by
  have hm : m = 1 ∨ m = 2 ∨ m = 3 ∨ m = 4 ∨ m = 5 ∨ m = 6 ∨ m = 7 ∨ m = 8 ∨ m = 10 ∨ m = 11 ∨ m = 12 := by omega
  rcases hm with rfl | rfl | rfl | rfl | rfl | rfl | rfl | rfl | rfl | rfl | rfl <;>
    try (simp [Spec.daysInMonth, Spec.monthLengths, lastDay])
  have h := (isLeap_partial y).1.mpr (h2 rfl)
  by_cases hl : Spec.leap y
  · simp [hl, h.mpr hl]
  · have : isLeap y = false := by
      cases hb : isLeap y with
      | false => rfl
      | true => exact absurd (h.mp hb) hl
    simp [hl, this]

example : Spec.daysInMonth 2023 2 = some 28 ∧ lastDay 2023 2 = 28 ∧ lastDay 2000 2 = 29 ∧ lastDay 2023 4 = 30 := by
  decide +kernel

/-- September is given 31 days in every year; February 28 in every leap year that is not a multiple of 100. -/
theorem lastDay_wrong (y : Int) :
    (lastDay y 9 = 31 ∧ Spec.daysInMonth y 9 = some 30) ∧
    (4 ∣ y → ¬ 100 ∣ y → lastDay y 2 = 28 ∧ Spec.daysInMonth y 2 = some 29) := by
  refine ⟨⟨by simp [lastDay], by simp [Spec.daysInMonth, Spec.monthLengths]⟩, ?_⟩
  intro h4 h100
  obtain ⟨h, hl⟩ := isLeap_wrong y h4 h100
  exact ⟨by simp [lastDay, h], by simp [Spec.daysInMonth, Spec.monthLengths, hl]⟩

/-- C43, `ok()`: a month or day constructed from any value of 0…255 is ok exactly in 1…12 / 1…31; every year that
the 16-bit field can hold other than −32768 is ok. -/
theorem ok_exact :
    (∀ m : Int, 0 ≤ m → m < 256 → (monthOk (mkByte m) = true ↔ 1 ≤ m ∧ m ≤ 12)) ∧
    (∀ d : Int, 0 ≤ d → d < 256 → (dayOk (mkByte d) = true ↔ 1 ≤ d ∧ d ≤ 31)) ∧
    (∀ y : Int, -32768 ≤ y → y < 32768 → (yearOk (mkYear y) = true ↔ y ≠ -32768)) := by
  refine ⟨?_, ?_, ?_⟩
  · intro m h0 h1
    have : mkByte m = m := by unfold mkByte; rw [u8_cast]; omega
    simp [this, monthOk]
  · intro m h0 h1
    have : mkByte m = m := by unfold mkByte; rw [u8_cast]; omega
    simp [this, dayOk]
  · intro y h0 h1
    have : mkYear y = y := by
      unfold mkYear
      exact cast_eq (by decide) (by unfold Rep.inRange; simp; omega)
    simp [this, yearOk]; omega

/-- **Violation.** A wider argument wraps into the 8-bit (16-bit) field first: exactly which values then count as ok. -/
theorem ok_wraps (x : Int) :
    (monthOk (mkByte x) = true ↔ 1 ≤ x % 256 ∧ x % 256 ≤ 12) ∧ (dayOk (mkByte x) = true ↔ 1 ≤ x % 256 ∧ x % 256 ≤ 31) ∧
    (yearOk (mkYear x) = true ↔ x % 65536 ≠ 32768) := by
  refine ⟨?_, ?_, ?_⟩
  · simp [monthOk, mkByte, Rep.cast, u8]
  · simp [dayOk, mkByte, Rep.cast, u8]
  · simp only [yearOk, mkYear, Rep.cast, decide_eq_true_eq]
    simp only [Int.bmod]
    simp
    split <;> omega
/-- month 257 and day 287 are ok -/
example : monthOk (mkByte 257) = true ∧ dayOk (mkByte 287) = true := by decide +kernel

/-- A full date is accepted when each field is in its own range, so a day beyond the end of its month is accepted:
for *every* ok year, 31 February, 31 April and so on are `ok()`. -/
theorem ymdOk_accepts_impossible (y : Int) (hy : yearOk y = true) (m : Nat) (h1 : 1 ≤ m) (h12 : m ≤ 12) :
    ymdOk y m 31 = true ∧ (Spec.daysInMonth y m = some 31 ↔ m ∉ [2, 4, 6, 9, 11]) := by
  have hm : m = 1 ∨ m = 2 ∨ m = 3 ∨ m = 4 ∨ m = 5 ∨ m = 6 ∨ m = 7 ∨ m = 8 ∨ m = 9 ∨ m = 10 ∨ m = 11 ∨ m = 12 := by
    omega
  rcases hm with rfl | rfl | rfl | rfl | rfl | rfl | rfl | rfl | rfl | rfl | rfl | rfl <;>
    simp [Spec.daysInMonth, Spec.monthLengths, ymdOk, monthOk, dayOk, hy]
  split <;> decide

/-- What a full date's `ok()` does check: every field is in its own range. -/
theorem ymdOk_iff (y m d : Int) :
    ymdOk y m d = true ↔ -32767 ≤ y ∧ (1 ≤ m ∧ m ≤ 12) ∧ (1 ≤ d ∧ d ≤ 31) := by
  simp [ymdOk, dayOk, monthOk, yearOk]; omega

/-- but no really valid date is refused: -/
theorem ymdOk_complete (y : Int) (m : Nat) (d n : Int) (hy : -32767 ≤ y) (h1 : 1 ≤ m) (hd : 1 ≤ d)
    (hn : Spec.daysInMonth y m = some n) (hdn : d ≤ n) : ymdOk y m d = true := by
  have h12 : m ≤ 12 := by
    have := (List.getElem?_eq_some_iff.mp hn).1
    simp [Spec.monthLengths] at this
    omega
  have hmem := List.mem_of_getElem? hn
  have : n ≤ 31 := by
    simp only [Spec.monthLengths, List.mem_cons, List.not_mem_nil, or_false] at hmem
    rcases hmem with h | h | h | h | h | h | h | h | h | h | h | h <;> try omega
  simp [ymdOk, dayOk, monthOk, yearOk]
  omega
example : Spec.daysInMonth 2024 2 = some 29 ∧ ymdOk 2024 2 29 = true := by decide +kernel

/-- Splitting a day count since the epoch into year/month/day uses average months and years, so the calendar date is
wrong soon after the epoch: day 59 (1 March 1970) comes out as 29 February 1970. -/
theorem ymd_from_days_wrong :
    ymdYear 59 = some 1970 ∧ ymdMonth 59 = some 2 ∧ ymdDay 59 = some 29 ∧
    Spec.daysInMonth 1970 1 = some 31 ∧ Spec.daysInMonth 1970 2 = some 28 := by decide +kernel

/-! ## Splitting a day count -/

private theorem i32_cast {x : Int} (h : -2147483648 ≤ x ∧ x < 2147483648) : (⟨32, true⟩ : Rep).cast x = x :=
  cast_eq (by decide) (by unfold Rep.inRange; simpa using h)

private theorem i16_cast {x : Int} (h : -32768 ≤ x ∧ x < 32768) : (⟨16, true⟩ : Rep).cast x = x :=
  cast_eq (by decide) (by unfold Rep.inRange; simpa using h)

private theorem tdivC (x b : Int) (_ : 0 < b) :
    (0 ≤ x → x.tdiv b = x / b) ∧ (x < 0 → x.tdiv b = -((-x) / b)) := by
  refine ⟨fun h => Int.tdiv_eq_ediv_of_nonneg h, fun h => ?_⟩
  rw [← Int.tdiv_eq_ediv_of_nonneg (by omega), Int.neg_tdiv, Int.neg_neg]

private theorem conv32 {rep r' : Rep} {p q : Ratio} {n a b : Int} (hr : ratioDivide p q = ⟨a, b⟩)
    (hc : condType rep r' = ⟨32, true⟩)
    (hn : -2147483648 ≤ n ∧ n < 2147483648) (ha : -2147483648 ≤ a ∧ a < 2147483648) :
    (Dur.mk r' p n).convert rep q = some ⟨rep, q, rep.cast ((n * a).tdiv b)⟩ := by
  have hx : i64.inRange (n * a) := by
    unfold Rep.inRange
    simp only [i64, if_true]
    have h1 : (n * a).natAbs ≤ 2147483648 * 2147483648 := by
      rw [Int.natAbs_mul]; exact Nat.mul_le_mul (by omega) (by omega)
    omega
  unfold Dur.convert Dur.scale
  simp only [hr, hc, i32_cast hn]
  rw [if_neg (by decide), if_pos hx]
  rfl

theorem ymdYear_value (n : Int) (h : -1342177 ≤ n ∧ n ≤ 1342177) :
    ymdYear n = some (1970 + (n * 400).tdiv 146097) := by
  unfold ymdYear daysDur
  rw [conv32 (a := 400) (b := 146097) (by decide +kernel) (by decide) (by omega) (by omega)]
  have t1 := tdivC (n * 400) 146097 (by decide)
  have hb : -3675 ≤ (n * 400).tdiv 146097 ∧ (n * 400).tdiv 146097 ≤ 3675 := by omega
  simp only [Option.map_some, mkYear]
  rw [i16_cast (x := (n * 400).tdiv 146097) (by omega), i16_cast (x := (n * 400).tdiv 146097) (by omega),
    i16_cast (by omega), Int.add_comm]

theorem ymdMonth_value (n : Int) (h : -1342177 ≤ n ∧ n ≤ 1342177) :
    ymdMonth n = some (mkByte (((n - ((n * 400).tdiv 146097 * 146097).tdiv 400) * 1600).tdiv 48699 + 1)) := by
  have t1 := tdivC (n * 400) 146097 (by decide)
  have t2 := tdivC ((n * 400).tdiv 146097 * 146097) 400 (by decide)
  have t1b : -3675 ≤ (n * 400).tdiv 146097 ∧ (n * 400).tdiv 146097 ≤ 3675 := by omega
  have hyb : -1342293 ≤ ((n * 400).tdiv 146097 * 146097).tdiv 400 ∧
      ((n * 400).tdiv 146097 * 146097).tdiv 400 ≤ 1342293 := by
    clear t1; omega
  unfold ymdMonth
  have e : (daysDur n).convert ⟨16, true⟩ ⟨31556952, 1⟩ =
      some ⟨⟨16, true⟩, ⟨31556952, 1⟩, (n * 400).tdiv 146097⟩ := by
    unfold daysDur
    rw [conv32 (a := 400) (b := 146097) (by decide +kernel) (by decide) (by omega) (by omega)]
    rw [i16_cast (by clear t2 hyb; omega)]
  rw [e]
  simp only
  rw [conv32 (a := 146097) (b := 400) (by decide +kernel) (by decide) (by clear t1 t2; omega) (by omega)]
  simp only
  rw [i32_cast (by clear t1 t2; omega)]
  generalize hy : ((n * 400).tdiv 146097 * 146097).tdiv 400 = y at hyb ⊢
  clear t1 t2 t1b e
  have t3 := tdivC ((n - y) * 1600) 48699 (by decide)
  unfold Dur.sub toCommon daysDur
  simp only
  rw [show commonRep ⟨32, true⟩ ⟨32, true⟩ = ⟨32, true⟩ by decide,
    show commonPeriod ⟨86400, 1⟩ ⟨86400, 1⟩ = ⟨86400, 1⟩ by decide +kernel]
  rw [conv32 (a := 1) (b := 1) (by decide +kernel) (by decide) (by omega) (by omega),
    conv32 (a := 1) (b := 1) (by decide +kernel) (by decide) (by omega) (by omega)]
  simp only [Int.mul_one, Int.tdiv_one]
  rw [i32_cast (by omega), i32_cast (by omega), arith_eq (by decide) (by unfold Rep.inRange; simp; omega)]
  simp only [Option.map_some]
  rw [conv32 (a := 1600) (b := 48699) (by decide +kernel) (by decide) (by omega) (by omega)]
  simp only [Option.map_some]
  rw [i32_cast (by omega)]

theorem ymdDay_value (n : Int) (h : -1342177 ≤ n ∧ n ≤ 1342177) :
    ymdDay n = some (mkByte (((n * 1600).tmod 48699).tdiv 1600 + 1)) := by
  have t1 := tdivC (n * 1600) 48699 (by decide)
  unfold ymdDay
  have e : (daysDur n).convert ⟨32, true⟩ ⟨2629746, 1⟩ =
      some ⟨⟨32, true⟩, ⟨2629746, 1⟩, (n * 1600).tdiv 48699⟩ := by
    unfold daysDur
    rw [conv32 (a := 1600) (b := 48699) (by decide +kernel) (by decide) (by omega) (by omega)]
    rw [i32_cast (by omega)]
  rw [e]
  simp only
  generalize hm : (n * 1600).tdiv 48699 = m
  have hr : (n * 1600).tmod 48699 = n * 1600 - m * 48699 := by
    have := Int.tmod_def (n * 1600) 48699
    rw [hm] at this
    omega
  have t2 := tdivC ((n * 1600).tmod 48699) 1600 (by decide)
  have hb : -48699 < (n * 1600).tmod 48699 ∧ (n * 1600).tmod 48699 < 48699 :=
    ⟨Int.lt_tmod_of_pos _ (by decide), Int.tmod_lt_of_pos _ (by decide)⟩
  have hmb : -44097 ≤ m ∧ m ≤ 44097 := by clear t2 hb hr; omega
  clear t1 e
  have hb2 : -31 ≤ ((n * 1600).tmod 48699).tdiv 1600 ∧ ((n * 1600).tmod 48699).tdiv 1600 ≤ 31 := by
    clear hr; omega
  clear t2
  unfold Dur.sub toCommon daysDur
  simp only
  rw [show commonRep ⟨32, true⟩ ⟨32, true⟩ = ⟨32, true⟩ by decide,
    show commonPeriod ⟨86400, 1⟩ ⟨2629746, 1⟩ = ⟨54, 1⟩ by decide +kernel]
  rw [conv32 (a := 1600) (b := 1) (by decide +kernel) (by decide) (by omega) (by omega),
    conv32 (a := 48699) (b := 1) (by decide +kernel) (by decide) (by omega) (by omega)]
  simp only [Int.tdiv_one]
  rw [i32_cast (by omega), i32_cast (by omega), ← hr, arith_eq (by decide) (by unfold Rep.inRange; simp; omega)]
  simp only [Option.map_some]
  rw [conv32 (a := 1) (b := 1600) (by decide +kernel) (by decide) (by omega) (by omega)]
  simp only [Option.map_some, Int.mul_one]
  rw [i32_cast (by omega)]


/-- Specification: the day after a date. -/
def Spec.next (p : Int × Nat × Int) : Int × Nat × Int :=
  if Spec.daysInMonth p.1 p.2.1 = some p.2.2 then (if p.2.1 = 12 then (p.1 + 1, 1, 1) else (p.1, p.2.1 + 1, 1))
  else (p.1, p.2.1, p.2.2 + 1)

/-- Specification: the date `n` days after 1 January 1970. -/
def Spec.date : Nat → Int × Nat × Int
  | 0 => (1970, 1, 1)
  | n + 1 => Spec.next (Spec.date n)

example : Spec.date 59 = (1970, 3, 1) ∧ Spec.date 365 = (1971, 1, 1) ∧ Spec.date 789 = (1972, 2, 29) := by decide +kernel

/-- C43, splitting a day count: what `year()`, `month()` and `day()` answer for every day from the epoch on for as long as
the intermediate 32-bit counts last (3674 years): elapsed *average* years and months.  The day is always in
its range; the month is except when 366 days have gone since the truncated start of the year (`ymd_month_thirteen`). -/
theorem ymd_from_days (n : Int) (h0 : 0 ≤ n) (h : n ≤ 1342177) :
    ymdYear n = some (1970 + n * 400 / 146097) ∧
    ymdMonth n = some ((n - n * 400 / 146097 * 146097 / 400) * 1600 / 48699 + 1) ∧
    ymdDay n = some (n * 1600 % 48699 / 1600 + 1) ∧
    (monthOk ((n - n * 400 / 146097 * 146097 / 400) * 1600 / 48699 + 1) = true ↔
      n - n * 400 / 146097 * 146097 / 400 ≠ 366) ∧
    dayOk (n * 1600 % 48699 / 1600 + 1) = true := by
  have e1 : (n * 400).tdiv 146097 = n * 400 / 146097 := Int.tdiv_eq_ediv_of_nonneg (by omega)
  have e2 : (n * 400 / 146097 * 146097).tdiv 400 = n * 400 / 146097 * 146097 / 400 :=
    Int.tdiv_eq_ediv_of_nonneg (by omega)
  have e3 : (n * 1600).tmod 48699 = n * 1600 % 48699 := Int.tmod_eq_emod_of_nonneg (by omega)
  have e4 : (n * 1600 % 48699).tdiv 1600 = n * 1600 % 48699 / 1600 := Int.tdiv_eq_ediv_of_nonneg (by omega)
  have b1 : 0 ≤ n - n * 400 / 146097 * 146097 / 400 ∧ n - n * 400 / 146097 * 146097 / 400 ≤ 366 := by omega
  have e5 : ((n - n * 400 / 146097 * 146097 / 400) * 1600).tdiv 48699 =
      (n - n * 400 / 146097 * 146097 / 400) * 1600 / 48699 := Int.tdiv_eq_ediv_of_nonneg (by omega)
  have b2 : 0 ≤ (n - n * 400 / 146097 * 146097 / 400) * 1600 / 48699 ∧
      (n - n * 400 / 146097 * 146097 / 400) * 1600 / 48699 ≤ 12 := by
    generalize n - n * 400 / 146097 * 146097 / 400 = z at b1; omega
  have b3 : 0 ≤ n * 1600 % 48699 / 1600 ∧ n * 1600 % 48699 / 1600 ≤ 30 := by omega
  have mk : ∀ x : Int, 0 ≤ x → x < 256 → mkByte x = x := by
    intro x hx hx'; unfold mkByte; rw [u8_cast]; omega
  refine ⟨?_, ?_, ?_, ?_, ?_⟩
  · rw [ymdYear_value n (by omega), e1]
  · rw [ymdMonth_value n (by omega), e1, e2, e5, mk _ (by omega) (by omega)]
  · rw [ymdDay_value n (by omega), e3, e4, mk _ (by omega) (by omega)]
  · generalize n - n * 400 / 146097 * 146097 / 400 = z at b1
    simp only [monthOk, Bool.and_eq_true, decide_eq_true_eq]; omega
  · simp only [dayOk, Bool.and_eq_true, decide_eq_true_eq]; omega

example : ymdYear 20000 = some 2024 ∧ ymdMonth 20000 = some 10 ∧ ymdDay 20000 = some 3 := by decide +kernel

/-- **Violation.** 1 January 1975 comes out in month 13 of 1974, and so does a day in every four hundred years. -/
theorem ymd_month_thirteen (k : Int) (h0 : 0 ≤ k) (h : k ≤ 9) :
    ymdYear (1826 + 146097 * k) = some (1974 + 400 * k) ∧ ymdMonth (1826 + 146097 * k) = some 13 ∧
      monthOk 13 = false := by
  obtain ⟨h1, h2, -⟩ := ymd_from_days (1826 + 146097 * k) (by omega) (by omega)
  have e : (1826 + 146097 * k) * 400 / 146097 = 4 + 400 * k := by omega
  have e2 : (4 + 400 * k) * 146097 / 400 = 1460 + 146097 * k := by omega
  rw [h1, h2, e, e2]
  refine ⟨by congr 1; omega, ?_, by decide⟩
  rw [show 1826 + 146097 * k - (1460 + 146097 * k) = 366 by omega]
  decide

set_option maxRecDepth 100000 in
example : Spec.date 1826 = (1975, 1, 1) := by decide +kernel

/-- The date is right for the first 59 days.

Missing: the rest, where averages are not the calendar (`ymd_from_days_wrong`). -/
theorem ymd_from_days_partial (n : Nat) (h : n ≤ 58) :
    ymdYear n = some (Spec.date n).1 ∧ ymdMonth n = some ((Spec.date n).2.1 : Int) ∧ ymdDay n = some (Spec.date n).2.2 := by
  have : ∀ n : Fin 59, ymdYear (n : Nat) = some (Spec.date n).1 ∧ ymdMonth (n : Nat) = some ((Spec.date n).2.1 : Int) ∧
    ymdDay (n : Nat) = some (Spec.date n).2.2 := by decide +kernel
  exact this ⟨n, by omega⟩

/-- **Violation.** Before the epoch the day of the month is never anything but 1 or an invalid day: the negative
remainder is stored in an unsigned byte. -/
theorem ymd_before_epoch_wrong (n : Int) (h0 : n < 0) (h : -1342177 ≤ n) :
    ∃ d, ymdDay n = some d ∧ (dayOk d = true → d = 1) := by
  refine ⟨_, ymdDay_value n (by omega), ?_⟩
  have t := tdivC ((n * 1600).tmod 48699) 1600 (by decide)
  have hm : (n * 1600).tmod 48699 = -((-(n * 1600)) % 48699) := by
    rw [← Int.tmod_eq_emod_of_nonneg (by omega), Int.neg_tmod, Int.neg_neg]
  generalize (n * 1600).tmod 48699 = x at t hm ⊢
  have hx : -48699 < x ∧ x ≤ 0 := by omega
  have hd : -30 ≤ x.tdiv 1600 ∧ x.tdiv 1600 ≤ 0 := by omega
  unfold mkByte
  rw [u8_cast]
  simp only [dayOk, Bool.and_eq_true, decide_eq_true_eq]
  omega

example : ymdDay (-1) = some 0 ∧ ymdDay (-20) = some 237 ∧ ymdDay (-31) = some 1 := by decide +kernel

end Verif.Chrono
