import Verif.Units.Unit
import Verif.Chrono.Calendar

/-!
# Quantities and plain numbers, and arithmetic of calendar fields (C111)

Modelled from `src/estd/internal/units/operators.hpp:119-166`, `src/estd/internal/units/base.h:176, 235-245` and
`src/estd/internal/chrono/units.hpp:32-96`.
-/
namespace Verif.Units
open Verif.Chrono

/-! ## The model -/

/-- the value that arithmetic stored in a variable of the type `r` leaves there: a signed type of 32 bits or more must not
overflow, all others wrap (types narrower than `int` are computed in `int` and converted back) -/
def store (r : Rep) (x : Int) : Option Int :=
  if r.signed = true ∧ 32 ≤ r.bits then (if r.inRange x then some x else none) else some (r.cast x)

/-- `lhs += n` for a number `n`, operators.hpp:121-128 with units/base.h:235-239: `n` becomes a quantity by the explicit
constructor (base.h:176), which stores it as it is -/
def U.addNumber (u : U) (n : Int) : Option U := (store u.ty.rep (u.root + u.ty.rep.cast n)).map fun r => ⟨u.ty, r⟩
/-- `lhs -= n`, operators.hpp:131-138 with units/base.h:241-245 -/
def U.subNumber (u : U) (n : Int) : Option U := (store u.ty.rep (u.root - u.ty.rep.cast n)).map fun r => ⟨u.ty, r⟩

/-- `lhs == n`, operators.hpp:141-148, for a number of type `r`: the usual arithmetic conversions, then the comparison -/
def U.eqNumber (u : U) (r : Rep) (n : Int) : Bool :=
  let t := usualArith u.ty.frep r
  decide (t.cast u.count = t.cast n)
/-- `lhs > n`, operators.hpp:150-157 -/
def U.gtNumber (u : U) (r : Rep) (n : Int) : Bool :=
  let t := usualArith u.ty.frep r
  decide (t.cast u.count > t.cast n)
/-- `lhs < n`, operators.hpp:159-166 -/
def U.ltNumber (u : U) (r : Rep) (n : Int) : Bool :=
  let t := usualArith u.ty.frep r
  decide (t.cast u.count < t.cast n)

/-- one `+=` or `-=` with a number -/
inductive Step where
  | add (n : Int)
  | sub (n : Int)
  deriving DecidableEq, Repr

/-- how far a step moves -/
def Spec.delta : Step → Int
  | .add n => n
  | .sub n => -n

/-- how far a history moves -/
def Spec.total (l : List Step) : Int := (l.map Spec.delta).sum

/-- a history of `+=` and `-=` with numbers, operators.hpp:121-138 -/
def U.run (u : U) : List Step → Option U
  | [] => some u
  | .add n :: l => (u.addNumber n).bind (·.run l)
  | .sub n :: l => (u.subNumber n).bind (·.run l)

/-- `+=` and `-=` of a calendar field held in the type `r`, by one of the same type: units.hpp:49-59 -/
def fieldStep (r : Rep) (v : Int) : Step → Int
  | .add n => r.cast (v + n)
  | .sub n => r.cast (v - n)

/-- a history of them, units.hpp:49-59 -/
def fieldRun (r : Rep) (v : Int) (l : List Step) : Int := l.foldl (fieldStep r) v

/-- `y + ys` and `ys + y`, units.hpp:85-95 -/
def yearPlus (y ys : Int) : Int := mkYear (y + ys)

/-! ## Quantities -/

theorem cast_idem (r : Rep) (x : Int) : r.cast (r.cast x) = r.cast x := cast_congr (cast_emod r x)

theorem cast_add_left (r : Rep) (x y : Int) : r.cast (r.cast x + y) = r.cast (x + y) := by
  apply cast_congr
  rw [Int.add_emod, cast_emod, ← Int.add_emod]

theorem cast_add_right (r : Rep) (x y : Int) : r.cast (x + r.cast y) = r.cast (x + y) := by
  rw [Int.add_comm, cast_add_left, Int.add_comm]

theorem cast_sub_right (r : Rep) (x y : Int) : r.cast (x - r.cast y) = r.cast (x - y) := by
  apply cast_congr
  rw [Int.sub_emod, cast_emod, ← Int.sub_emod]

/-- the number of a step -/
def Spec.number : Step → Int
  | .add n => n
  | .sub n => n

/-- for a signed type of 32 bits or more, whose arithmetic must not overflow: all numbers and all values on the way are
values of the type -/
def Spec.stays (r : Rep) (v : Int) (l : List Step) : Prop :=
  r.signed = true → 32 ≤ r.bits → (∀ s ∈ l, r.inRange (Spec.number s)) ∧
    ∀ k, k ≤ l.length → r.inRange (v + Spec.total (l.take k))

theorem stays_cons {r : Rep} {v : Int} {s : Step} {l : List Step} (h : Spec.stays r v (s :: l)) :
    Spec.stays r (v + Spec.delta s) l := by
  intro h1 h2
  obtain ⟨h3, h4⟩ := h h1 h2
  refine ⟨fun x hx => h3 x (List.mem_cons_of_mem _ hx), fun k hk => ?_⟩
  have := h4 (k + 1) (by simp; omega)
  simpa [Spec.total, Int.add_assoc] using this

theorem run_eq (l : List Step) (t : UTy) (x : Int) (hb : 0 < t.rep.bits) (hs : Spec.stays t.rep x l) :
    (U.mk t (t.rep.cast x)).run l = some ⟨t, t.rep.cast (x + Spec.total l)⟩ := by
  induction l generalizing x with
  | nil => simp [U.run, Spec.total]
  | cons s l ih =>
    have h1 := ih (x + Spec.delta s) (stays_cons hs)
    have e : x + Spec.delta s + Spec.total l = x + Spec.total (s :: l) := by simp [Spec.total, Int.add_assoc]
    rw [e] at h1
    have wide : t.rep.signed = true ∧ 32 ≤ t.rep.bits → t.rep.inRange x ∧ t.rep.inRange (Spec.number s) ∧
        t.rep.inRange (x + Spec.delta s) := by
      intro hw
      obtain ⟨h3, h4⟩ := hs hw.1 hw.2
      exact ⟨by simpa [Spec.total] using h4 0 (by simp), h3 s List.mem_cons_self,
        by simpa [Spec.total] using h4 1 (by simp)⟩
    cases s with
    | add n =>
      have hst : store t.rep (t.rep.cast x + t.rep.cast n) = some (t.rep.cast (x + n)) := by
        unfold store
        split
        · rename_i hw
          obtain ⟨w1, w2, w3⟩ := wide hw
          simp only [Spec.number, Spec.delta] at w2 w3
          rw [cast_eq hb w1, cast_eq hb w2, cast_eq hb w3, if_pos w3]
        · rw [cast_add_left, cast_add_right]
      simp only [U.run, U.addNumber, hst, Option.map_some, Option.bind_some]
      exact h1
    | sub n =>
      have hst : store t.rep (t.rep.cast x - t.rep.cast n) = some (t.rep.cast (x + -n)) := by
        unfold store
        split
        · rename_i hw
          obtain ⟨w1, w2, w3⟩ := wide hw
          simp only [Spec.number, Spec.delta] at w2 w3
          rw [cast_eq hb w1, cast_eq hb w2, cast_eq hb w3, Int.sub_eq_add_neg, if_pos w3]
        · rw [cast_sub_right, Int.sub_eq_add_neg, cast_add_left]
      simp only [U.run, U.subNumber, hst, Option.map_some, Option.bind_some]
      exact h1

/-- **Adding numbers to a quantity** moves it by their sum, whatever its offset, after every history of `+=` and `-=`
whose end is a value of the type.  What is exceeded on the way matters only for signed types of 32 bits or more. -/
theorem number_history (u : U) (l : List Step) (hu : Spec.Valid u) (hs : Spec.stays u.ty.rep u.root l)
    (hr : Spec.Valid ⟨u.ty, u.root + Spec.total l⟩) :
    ∃ v, u.run l = some v ∧ v.count = u.count + Spec.total l ∧ v.ty = u.ty := by
  have h1 := run_eq l u.ty u.root hu.bits hs
  rw [cast_eq hu.bits hu.inRep, cast_eq hu.bits hr.inRep] at h1
  refine ⟨_, h1, ?_, rfl⟩
  rw [count_eq hr, count_eq hu]
  simp only; omega

/-- Meets the hypotheses: the temperature of 20 degrees in a byte, plus 200, minus 190 (on the way the byte overflows). -/
example : Spec.Valid ⟨rawTemp, 60⟩ ∧ Spec.Valid ⟨rawTemp, 60 + Spec.total [.add 200, .sub 190]⟩ ∧
    Spec.stays rawTemp.rep 60 [.add 200, .sub 190] ∧
    (U.mk rawTemp 60).run [.add 200, .sub 190] = some ⟨rawTemp, 70⟩ :=
  ⟨⟨by decide, by decide, by decide, by decide⟩, ⟨by decide, by decide, by decide, by decide⟩, (by intro h; simp [rawTemp] at h), by decide⟩

/-- **Comparing a quantity with a number** compares its count, whenever both are values of the type in which C++ compares
them.  Missing: an unsigned count and a negative number (`number_negative`). -/
theorem number_compare_partial (u : U) (r : Rep) (n : Int) (hu : Spec.Valid u)
    (h1 : (usualArith u.ty.frep r).inRange u.count) (h2 : (usualArith u.ty.frep r).inRange n) :
    u.eqNumber r n = decide (Spec.quantity u = n) ∧ u.gtNumber r n = decide (n < Spec.quantity u) ∧
      u.ltNumber r n = decide (Spec.quantity u < n) := by
  have hb : 0 < (usualArith u.ty.frep r).bits := by have := (usualArith_bits u.ty.frep r).2.2; omega
  have q : u.count = Spec.quantity u := count_eq hu
  have c1 := cast_eq hb h1
  have c2 := cast_eq hb h2
  rw [q] at c1
  simp only [U.eqNumber, U.gtNumber, U.ltNumber, c2, q, c1, gt_iff_lt, and_self]

/-- Meets the hypotheses: 20 degrees against the number 5. -/
example : (U.mk rawTemp 60).gtNumber ⟨32, true⟩ 5 = true ∧ (usualArith rawTemp.frep ⟨32, true⟩).inRange 20 := by decide

/-- **Violation.**  A quantity with an unsigned count (of 32 bits, as from `50_pct`) is less than every negative number
whose magnitude is small enough, instead of greater. -/
theorem number_negative (u : U) (n : Int) (hf : u.ty.frep = ⟨32, false⟩) (hn : n < 0) (hn' : -(2 ^ 31) ≤ n)
    (h0 : 0 ≤ u.count) (hs : u.count < 2 ^ 32 + n) :
    u.ltNumber ⟨32, true⟩ n = true ∧ u.gtNumber ⟨32, true⟩ n = false := by
  have e : usualArith ⟨32, false⟩ ⟨32, true⟩ = ⟨32, false⟩ := by decide
  have c1 : (⟨32, false⟩ : Rep).cast u.count = u.count := cast_eq (by decide) (by simp only [Rep.inRange]; simp; omega)
  have c2 : (⟨32, false⟩ : Rep).cast n = n + 2 ^ 32 := by simp only [Rep.cast]; simp; omega
  simp only [U.ltNumber, U.gtNumber, hf, e, c1, c2]
  exact ⟨by simp; omega, by simp; omega⟩

/-! ## Calendar fields -/

theorem fieldRun_eq (r : Rep) (l : List Step) (v : Int) (h : r.cast v = v) :
    fieldRun r v l = r.cast (v + Spec.total l) := by
  induction l generalizing v with
  | nil => simp [fieldRun, Spec.total, h]
  | cons s l ih =>
    have : fieldRun r v (s :: l) = fieldRun r (fieldStep r v s) l := rfl
    rw [this]
    cases s with
    | add n =>
      simp only [fieldStep]
      rw [ih _ (cast_idem _ _), cast_add_left]
      simp [Spec.total, Spec.delta, Int.add_assoc]
    | sub n =>
      simp only [fieldStep]
      rw [ih _ (cast_idem _ _), cast_add_left]
      simp [Spec.total, Spec.delta, Int.sub_eq_add_neg, Int.add_assoc]

/-- **Years, months and days** move by exactly the sum of what is added and taken away, after every history whose end the
field can hold.  Missing: months beyond December (`month_beyond`). -/
theorem field_history_partial (v : Int) (l : List Step) :
    ((⟨16, true⟩ : Rep).inRange v → (⟨16, true⟩ : Rep).inRange (v + Spec.total l) →
      fieldRun ⟨16, true⟩ v l = v + Spec.total l) ∧
    (u8.inRange v → u8.inRange (v + Spec.total l) → fieldRun u8 v l = v + Spec.total l) := by
  refine ⟨fun h1 h2 => ?_, fun h1 h2 => ?_⟩
  · rw [fieldRun_eq _ _ _ (cast_eq (by decide) h1), cast_eq (by decide) h2]
  · rw [fieldRun_eq _ _ _ (cast_eq (by decide) h1), cast_eq (by decide) h2]

/-- `year + years` is the year that many years later, when the field can hold it. -/
theorem year_plus (y ys : Int) (h : (⟨16, true⟩ : Rep).inRange (y + ys)) : yearPlus y ys = y + ys :=
  cast_eq (by decide) h

/-- the month `n` months after month `m`: after December comes January -/
def Spec.monthAfter (m n : Int) : Int := (m - 1 + n) % 12 + 1

/-- **Violation.**  Months are not counted round the year: beyond December the result is no month at all, and up to
December it is the right one. -/
theorem month_beyond (m n : Int) (h1 : 1 ≤ m ∧ m ≤ 12) (h2 : 0 ≤ n ∧ n ≤ 243) :
    monthOk (Spec.monthAfter m n) = true ∧
      (m + n ≤ 12 → fieldStep u8 m (.add n) = Spec.monthAfter m n) ∧
      (12 < m + n → fieldStep u8 m (.add n) ≠ Spec.monthAfter m n ∧ monthOk (fieldStep u8 m (.add n)) = false) := by
  have e : fieldStep u8 m (.add n) = m + n := cast_eq (by decide) (by simp only [Rep.inRange, u8]; simp; omega)
  rw [e]
  simp only [Spec.monthAfter, monthOk]
  refine ⟨by simp; omega, fun h => by omega, fun h => ⟨by omega, ?_⟩⟩
  simp; omega

/-- … and before January it is 244 to 255. -/
theorem month_before (m n : Int) (h1 : 1 ≤ m ∧ m ≤ 12) (h2 : m ≤ n ∧ n ≤ 12) :
    fieldStep u8 m (.sub n) = (if m = n then 0 else 256 + m - n) ∧ monthOk (fieldStep u8 m (.sub n)) = false := by
  have e : fieldStep u8 m (.sub n) = if m = n then 0 else 256 + m - n := by
    simp only [fieldStep, Rep.cast, u8]
    simp
    split <;> omega
  rw [e]
  refine ⟨rfl, ?_⟩
  simp only [monthOk]
  split <;> simp <;> omega

/-- Meets the hypotheses: November plus three months is month 14, March minus four months is month 255. -/
example : fieldStep u8 11 (.add 3) = 14 ∧ Spec.monthAfter 11 3 = 2 ∧ fieldStep u8 3 (.sub 4) = 255 ∧
    fieldRun ⟨16, true⟩ 2026 [.add 30000, .add 2000, .sub 31000] = 3026 := by decide

end Verif.Units
