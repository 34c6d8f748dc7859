import Verif.Chrono.TimePoint

/-!
# Units with an offset projector, and percentages

C55: converting, comparing and combining `unit_base` quantities preserves the quantity they stand for.
C56: `get_from_percent` interpolates between its bounds.

`chrono::duration` is a `unit_base` with the identity projector; its conversions and comparisons are C41.
-/
namespace Verif.Units
open Verif.Chrono

/-! ## The model -/

/-- A `unit_base<Rep, Period, Tag, F>` type, units/base.h:116-121.  `F` is a projector: `passthrough<Rep>`
(fwd.h:21-40, `off = 0`, `frep = rep`), `adder<Int, add>` (34-46, `off = add`) or `subtractor<Int, add>` (20-32,
`off = -add`); `frep` is its value type, the type of `count()`. -/
structure UTy where
  rep : Rep
  frep : Rep
  period : Ratio
  off : Int
  deriving DecidableEq, Repr

/-- an object: its type and `rep_` -/
structure U where
  ty : UTy
  root : Int
  deriving DecidableEq, Repr

/-- `count()`, units/base.h:223: `F{}(rep_)` converted to the projector's value type. -/
def U.count (u : U) : Int := u.ty.frep.cast (u.root + u.ty.off)

/-- `convert_from`, units/base.h:135-170: `F::reversal{}(ct(count) * rd::num / rd::den)`, returned as `Rep`. -/
def U.convertFrom (u : U) (t : UTy) : Option Int :=
  (Dur.scale ⟨u.ty.frep, u.ty.period, u.count⟩ t.rep t.period).map fun y => t.rep.cast (t.frep.cast (y - t.off))

/-- the converting constructors.  The same period selects units/base.h:184-188, which stores `s.count()`; otherwise
190-194 (or 196-200), `convert_from`.  (The first is ill-formed where the braces narrow; the model converts.) -/
def U.construct (u : U) (t : UTy) : Option U :=
  if u.ty.period = t.period then some ⟨t, t.rep.cast u.count⟩
  else (u.convertFrom t).map fun r => ⟨t, r⟩

/-- the converting assignment, units/base.h:202-207 -/
def U.assign (u : U) (t : UTy) : Option U := (u.convertFrom t).map fun r => ⟨t, r⟩

/-- `operator+` of two quantities of the same type, operators.hpp:14-20 -/
def U.add (a b : U) : U := ⟨a.ty, a.ty.rep.cast (a.root + b.root)⟩
/-- `operator-` of two quantities of the same type, operators.hpp:32-38 -/
def U.sub (a b : U) : U := ⟨a.ty, a.ty.rep.cast (a.root - b.root)⟩
/-- `operator++`, units/base.h:268-272 -/
def U.inc (a : U) : U := ⟨a.ty, a.ty.rep.cast (a.root + 1)⟩
/-- `operator-()`, units/base.h:274-277 -/
def U.neg (a : U) : U := ⟨a.ty, a.ty.rep.cast (-a.root)⟩

/-- `operator==` of the same type, units/base.h:230-233 -/
def U.eqSame (a b : U) : Bool := a.root == b.root
/-- `operator<` and the others of the same type, operators.hpp:53-92: `decltype(lhs + rhs)` is that type. -/
def U.ltSame (a b : U) : Bool := decide (a.count < b.count)
def U.gtSame (a b : U) : Bool := decide (a.count > b.count)
def U.leSame (a b : U) : Bool := decide (a.count ≤ b.count)
def U.geSame (a b : U) : Bool := decide (a.count ≥ b.count)

/-! ## Specification -/

/-- the object is a value of its type, and so is its projection -/
structure Spec.Valid (u : U) : Prop where
  bits : 0 < u.ty.rep.bits
  fbits : 0 < u.ty.frep.bits
  inRep : u.ty.rep.inRange u.root
  inFrep : u.ty.frep.inRange (u.root + u.ty.off)

theorem count_eq {u : U} (h : Spec.Valid u) : u.count = u.root + u.ty.off := cast_eq h.fbits h.inFrep

/-! ## C55: conversion -/

/-- The converted number: `n` source units are `n * p / q` target units, rounded toward zero. -/
def Spec.converted (n : Int) (p q : Ratio) : Int := (n * (p.num * q.den)).tdiv (p.den * q.num)

/-- Preconditions of a conversion: the source is valid, the 64-bit product fits, a negative count goes to a signed
representation, and the target type holds the result. -/
structure Spec.Convertible (u : U) (t : UTy) : Prop where
  valid : Spec.Valid u
  pos : u.ty.period.Pos
  tpos : t.period.Pos
  tbits : 0 < t.rep.bits
  tfbits : 0 < t.frep.bits
  sign : u.ty.frep.signed = true → t.rep.signed = true ∨ 0 ≤ u.count
  fits : i64.inRange (u.count * (ratioDivide u.ty.period t.period).num)
  inFrep : t.frep.inRange (Spec.converted u.count u.ty.period t.period)
  inFrep' : t.frep.inRange (Spec.converted u.count u.ty.period t.period - t.off)
  inRep : t.rep.inRange (Spec.converted u.count u.ty.period t.period - t.off)

theorem convertFrom_eq {u : U} {t : UTy} (h : Spec.Convertible u t) :
    u.convertFrom t = some (Spec.converted u.count u.ty.period t.period - t.off) := by
  obtain ⟨⟨g1, g2⟩, g3⟩ := divide_pos h.pos h.tpos
  have hc := count_eq h.valid
  have hs := scale_eq ⟨u.ty.frep, u.ty.period, u.count⟩ t.rep t.period (by rw [hc]; exact h.valid.inFrep)
    h.valid.fbits h.sign g1 h.fits
  have e : (u.count * (ratioDivide u.ty.period t.period).num).tdiv (ratioDivide u.ty.period t.period).den =
      Spec.converted u.count u.ty.period t.period := by
    apply tdiv_cross g2 (Int.mul_pos h.pos.2 h.tpos.1)
    rw [Int.mul_assoc, g3, ← Int.mul_assoc u.count]
  unfold U.convertFrom
  rw [hs]
  simp only [Option.map_some, e, cast_eq h.tfbits h.inFrep', cast_eq h.tbits h.inRep]

/-- C55: assigning a quantity to a variable of another unit of the same kind stores the converted quantity, whatever
the projectors of either side. -/
theorem assign_converts (u : U) (t : UTy) (h : Spec.Convertible u t) :
    ∃ v, u.assign t = some v ∧ v.ty = t ∧ Spec.Valid v ∧ v.count = Spec.converted u.count u.ty.period t.period := by
  have hv : Spec.Valid ⟨t, Spec.converted u.count u.ty.period t.period - t.off⟩ :=
    ⟨h.tbits, h.tfbits, h.inRep, by simpa [Int.sub_add_cancel] using h.inFrep⟩
  refine ⟨_, by rw [U.assign, convertFrom_eq h, Option.map_some], rfl, hv, ?_⟩
  rw [count_eq hv]
  simp [Int.sub_add_cancel]

/-- C55: so does construction, between different periods. -/
theorem construct_converts_partial (u : U) (t : UTy) (h : Spec.Convertible u t) (hne : u.ty.period ≠ t.period) :
    ∃ v, u.construct t = some v ∧ v.ty = t ∧ Spec.Valid v ∧ v.count = Spec.converted u.count u.ty.period t.period := by
  rw [U.construct, if_neg hne]
  exact assign_converts u t h

/-- **Violation.**  Construction between units of the same period is wrong by the target's offset (and right without
one), so construction and assignment from the same quantity give different quantities. -/
theorem construct_same_period (u : U) (t : UTy) (hu : Spec.Valid u) (hper : u.ty.period = t.period)
    (htb : 0 < t.rep.bits) (htf : 0 < t.frep.bits) (h1 : t.rep.inRange u.count)
    (h2 : t.frep.inRange (u.count + t.off)) :
    ∃ v, u.construct t = some v ∧ v.count = u.count + t.off ∧ (v.count = u.count ↔ t.off = 0) := by
  have e : (U.mk t (t.rep.cast u.count)).count = u.count + t.off := by
    rw [U.count, cast_eq htb h1]
    exact cast_eq htf h2
  exact ⟨_, by rw [U.construct, if_pos hper], e, by rw [e]; omega⟩

/-- a uint8 temperature with offset -40: the raw 60 is 20 degrees -/
def rawTemp : UTy := ⟨⟨8, false⟩, ⟨16, true⟩, ⟨1, 1⟩, -40⟩
/-- a plain int16 temperature -/
def plainTemp : UTy := ⟨⟨16, true⟩, ⟨16, true⟩, ⟨1, 1⟩, 0⟩
/-- tenths of a degree, plain -/
def tenths : UTy := ⟨⟨32, true⟩, ⟨32, true⟩, ⟨1, 10⟩, 0⟩

/-- an int32 temperature with offset -40 -/
def wideRaw : UTy := ⟨⟨32, true⟩, ⟨32, true⟩, ⟨1, 1⟩, -40⟩

/-- 20.5 degrees assigned to the raw byte is stored as 60, read as 20; an offset variable assigned 20 degrees reads 20,
but constructed from 20 degrees reads -20. -/
example : (U.mk tenths 205).assign rawTemp = some ⟨rawTemp, 60⟩ ∧ (U.mk rawTemp 60).count = 20 ∧
    (U.mk plainTemp 20).assign wideRaw = some ⟨wideRaw, 60⟩ ∧ (U.mk wideRaw 60).count = 20 ∧
    (U.mk plainTemp 20).construct wideRaw = some ⟨wideRaw, 20⟩ ∧ (U.mk wideRaw 20).count = -20 := by decide +kernel

example : Spec.Convertible ⟨tenths, 205⟩ rawTemp :=
  ⟨⟨by decide, by decide, by decide, by decide⟩, ⟨by decide, by decide⟩, ⟨by decide, by decide⟩, by decide, by decide,
    by decide, by decide +kernel, by decide, by decide, by decide⟩

/-- C55: a quantity assigned to a finer unit and back is unchanged. -/
theorem assign_round_trip (u : U) (t : UTy) (k : Int) (h : Spec.Convertible u t)
    (hk : u.ty.period.num * t.period.den = k * (u.ty.period.den * t.period.num))
    (hI : i64.inRange (u.count * k)) (hsg : t.frep.signed = true → u.ty.rep.signed = true ∨ 0 ≤ u.count)
    (hself : u.ty.frep.inRange u.root) :
    ∃ v, u.assign t = some v ∧ v.assign u.ty = some u := by
  obtain ⟨v, h1, h2, h3, h4⟩ := assign_converts u t h
  have hA := Int.mul_pos h.pos.1 h.tpos.2
  have hB := Int.mul_pos h.pos.2 h.tpos.1
  have hk0 : 0 < k := by
    rw [hk] at hA
    exact Int.pos_of_mul_pos_left hA (by omega)
  have hcnt : v.count = u.count * k := by
    rw [h4, Spec.converted, hk, ← Int.mul_assoc, Int.mul_tdiv_cancel _ (by omega)]
  have e := divide_multiple_inv h.pos h.tpos hk
  have hback : Spec.converted v.count v.ty.period u.ty.period = u.count := by
    rw [hcnt, h2, Spec.converted]
    rw [show u.count * k * (t.period.num * u.ty.period.den) =
      u.count * (t.period.den * u.ty.period.num) by
        rw [Int.mul_assoc, Int.mul_comm t.period.num, ← hk, Int.mul_comm u.ty.period.num]]
    exact Int.mul_tdiv_cancel _ (by rw [Int.mul_comm]; omega)
  have hroot : u.count - u.ty.off = u.root := by rw [count_eq h.valid]; omega
  refine ⟨v, h1, ?_⟩
  have hc : Spec.Convertible v u.ty :=
    { valid := h3
      pos := by rw [h2]; exact h.tpos
      tpos := h.pos
      tbits := h.valid.bits
      tfbits := h.valid.fbits
      sign := by
        rw [h2, hcnt]
        intro hs
        rcases hsg hs with a | a
        · exact .inl a
        · exact .inr (Int.mul_nonneg a (by omega))
      fits := by rw [h2, e, hcnt]; simpa using hI
      inFrep := by rw [hback, count_eq h.valid]; exact h.valid.inFrep
      inFrep' := by rw [hback, hroot]; exact hself
      inRep := by rw [hback, hroot]; exact h.valid.inRep }
  rw [U.assign, convertFrom_eq hc, hback, hroot, Option.map_some]

/-! ## C55: arithmetic and comparison -/

/-- the quantity an object stands for: its raw value projected -/
def Spec.quantity (u : U) : Int := u.root + u.ty.off

/-- C55: `count()` is the quantity; `++` adds one unit; comparisons of one type order by quantity; adding and then
subtracting restores; whatever the projector. -/
theorem same_type_ops (a b : U) (hty : a.ty = b.ty) (ha : Spec.Valid a) (hb : Spec.Valid b) :
    a.count = Spec.quantity a ∧
    (Spec.Valid ⟨a.ty, a.root + 1⟩ → a.inc.count = Spec.quantity a + 1) ∧
    a.eqSame b = decide (Spec.quantity a = Spec.quantity b) ∧
    a.ltSame b = decide (Spec.quantity a < Spec.quantity b) ∧
    a.gtSame b = decide (Spec.quantity b < Spec.quantity a) ∧
    a.leSame b = decide (Spec.quantity a ≤ Spec.quantity b) ∧
    a.geSame b = decide (Spec.quantity b ≤ Spec.quantity a) ∧
    (Spec.Valid ⟨a.ty, a.root + b.root⟩ → Spec.Valid ⟨a.ty, a.root + b.root - b.root⟩ → (a.add b).sub b = a) := by
  have qa : a.count = Spec.quantity a := count_eq ha
  have qb : b.count = Spec.quantity b := count_eq hb
  refine ⟨qa, fun h => ?_, ?_, ?_, ?_, ?_, ?_, fun h h' => ?_⟩
  · have : a.inc = ⟨a.ty, a.root + 1⟩ := by rw [U.inc, cast_eq ha.bits h.inRep]
    rw [this, count_eq h, Spec.quantity]
    simp only; omega
  · rw [Spec.quantity, Spec.quantity, ← hty, U.eqSame, Bool.eq_iff_iff]
    simp
  · rw [U.ltSame, qa, qb]
  · rw [U.gtSame, qa, qb]
  · rw [U.leSame, qa, qb]
  · rw [U.geSame, qa, qb]
  · rw [U.sub, U.add]
    simp only [cast_eq ha.bits h.inRep]
    rw [cast_eq ha.bits h'.inRep]
    simp [Int.add_sub_cancel]

/-- What the operators do with the offset: a sum counts it once where the operands counted it twice. -/
theorem add_sub_neg_offset (a b : U) (hty : a.ty = b.ty) (ha : Spec.Valid a) (hb : Spec.Valid b) :
    (Spec.Valid ⟨a.ty, a.root + b.root⟩ → (a.add b).count = a.count + b.count - a.ty.off) ∧
    (Spec.Valid ⟨a.ty, a.root - b.root⟩ → (a.sub b).count = a.count - b.count + a.ty.off) ∧
    (Spec.Valid ⟨a.ty, -a.root⟩ → a.neg.count = -a.count + 2 * a.ty.off) := by
  have ca := count_eq ha
  have cb := count_eq hb
  rw [← hty] at cb
  refine ⟨fun h => ?_, fun h => ?_, fun h => ?_⟩
  · have : a.add b = ⟨a.ty, a.root + b.root⟩ := by rw [U.add, cast_eq ha.bits h.inRep]
    rw [this, count_eq h]; simp only; omega
  · have : a.sub b = ⟨a.ty, a.root - b.root⟩ := by rw [U.sub, cast_eq ha.bits h.inRep]
    rw [this, count_eq h]; simp only; omega
  · have : a.neg = ⟨a.ty, -a.root⟩ := by rw [U.neg, cast_eq ha.bits h.inRep]
    rw [this, count_eq h]; simp only; omega

/-- C55: without an offset sums, differences and negations are those of the counts.  (Missing: units with an offset,
where each is wrong by the offset, `add_sub_neg_offset`.) -/
theorem add_sub_neg_partial (a b : U) (hty : a.ty = b.ty) (ha : Spec.Valid a) (hb : Spec.Valid b)
    (h0 : a.ty.off = 0) :
    (Spec.Valid ⟨a.ty, a.root + b.root⟩ → (a.add b).count = a.count + b.count) ∧
    (Spec.Valid ⟨a.ty, a.root - b.root⟩ → (a.sub b).count = a.count - b.count) ∧
    (Spec.Valid ⟨a.ty, -a.root⟩ → a.neg.count = -a.count) := by
  obtain ⟨h1, h2, h3⟩ := add_sub_neg_offset a b hty ha hb
  exact ⟨fun h => by rw [h1 h]; omega, fun h => by rw [h2 h]; omega, fun h => by rw [h3 h]; omega⟩

example : Spec.Valid ⟨rawTemp, 60⟩ ∧ Spec.Valid ⟨rawTemp, 61⟩ ∧ (U.mk rawTemp 60).ltSame ⟨rawTemp, 61⟩ = true :=
  ⟨⟨by decide, by decide, by decide, by decide⟩, ⟨by decide, by decide, by decide, by decide⟩, by decide⟩

example : ((U.mk plainTemp 20).add ⟨plainTemp, 22⟩).count = 42 ∧
    ((U.mk rawTemp 60).add ⟨rawTemp, 62⟩).count = 82 ∧ (U.mk rawTemp 60).count + (U.mk rawTemp 62).count = 42 := by
  decide +kernel

/-! ## C56: get_from_percent -/

/-- the arithmetic of `get_from_percent` in the type `vt` of `range.count() * p.count()`: `int` or wider, overflow of
a signed type undefined -/
def vtArith (vt : Rep) (x : Int) : Option Int :=
  if vt.signed then (if vt.inRange x then some x else none) else some (vt.cast x)

/-- `get_from_percent(p, min, max)`, percent.h:46-66, for quantities of representation `r` and a percentage `p` of
representation `pr` and ratio `num/den`: `v = range.count() * p.count(); v *= num; v /= 100 * den;` and
`target_type(v + min.count())`.  The compound assignments compute in 64 bits and convert back to the type of `v`.
`off` is the offset of the target's projector (0 for plain units); types have at most 64 bits, `v` is not a 64-bit
unsigned. -/
def getFromPercent (pr r : Rep) (num den : Int) (off p mn mx : Int) : Option Int :=
  let vt := usualArith r pr
  let range := r.cast (mx - mn) + off
  match vtArith vt (vt.cast range * vt.cast p) with
  | none => none
  | some v =>
    if i64.inRange (v * num) then
      let v1 := vt.cast (v * num)
      let v2 := vt.cast (v1.tdiv (100 * den))
      let st := usualArith vt r
      (vtArith st (st.cast v2 + st.cast (mn + off))).map fun s => r.cast s
    else none

theorem cast_emod (r : Rep) (x : Int) : r.cast x % 2 ^ r.bits = x % 2 ^ r.bits := by
  unfold Rep.cast
  split
  · have h := Int.bmod_emod (x := x) (m := 2 ^ r.bits)
    have e : ((2 ^ r.bits : Nat) : Int) = 2 ^ r.bits := by push_cast; rfl
    rw [e] at h
    exact h
  · exact Int.emod_emod_of_dvd _ (Int.dvd_refl _)

theorem cast_congr {r : Rep} {x y : Int} (h : x % 2 ^ r.bits = y % 2 ^ r.bits) : r.cast x = r.cast y := by
  unfold Rep.cast
  split
  · have e : ((2 ^ r.bits : Nat) : Int) = 2 ^ r.bits := by push_cast; rfl
    rw [← Int.emod_bmod (x := x), ← Int.emod_bmod (x := y), e, h]
  · exact h

/-- reducing to a wider type first changes nothing -/
theorem cast_cast {r s : Rep} (h : r.bits ≤ s.bits) (x : Int) : r.cast (s.cast x) = r.cast x := by
  apply cast_congr
  have hd : (2 : Int) ^ r.bits ∣ 2 ^ s.bits := ⟨2 ^ (s.bits - r.bits), by rw [← Int.pow_add]; congr 1; omega⟩
  rw [← Int.emod_emod_of_dvd (s.cast x) hd, cast_emod, Int.emod_emod_of_dvd _ hd]

theorem cast_add {r s : Rep} (h : r.bits ≤ s.bits) (x y : Int) :
    r.cast (s.cast (s.cast x + s.cast y)) = r.cast (x + y) := by
  rw [cast_cast h]
  apply cast_congr
  have h1 := cast_emod r x
  have h2 := cast_emod r y
  have h3 : s.cast x % 2 ^ r.bits = x % 2 ^ r.bits := by rw [← cast_emod, cast_cast h, h1]
  have h4 : s.cast y % 2 ^ r.bits = y % 2 ^ r.bits := by rw [← cast_emod, cast_cast h, h2]
  rw [Int.add_emod, h3, h4, ← Int.add_emod]

theorem usualArith_bits (r s : Rep) : r.bits ≤ (usualArith r s).bits ∧ s.bits ≤ (usualArith r s).bits ∧
    32 ≤ (usualArith r s).bits := by
  unfold usualArith
  simp only
  repeat' split
  all_goals simp_all
  all_goals first | omega | (repeat' split) <;> simp_all <;> omega

/-- the exact interpolation -/
def Spec.interpolate (num den p mn mx : Int) : Int := mn + ((mx - mn) * p * num).tdiv (100 * den)

/-- Everything computed on the way fits. -/
structure Spec.PercentFits (pr r : Rep) (num den p mn mx : Int) : Prop where
  bits : 0 < r.bits
  denPos : 0 < den
  range : r.inRange (mx - mn)
  range' : (usualArith r pr).inRange (mx - mn)
  pct : (usualArith r pr).inRange p
  prod : (usualArith r pr).inRange ((mx - mn) * p)
  scaled : (usualArith r pr).inRange ((mx - mn) * p * num)
  scaled' : i64.inRange ((mx - mn) * p * num)
  part : (usualArith r pr).inRange (((mx - mn) * p * num).tdiv (100 * den))
  low : r.inRange mn
  result : r.inRange (Spec.interpolate num den p mn mx)
  sum : (usualArith (usualArith r pr) r).signed = true →
    (usualArith (usualArith r pr) r).inRange mn ∧
      (usualArith (usualArith r pr) r).inRange (((mx - mn) * p * num).tdiv (100 * den)) ∧
      (usualArith (usualArith r pr) r).inRange (Spec.interpolate num den p mn mx)

/-- C56: for plain units the result is the exact interpolation, rounded toward the lower bound.  The lower bound may be
negative even when the percentage is unsigned. -/
theorem percent_partial (pr r : Rep) (num den p mn mx : Int) (h : Spec.PercentFits pr r num den p mn mx) :
    getFromPercent pr r num den 0 p mn mx = some (Spec.interpolate num den p mn mx) := by
  have hvb : 0 < (usualArith r pr).bits := by have := (usualArith_bits r pr).2.2; omega
  have hst := usualArith_bits (usualArith r pr) r
  unfold getFromPercent
  simp only [Int.add_zero, cast_eq h.bits h.range, cast_eq hvb h.range', cast_eq hvb h.pct]
  have h1 : vtArith (usualArith r pr) ((mx - mn) * p) = some ((mx - mn) * p) := by
    unfold vtArith
    split
    · rw [if_pos h.prod]
    · rw [cast_eq hvb h.prod]
  rw [h1]
  simp only [h.scaled', if_true, cast_eq hvb h.scaled, cast_eq hvb h.part]
  unfold vtArith
  split
  · rename_i hs
    obtain ⟨a, b, c⟩ := h.sum hs
    rw [cast_eq (by omega) b, cast_eq (by omega) a, Int.add_comm,
      if_pos (show Rep.inRange _ (mn + _) from c), Option.map_some]
    congr 1
    exact cast_eq h.bits h.result
  · rw [Option.map_some, cast_add hst.2.1, Int.add_comm]
    congr 1
    exact cast_eq h.bits h.result

/-- 25 % (unsigned) of the way from -40 to 100 degrees is -5. -/
example : Spec.PercentFits ⟨32, false⟩ ⟨32, true⟩ 1 1 25 (-40) 100 ∧
    getFromPercent ⟨32, false⟩ ⟨32, true⟩ 1 1 0 25 (-40) 100 = some (-5) :=
  ⟨⟨by decide, by decide, by decide, by decide, by decide, by decide, by decide, by decide, by decide, by decide,
    by decide, by decide⟩, by decide⟩

/-- C56: 0 % is the lower bound, 100 % the upper bound. -/
theorem percent_endpoints (num den mn mx p : Int) (hd : 0 < den) :
    Spec.interpolate num den 0 mn mx = mn ∧
    (p * num = 100 * den → Spec.interpolate num den p mn mx = mx) := by
  refine ⟨by simp [Spec.interpolate], fun h => ?_⟩
  rw [Spec.interpolate, Int.mul_assoc, h, Int.mul_tdiv_cancel _ (by omega)]
  omega

theorem tdiv_mono {a b c : Int} (hc : 0 < c) (h : a ≤ b) : a.tdiv c ≤ b.tdiv c := Int.tdiv_le_tdiv hc h

/-- C56: between 0 and 100 % the result lies between the bounds, and a larger percentage never gives less. -/
theorem percent_bounds_monotone (num den mn mx p q : Int) (hn : 0 < num) (hd : 0 < den) (hr : mn ≤ mx) :
    (0 ≤ p → p * num ≤ 100 * den → mn ≤ Spec.interpolate num den p mn mx ∧ Spec.interpolate num den p mn mx ≤ mx) ∧
    (p ≤ q → Spec.interpolate num den p mn mx ≤ Spec.interpolate num den q mn mx) := by
  have mono : ∀ x y : Int, x ≤ y → (mx - mn) * x ≤ (mx - mn) * y := fun x y hxy =>
    Int.mul_le_mul_of_nonneg_left hxy (by omega)
  constructor
  · intro h0 h1
    have a : 0 ≤ (mx - mn) * p * num := Int.mul_nonneg (Int.mul_nonneg (by omega) h0) (by omega)
    have b : (mx - mn) * p * num ≤ (mx - mn) * (100 * den) := by rw [Int.mul_assoc]; exact mono _ _ h1
    have c := tdiv_mono (c := 100 * den) (by omega) b
    rw [Int.mul_tdiv_cancel _ (by omega)] at c
    have d := Int.tdiv_nonneg a (show 0 ≤ 100 * den by omega)
    unfold Spec.interpolate
    omega
  · intro hpq
    have b : (mx - mn) * p * num ≤ (mx - mn) * q * num :=
      Int.mul_le_mul_of_nonneg_right (mono _ _ hpq) (by omega)
    have := tdiv_mono (c := 100 * den) (by omega) b
    unfold Spec.interpolate
    omega

/-- C56: what `get_from_percent` returns lies between the bounds, is the lower bound for 0 %, the upper bound for 100 %, and
does not shrink when the percentage grows. -/
theorem percent_result_partial (pr r : Rep) (num den p q mn mx : Int) (hn : 0 < num) (hd : 0 < den) (hr : mn ≤ mx)
    (h : Spec.PercentFits pr r num den p mn mx) (h' : Spec.PercentFits pr r num den q mn mx) (h0 : 0 ≤ p) (hpq : p ≤ q)
    (h1 : q * num ≤ 100 * den) :
    ∃ v w, getFromPercent pr r num den 0 p mn mx = some v ∧ getFromPercent pr r num den 0 q mn mx = some w ∧
      mn ≤ v ∧ v ≤ w ∧ w ≤ mx ∧ (p = 0 → v = mn) ∧ (q * num = 100 * den → w = mx) := by
  refine ⟨_, _, percent_partial pr r num den p mn mx h, percent_partial pr r num den q mn mx h', ?_, ?_, ?_, ?_, ?_⟩
  · have hp : p * num ≤ 100 * den := Int.le_trans (Int.mul_le_mul_of_nonneg_right hpq (by omega)) h1
    exact ((percent_bounds_monotone num den mn mx p q hn hd hr).1 h0 hp).1
  · exact (percent_bounds_monotone num den mn mx p q hn hd hr).2 hpq
  · exact ((percent_bounds_monotone num den mn mx q q hn hd hr).1 (by omega) h1).2
  · rintro rfl; exact (percent_endpoints num den mn mx 0 hd).1
  · exact (percent_endpoints num den mn mx q hd).2

/-- 25 % and 100 % of the way from -40 to 100 degrees. -/
example : Spec.PercentFits ⟨32, false⟩ ⟨32, true⟩ 1 1 25 (-40) 100 ∧
    Spec.PercentFits ⟨32, false⟩ ⟨32, true⟩ 1 1 100 (-40) 100 :=
  ⟨⟨by decide, by decide, by decide, by decide, by decide, by decide, by decide, by decide, by decide, by decide,
    by decide, by decide⟩, ⟨by decide, by decide, by decide, by decide, by decide, by decide, by decide, by decide,
    by decide, by decide, by decide, by decide⟩⟩

/-- **Violation.**  With an unsigned percentage (such as `50_pct`) and `int` quantities, a descending range is not
interpolated: `c` below the lower bound, the result is `(2^32 - c*p) / 100` above it. -/
theorem percent_descending_wrong (c p mn : Int) (hc : 0 < c) (hp : 0 < p) (hcp : c * p < 2 ^ 32) (hc2 : c < 2 ^ 31)
    (hp2 : p < 2 ^ 32) (h0 : 0 ≤ mn) (h1 : mn < 2 ^ 30) :
    getFromPercent ⟨32, false⟩ ⟨32, true⟩ 1 1 0 p mn (mn - c) = some (mn + (2 ^ 32 - c * p) / 100) := by
  have e1 : usualArith ⟨32, true⟩ ⟨32, false⟩ = ⟨32, false⟩ := rfl
  have e2 : usualArith ⟨32, false⟩ ⟨32, true⟩ = ⟨32, false⟩ := rfl
  have hpos : 0 < c * p := Int.mul_pos hc hp
  have r1 : (⟨32, true⟩ : Rep).cast (-c) = -c := cast_eq (by decide) (by simp [Rep.inRange]; omega)
  have r2 : (⟨32, false⟩ : Rep).cast (-c) = 2 ^ 32 - c := by
    show -c % 2 ^ 32 = _
    omega
  have r3 : (⟨32, false⟩ : Rep).cast p = p := cast_eq (by decide) ⟨by omega, hp2⟩
  have r4 : (⟨32, false⟩ : Rep).cast ((2 ^ 32 - c) * p) = 2 ^ 32 - c * p := by
    show (2 ^ 32 - c) * p % 2 ^ 32 = _
    rw [show (2 ^ 32 - c) * p = (2 ^ 32 - c * p) + 2 ^ 32 * (p - 1) by
      rw [Int.sub_mul, Int.mul_sub]; omega, Int.add_mul_emod_self_left]
    omega
  have hdiv0 : 0 ≤ (2 ^ 32 - c * p) / 100 := by omega
  have r5 : (⟨32, false⟩ : Rep).cast (2 ^ 32 - c * p) = 2 ^ 32 - c * p :=
    cast_eq (by decide) (by simp [Rep.inRange]; omega)
  have r6 : (⟨32, false⟩ : Rep).cast ((2 ^ 32 - c * p) / 100) = (2 ^ 32 - c * p) / 100 :=
    cast_eq (by decide) (by simp [Rep.inRange]; omega)
  have r7 : (⟨32, false⟩ : Rep).cast mn = mn := cast_eq (by decide) (by simp [Rep.inRange]; omega)
  have r8 : (⟨32, false⟩ : Rep).cast ((2 ^ 32 - c * p) / 100 + mn) = (2 ^ 32 - c * p) / 100 + mn :=
    cast_eq (by decide) (by simp [Rep.inRange]; omega)
  have r9 : (⟨32, true⟩ : Rep).cast ((2 ^ 32 - c * p) / 100 + mn) = (2 ^ 32 - c * p) / 100 + mn :=
    cast_eq (by decide) (by simp [Rep.inRange]; omega)
  unfold getFromPercent
  simp only [e1, e2, show mn - c - mn = -c by omega, r1, Int.add_zero, r2, r3, vtArith, Bool.false_eq_true,
    if_false, r4, Int.mul_one, r5]
  rw [if_pos (by simp [i64, Rep.inRange]; omega), Int.tdiv_eq_ediv_of_nonneg (by omega), r6, r6, r7, r8,
    Option.map_some, r9, Int.add_comm]

example : getFromPercent ⟨32, false⟩ ⟨32, true⟩ 1 1 0 50 100 0 = some 42949722 := by decide

/-- **Violation.**  For a target with an offset projector even 0 % is not the lower bound: the stored raw value is the
bound's projected count, so the result is the offset too high. -/
theorem percent_offset_wrong (pr r : Rep) (num den off mn mx : Int) (hb : 0 < r.bits)
    (hm : r.inRange (mn + off)) (hst : (usualArith (usualArith r pr) r).inRange (mn + off)) :
    getFromPercent pr r num den off 0 mn mx = some (mn + off) := by
  have hvb : 0 < (usualArith r pr).bits := by have := (usualArith_bits r pr).2.2; omega
  have hsb : 0 < (usualArith (usualArith r pr) r).bits := by
    have := (usualArith_bits (usualArith r pr) r).2.2; omega
  have z : ∀ s : Rep, 0 < s.bits → s.inRange 0 := by
    intro s hs
    unfold Rep.inRange
    split
    · have := pow_le (show 0 ≤ s.bits - 1 by omega); omega
    · have := pow_le (show 0 ≤ s.bits by omega); omega
  have z1 := cast_eq hvb (z _ hvb)
  have z2 := cast_eq hsb (z _ hsb)
  have va : ∀ s : Rep, 0 < s.bits → ∀ x, s.inRange x → vtArith s x = some x := by
    intro s hs x hx
    unfold vtArith
    rw [if_pos hx, cast_eq hs hx]
    split <;> rfl
  unfold getFromPercent
  simp only [z1, Int.mul_zero, va _ hvb 0 (z _ hvb), Int.zero_mul, Int.zero_tdiv, z2, Int.zero_add,
    cast_eq hsb hst, va _ hsb _ hst, Option.map_some, cast_eq hb hm]
  rw [if_pos (by decide)]

end Verif.Units
