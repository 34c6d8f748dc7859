/-!
# Model of `ratio`, `chrono::duration`, `hh_mm_ss` and the calendar units

Modelled from `src/estd/ratio.h`, `src/estd/internal/numeric.h`, `src/estd/internal/units/base.h`,
`src/estd/internal/chrono/{ratio.h,duration.h,operators.hpp,math.h,formatter.hpp,units.hpp}` and
`src/estd/internal/promoted_type.h`.
-/
namespace Verif.Chrono

/-! ## numeric.h / ratio.h: compile-time integer arithmetic

`intmax_t` overflow in a template argument is a compile error, so the templates are modelled over unbounded `Int`. -/

/-- `internal::gcd<a, b>`, internal/numeric.h:16-25; `%` truncates toward zero. -/
def gcd (a b : Int) : Int := if h : b = 0 then a else gcd b (a.tmod b)
termination_by b.natAbs
decreasing_by
  rw [Int.natAbs_tmod]
  exact Nat.mod_lt _ (by omega)

/-- `internal::lcm`, internal/numeric.h:28-35 -/
def lcm (a b : Int) : Int := (a * b).tdiv (gcd a b)

/-- `ratio<Num, Denom>`, ratio.h:16-29 -/
structure Ratio where
  num : Int
  den : Int
  deriving DecidableEq, Repr

/-- `ratio<>::type`, the reduced version, ratio.h:22-25 -/
def Ratio.type (r : Ratio) : Ratio :=
  ⟨r.num.tdiv (gcd r.num r.den), r.den.tdiv (gcd r.num r.den)⟩

/-- `ratio_divide<R1, R2>` (the alias is `::type`, internal/fwd/ratio.h:29-30), ratio.h:80-93 -/
def ratioDivide (r s : Ratio) : Ratio :=
  let g := gcd (s.den * r.num) (r.den * s.num)
  Ratio.type ⟨(s.den * r.num).tdiv g, (r.den * s.num).tdiv g⟩

/-- `ratio_multiply<R1, R2>`, ratio.h:95-108 -/
def ratioMultiply (r s : Ratio) : Ratio :=
  let g := gcd (s.den * r.den) (r.num * s.num)
  Ratio.type ⟨(r.num * s.num).tdiv g, (r.den * s.den).tdiv g⟩

/-- `ratio_add<R1, R2>`, ratio.h:111-124 -/
def ratioAdd (r s : Ratio) : Ratio :=
  let n1 : Ratio := ⟨r.num * s.den, r.den * s.den⟩
  let n2 : Ratio := ⟨s.num * r.den, r.den * s.den⟩
  Ratio.type ⟨n1.num + n2.num, n1.den⟩

/-! ## Integer representations -/

/-- An integer type used as `Rep`. -/
structure Rep where
  bits : Nat
  signed : Bool
  deriving DecidableEq, Repr

/-- `numeric_limits<T>::digits` -/
def Rep.digits (r : Rep) : Nat := if r.signed then r.bits - 1 else r.bits

/-- the value is representable -/
def Rep.inRange (r : Rep) (x : Int) : Prop :=
  if r.signed then -(2 ^ (r.bits - 1)) ≤ x ∧ x < 2 ^ (r.bits - 1) else 0 ≤ x ∧ x < 2 ^ r.bits

instance (r : Rep) (x : Int) : Decidable (r.inRange x) := by unfold Rep.inRange; infer_instance

/-- conversion to an integer type (modular, as every compiler does and C++20 requires) -/
def Rep.cast (r : Rep) (x : Int) : Int :=
  if r.signed then x.bmod (2 ^ r.bits) else x % 2 ^ r.bits

def u8 : Rep := ⟨8, false⟩
def i64 : Rep := ⟨64, true⟩

/-- `make_signed` -/
def Rep.makeSigned (r : Rep) : Rep := ⟨r.bits, true⟩

/-- `internal::promote_type`, promoted_type.h:20-65: the next wider type of the same signedness. -/
def Rep.promote (r : Rep) : Rep := ⟨2 * r.bits, r.signed⟩

/-- `promoted_type<T1, T2>::type`, promoted_type.h:71-114 -/
def promotedType (t1 t2 : Rep) : Rep :=
  let more := if t1.digits ≥ t2.digits then t1 else t2
  let less := if t1.digits < t2.digits then t1 else t2
  let aligned := if !more.signed && less.signed then more.makeSigned else more
  if aligned.digits = less.digits ∧ less.signed = true ∧ more.signed = false then aligned.promote
  else aligned

/-- a result of signed arithmetic in a type of at least `int` width must be representable; narrower types
compute in `int` and convert back. -/
def Rep.arith (r : Rep) (x : Int) : Option Int :=
  if r.signed ∧ 32 ≤ r.bits then (if r.inRange x then some x else none) else some (r.cast x)

/-! ## duration -/

/-- `chrono::duration<Rep, Period>`, duration.h:32-111 -/
structure Dur where
  rep : Rep
  period : Ratio
  count : Int
  deriving DecidableEq, Repr

/-- usual arithmetic conversions of two different integer types (`int` is 32 bits) -/
def usualArith (r s : Rep) : Rep :=
  let p : Rep := if r.bits < 32 then ⟨32, true⟩ else r
  let q : Rep := if s.bits < 32 then ⟨32, true⟩ else s
  if p.signed = q.signed then (if q.bits ≤ p.bits then p else q)
  else if p.signed then (if p.bits ≤ q.bits then q else p)
  else (if q.bits ≤ p.bits then p else q)

/-- `common_type_t` of two integer types, internal/common_type.h:26-44: the type of a conditional
expression, so no promotion when they are the same. -/
def condType (r s : Rep) : Rep := if r = s then r else usualArith r s

/-- `ct(count) * rd::num / rd::den` of `unit_base::convert_from`, units/base.h:135-163, towards representation `rep`,
before the result is converted.  `rd::num` is `intmax_t`: unless `ct` is a 64-bit unsigned type the product is computed
in signed 64 bits (overflow is undefined), otherwise modulo 2^64 (the positive constants `rd::num` and `rd::den` keep
their values).  Types are taken to have at most 64 bits. -/
def Dur.scale (d : Dur) (rep : Rep) (period : Ratio) : Option Int :=
  let rd := ratioDivide d.period period
  let ct := condType rep d.rep
  let x := ct.cast d.count * rd.num
  if ct = ⟨64, false⟩ then some (x % 2 ^ 64 / rd.den)
  else if i64.inRange x then some (x.tdiv rd.den) else none

/-- Converting construction (`duration_cast`, duration.hpp:57-61): `unit_base::convert_from`, units/base.h:135-170,
with the narrowing constructor 196-200: the quotient is converted to `Rep`. -/
def Dur.convert (d : Dur) (rep : Rep) (period : Ratio) : Option Dur :=
  (d.scale rep period).map fun y => ⟨rep, period, rep.cast y⟩

/-- `common_type<duration, duration>`: chrono/ratio.h:12-44 -/
def commonPeriod (p q : Ratio) : Ratio := ⟨gcd p.num q.num, lcm p.den q.den⟩

/-- the `Rep` of the common type, chrono/ratio.h:22 -/
def commonRep (r s : Rep) : Rep := promotedType r s

/-- both operands in the common type -/
def toCommon (a b : Dur) : Option (Dur × Dur) :=
  let r := commonRep a.rep b.rep
  let p := commonPeriod a.period b.period
  match a.convert r p, b.convert r p with
  | some x, some y => some (x, y)
  | _, _ => none

/-- `operator+`, operators.hpp:24-33 -/
def Dur.add (a b : Dur) : Option Dur :=
  match toCommon a b with
  | some (x, y) => (x.rep.arith (x.count + y.count)).map fun c => ⟨x.rep, x.period, c⟩
  | none => none

/-- `operator-`, operators.hpp:11-20 -/
def Dur.sub (a b : Dur) : Option Dur :=
  match toCommon a b with
  | some (x, y) => (x.rep.arith (x.count - y.count)).map fun c => ⟨x.rep, x.period, c⟩
  | none => none

/-- `operator<`, operators.hpp:60-68 -/
def Dur.lt (a b : Dur) : Option Bool := (toCommon a b).map fun p => decide (p.1.count < p.2.count)
/-- `operator>`, operators.hpp:50-58 -/
def Dur.gt (a b : Dur) : Option Bool := (toCommon a b).map fun p => decide (p.1.count > p.2.count)
/-- `operator<=`, operators.hpp:70-75: `!(lhs > rhs)` -/
def Dur.le (a b : Dur) : Option Bool := (a.gt b).map (!·)
/-- `operator>=`, operators.hpp:78-83: `!(lhs < rhs)` -/
def Dur.ge (a b : Dur) : Option Bool := (a.lt b).map (!·)
/-- `operator==`, operators.hpp:86-94 -/
def Dur.eq (a b : Dur) : Option Bool := (toCommon a b).map fun p => decide (p.1.count = p.2.count)
/-- `operator!=`, operators.hpp:96-104 -/
def Dur.ne (a b : Dur) : Option Bool := (toCommon a b).map fun p => decide (p.1.count ≠ p.2.count)

/-- `chrono::abs`, math.h:11-34: `d >= zero ? d : -d` for signed representations, `d` otherwise. -/
def Dur.abs (d : Dur) : Option Dur :=
  if d.rep.signed then
    (if d.count ≥ 0 then some d else (d.rep.arith (-d.count)).map fun c => { d with count := c })
  else some d

/-! ## hh_mm_ss, formatter.hpp:140-198 -/

/-- `hours()`, 173-176: an 8-bit count of hours -/
def hours (v : Dur) : Option Dur :=
  match v.abs with
  | some a => a.convert u8 ⟨3600, 1⟩
  | none => none

/-- `minutes()`, 178-181 -/
def minutes (v : Dur) : Option Dur :=
  match v.abs, hours v with
  | some a, some h =>
    match a.sub h with
    | some d => d.convert u8 ⟨60, 1⟩
    | none => none
  | _, _ => none

/-- `seconds()`, 183-188: the absolute value less its *8-bit* minute count -/
def seconds (v : Dur) : Option Dur :=
  match v.abs with
  | some a =>
    match a.convert u8 ⟨60, 1⟩ with
    | some m =>
      match a.sub m with
      | some d => d.convert v.rep ⟨1, 1⟩
      | none => none
    | none => none
  | none => none

/-- `subseconds()`, 190-194 -/
def subseconds (v : Dur) : Option Dur :=
  match v.abs with
  | some a =>
    match a.convert v.rep ⟨1, 1⟩ with
    | some s =>
      match a.sub s with
      | some d => d.convert v.rep v.period
      | none => none
    | none => none
  | none => none

/-- `is_negative()`, 168-171 -/
def isNegative (v : Dur) : Bool := if v.rep.signed then decide (v.count < 0) else false

/-! ## Calendar units, units.hpp -/

/-- `year::is_leap`, units.hpp:79 (`%` truncates, which does not matter for `== 0`) -/
def isLeap (y : Int) : Bool := decide (y.tmod 400 = 0)

/-- `year(int)` stores an `int16_t`, units.hpp:74 -/
def mkYear (y : Int) : Int := (⟨16, true⟩ : Rep).cast y

/-- `year::ok`, units.hpp:82: `*this >= min()` with `min() = year(-32767)` -/
def yearOk (y : Int) : Bool := decide (y ≥ -32767)

/-- `month(int)`, `day(int)` store a `uint8_t`, units.hpp:104, 116 -/
def mkByte (m : Int) : Int := u8.cast m

/-- `month::ok`, units.hpp:106 with `in_range` 41-44 -/
def monthOk (m : Int) : Bool := decide (m ≥ 1) && decide (12 ≥ m)

/-- `day::ok`, units.hpp:118 -/
def dayOk (d : Int) : Bool := decide (d ≥ 1) && decide (31 ≥ d)

/-- `year_month_day_last::day`, formatter.hpp:90-102.  (As written the body calls the nullary member `day` with an
argument, so it does not compile when instantiated; the table is modelled.) -/
def lastDay (y m : Int) : Int :=
  if m = 2 then (if isLeap y then 29 else 28)
  else if m = 4 then 30
  else if m = 6 then 30
  else if m = 11 then 30
  else 31

/-- `year_month_day<void>::ok`, formatter.hpp:125-128 -/
def ymdOk (y m d : Int) : Bool := dayOk d && monthOk m && yearOk y

/-! `year_month_day<TClock>` from a day count, formatter.hpp:29-51: average months (2629746 s) and years
(31556952 s), duration.h:124-132, with the default representations fwd/chrono.h:114-117. -/

/-- `days_.time_since_epoch()` -/
def daysDur (n : Int) : Dur := ⟨⟨32, true⟩, ⟨86400, 1⟩, n⟩

/-- `year()`, formatter.hpp:47-51, with `adjust_epoch` units.hpp:147-150 -/
def ymdYear (n : Int) : Option Int :=
  ((daysDur n).convert ⟨16, true⟩ ⟨31556952, 1⟩).map fun y => mkYear (mkYear y.count + 1970)

/-- `month()`, formatter.hpp:38-44 -/
def ymdMonth (n : Int) : Option Int :=
  match (daysDur n).convert ⟨16, true⟩ ⟨31556952, 1⟩ with
  | some y =>
    match y.convert ⟨32, true⟩ ⟨86400, 1⟩ with
    | some d =>
      match (daysDur n).sub d with
      | some r => (r.convert ⟨32, true⟩ ⟨2629746, 1⟩).map fun m => mkByte (m.count + 1)
      | none => none
    | none => none
  | none => none

/-- `days()`, formatter.hpp:30-35 -/
def ymdDay (n : Int) : Option Int :=
  match (daysDur n).convert ⟨32, true⟩ ⟨2629746, 1⟩ with
  | some m =>
    match (daysDur n).sub m with
    | some r => (r.convert ⟨32, true⟩ ⟨86400, 1⟩).map fun d => mkByte (d.count + 1)
    | none => none
  | none => none

end Verif.Chrono
