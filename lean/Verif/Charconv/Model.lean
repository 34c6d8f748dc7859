import Verif.Algorithm.CopyProps
/-!
# Model of charconv and the digit facet

Characters are their codes (0..255); with a signed `char` the codes from 128 are negative, which makes the
same comparisons fail, so the model is the same.  An integer type is given by its signedness and maximum.
-/
namespace Verif.Charconv
open Verif

/-- An integer type: `numeric_limits<T>::is_signed` and `max()`. -/
structure IntTy where
  signed : Bool
  max : Nat
deriving DecidableEq, Repr

/-- `numeric_limits<T>::min()`, two's complement. -/
def IntTy.min (t : IntTy) : Int := if t.signed then -(t.max + 1 : Int) else 0

/-! ## cbase -/

/-- Which `cbase` specialization `from_chars`/`to_chars` pick, charconv.h:79-82, 99-102: base 10 or base 36. -/
def facet (base : Nat) : Nat := if base > 10 then 36 else 10

/-- `ascii_isdigit`, internal/cctype.h:5-8. -/
def asciiIsDigit (c : Nat) : Bool := 48 ≤ c && c ≤ 57

/-- `cbase<b<=10>::is_in_base`, internal/locale/cbase.h:138-141. -/
def isInBase10 (c base : Nat) : Bool := 48 ≤ c && c ≤ 48 + (base - 1)

/-- `cbase<b<=10>::from_char`, internal/locale/cbase.h:157-164. -/
def fromChar10 (c base : Nat) : Option Nat := if isInBase10 c base then some (c - 48) else none

/-- `cbase<b<=10>::to_char`, internal/locale/cbase.h:152-155. -/
def toChar10 (v : Nat) : Nat := 48 + v

/-- `cbase<b>10>::isupper`, internal/locale/cbase.h:183-186. -/
def isUpper (c base : Nat) : Bool := 65 ≤ c && c ≤ 65 + (base - 11)

/-- `cbase<b>10>::islower`, internal/locale/cbase.h:194-197. -/
def isLower (c base : Nat) : Bool := 97 ≤ c && c ≤ 97 + (base - 11)

/-- `c &= ~0x20` on a character code. -/
def clear20 (c : Nat) : Nat := c &&& 0xDF

/-- `cbase<b>10>::isalpha`, internal/locale/cbase.h:189-192. -/
def isAlpha (c base : Nat) : Bool := isUpper (clear20 c) base

/-- `cbase<b>10>::is_in_base`, internal/locale/cbase.h:199-205. -/
def isInBase36 (c base : Nat) : Bool := asciiIsDigit c || isUpper c base || isLower c base

/-- `cbase<b>10>::from_char`, internal/locale/cbase.h:207-220. -/
def fromChar36 (c base : Nat) : Option Nat :=
  if asciiIsDigit c then some (c - 48)
  else if isUpper (clear20 c) base then some (clear20 c - 65 + 10)
  else none

/-- `cbase<b>10>::from_char_raw`, internal/locale/cbase.h:222-230, on characters that are digits. -/
def fromCharRaw36 (c : Nat) : Nat :=
  if c ≤ 57 then c - 48 else if c ≤ 90 then c - 65 + 10 else c - 97 + 10

/-- `cbase<b>10>::to_char`, internal/locale/cbase.h:232-241; `upper` is the casing policy
(`a_char`, internal/locale/cbase.h:52-55, 73-76). -/
def toChar36 (upper : Bool) (v : Nat) : Nat :=
  if v < 10 then 48 + v else (if upper then 65 else 97) + (v - 10)

/-- `is_in_base` of the facet chosen for `b`, with explicit base. -/
def isInBase (b c base : Nat) : Bool := if b ≤ 10 then isInBase10 c base else isInBase36 c base
/-- `from_char` of the facet chosen for `b`, with explicit base. -/
def fromChar (b c base : Nat) : Option Nat := if b ≤ 10 then fromChar10 c base else fromChar36 c base
/-- `to_char` of the facet chosen for `b`. -/
def toChar (b : Nat) (upper : Bool) (v : Nat) : Nat := if b ≤ 10 then toChar10 v else toChar36 upper v

/-! ## to_chars -/

inductive Ec where | ok | invalidArgument | outOfRange | tooLarge
deriving DecidableEq, Repr

/-- Loop of `to_chars_integer_opt`, internal/charconv.hpp:56-88: `last` is decremented before each test.
Returns the memory, the returned pointer and the error code. -/
def toCharsLoop (tc : Nat → Nat) (base : Nat) (neg : Bool) (first : Nat) :
    Nat → List Nat → Nat → Option (List Nat × Nat × Ec)
  | 0, _, _ => none
  | last + 1, m, v =>
    if first = last then some (m, last, .tooLarge)
    else
      match wr m last (tc (v % base)) with
      | none => none
      | some m1 =>
        if v / base = 0 then
          if neg then
            match last with
            | 0 => none
            | l + 1 =>
              match wr m1 l 45 with
              | none => none
              | some m2 => some (m2, l, .ok)
          else some (m1, last, .ok)
        else toCharsLoop tc base neg first last m1 (v / base)

/-- `to_chars_opt` → `to_chars_integer_opt`, charconv.h:95-113, internal/charconv.hpp:38-89.  Negating the
minimum of a signed type (charconv.hpp:54) overflows: undefined.  (For types narrower than `int` the product
is computed in `int` and narrowed back, giving the minimum again; that case is reported as undefined too.) -/
def toCharsOpt (t : IntTy) (upper : Bool) (m : List Nat) (first last : Nat) (value : Int) (base : Nat) :
    Option (List Nat × Nat × Ec) :=
  let neg := t.signed && decide (value < 0)
  if neg && decide (-value > t.max) then none
  else toCharsLoop (toChar (facet base) upper) base neg first last m value.natAbs

/-- `to_chars`, charconv.h:115-127: as `to_chars_opt`, then moves the text to the front of the buffer. -/
def toChars (t : IntTy) (m : List Nat) (first last : Nat) (value : Int) (base : Nat) :
    Option (List Nat × Nat × Ec) :=
  match toCharsOpt t false m first last value base with
  | none => none
  | some (m1, p, ec) =>
    match Algorithm.copy m1 p last first with
    | none => none
    | some (m2, q) => some (m2, q, ec)

/-- Digit loop of `to_chars_integer_reverse`, internal/charconv/reverse.hpp:26-50. -/
def revLoop (tc : Nat → Nat) (base first last : Nat) (m : List Nat) (cur v : Nat) :
    Option (List Nat × Nat × Ec) :=
  if cur = last then some (m, cur, .tooLarge)
  else if h : cur < m.length then
    let m1 := m.set cur (tc (v % base))
    if v / base = 0 then
      match Algorithm.reverse m1 first (cur + 1) with
      | none => none
      | some m2 => some (m2, cur + 1, .ok)
    else revLoop tc base first last m1 (cur + 1) (v / base)
  else none
termination_by m.length - cur
decreasing_by simp; omega

/-- `to_chars_exp` → `to_chars_integer_reverse`, charconv.h:129-136, internal/charconv/reverse.hpp:12-50.
The sign is written without a bounds check. -/
def toCharsExp (t : IntTy) (m : List Nat) (first last : Nat) (value : Int) (base : Nat) :
    Option (List Nat × Nat × Ec) :=
  let tc := toChar (facet base) false
  if t.signed && decide (value < 0) then
    if -value > t.max then none
    else
      match wr m first 45 with
      | none => none
      | some m1 => revLoop tc base (first + 1) last m1 (first + 1) value.natAbs
  else revLoop tc base first last m first value.natAbs

/-! ## from_chars -/

/-- Result of `from_chars`; `value = none` means the output argument was not assigned. -/
structure FromRes where
  ptr : Nat
  ec : Ec
  value : Option Int
deriving DecidableEq, Repr

/-- Skip loop after overflow, internal/charconv/from_chars.hpp:63: `is_in_base` is called with the facet's own
base, not the requested one.  `cur` is `current` after the increment. -/
def skipDigits (b : Nat) (m : List Nat) (last cur : Nat) : Option Nat :=
  if cur = last then some cur
  else if h : cur < m.length then
    if isInBase b m[cur] b then skipDigits b m last (cur + 1) else some cur
  else none
termination_by m.length - cur

/-- Main loop of `from_chars_integer`, internal/charconv/from_chars.hpp:50-102; `raise_and_add`
(internal/raise_and_add.h:14-20) fails exactly when the product or the sum exceeds the type's maximum. -/
def fromLoop (t : IntTy) (b base : Nat) (m : List Nat) (first last : Nat) (neg : Bool) (cur loc : Nat) :
    Option FromRes :=
  if cur = last then some ⟨last, .ok, some (if t.signed && neg then -(loc : Int) else loc)⟩
  else if h : cur < m.length then
    match fromChar b m[cur] base with
    | some d =>
      if loc * base > t.max || loc * base + d > t.max then
        match skipDigits b m last (cur + 1) with
        | none => none
        | some p => some ⟨p, .outOfRange, none⟩
      else fromLoop t b base m first last neg (cur + 1) (loc * base + d)
    | none =>
      if cur = first then some ⟨cur, .invalidArgument, none⟩
      else some ⟨cur, .ok, some loc⟩
  else none
termination_by m.length - cur

/-- `from_chars`, charconv.h:72-83 with internal/charconv/from_chars.hpp:11-103.  For signed types the first
character is read before the range is checked. -/
def fromChars (t : IntTy) (m : List Nat) (first last base : Nat) : Option FromRes :=
  if t.signed then
    match rd m first with
    | none => none
    | some c =>
      if c = 45 then fromLoop t (facet base) base m first last true (first + 1) 0
      else fromLoop t (facet base) base m first last false first 0
  else fromLoop t (facet base) base m first last false first 0

end Verif.Charconv
