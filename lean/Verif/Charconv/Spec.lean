import Verif.Charconv.Model
/-!
# Specification of numerals
-/
namespace Verif.Charconv

/-- The value of a character as a digit: `0-9`, then letters in either case from 10 on. -/
def Spec.digitVal (c : Nat) : Option Nat :=
  if 48 ≤ c ∧ c ≤ 57 then some (c - 48)
  else if 65 ≤ c ∧ c ≤ 90 then some (c - 55)
  else if 97 ≤ c ∧ c ≤ 122 then some (c - 87)
  else none

/-- The value of a character as a digit of `base`. -/
def Spec.digit (base c : Nat) : Option Nat :=
  match Spec.digitVal c with
  | some d => if d < base then some d else none
  | none => none

/-- Positional value of digit values, most significant first. -/
def Spec.value (base : Nat) (ds : List Nat) : Nat := ds.foldl (fun a d => a * base + d) 0

/-- `text` is the canonical numeral of the natural number `n`: digits of the base (lower case), no leading
zero unless the number is zero. -/
def Spec.IsNatNumeral (base n : Nat) (text : List Nat) : Prop :=
  ∃ ds : List Nat, ds ≠ [] ∧ (∀ d ∈ ds, d < base) ∧ (ds.head? = some 0 → ds = [0]) ∧
    Spec.value base ds = n ∧ text = ds.map (fun d => if d < 10 then 48 + d else 87 + d)

/-- `text` is the canonical numeral of the integer `v`: a `-` before the numeral of a negative number. -/
def Spec.IsNumeral (base : Nat) (v : Int) (text : List Nat) : Prop :=
  (0 ≤ v ∧ Spec.IsNatNumeral base v.toNat text) ∨
  (v < 0 ∧ ∃ t, text = 45 :: t ∧ Spec.IsNatNumeral base (-v).toNat t)

/-- `text` stands in memory from position `a`. -/
def Spec.Holds (m : List Nat) (a : Nat) (text : List Nat) : Prop :=
  ∀ i, i < text.length → m[a + i]? = text[i]?

/-- Memory differs only inside `[lo, hi)`. -/
def Spec.SameOutside (m m' : List Nat) (lo hi : Nat) : Prop :=
  m'.length = m.length ∧ ∀ j, j < lo ∨ hi ≤ j → m'[j]? = m[j]?

/-- What `from_chars` is documented to do on a text: characters consumed, error code, value assigned. -/
def Spec.parse (t : IntTy) (base : Nat) (text : List Nat) : Nat × Ec × Option Int :=
  let neg := t.signed && text.head? == some 45
  let rest := if neg then text.tail else text
  let ds := rest.takeWhile (fun c => (Spec.digit base c).isSome)
  let v := Spec.value base (ds.filterMap (Spec.digit base))
  let n := (if neg then 1 else 0) + ds.length
  if ds = [] then (0, .invalidArgument, none)
  else if neg then
    if v ≤ t.max + 1 then (n, .ok, some (-(v : Int))) else (n, .outOfRange, none)
  else
    if v ≤ t.max then (n, .ok, some (v : Int)) else (n, .outOfRange, none)

end Verif.Charconv
