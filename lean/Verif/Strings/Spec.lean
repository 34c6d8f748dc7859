/-!
# Specification vocabulary for strings

Plain list vocabulary; nothing here mentions the model.
-/
namespace Verif.Strings.Spec

/-- `needle` occurs in `hay` starting at index `i`. -/
def OccursAt (needle hay : List Int) (i : Nat) : Prop := i ≤ hay.length ∧ needle <+: hay.drop i

/-- `r` is the lowest index `≥ pos` satisfying `P` (`none`: there is no such index). -/
def IsLowest (P : Nat → Prop) (pos : Nat) (r : Option Nat) : Prop :=
  match r with
  | none => ∀ i, pos ≤ i → ¬ P i
  | some i => pos ≤ i ∧ P i ∧ ∀ j, pos ≤ j → j < i → ¬ P j

/-- `r` is the highest index `≤ pos` satisfying `P`; `pos = none` (`npos`) is no upper limit. -/
def IsHighest (P : Nat → Prop) (pos : Option Nat) (r : Option Nat) : Prop :=
  match r with
  | none => ∀ i, (∀ p, pos = some p → i ≤ p) → ¬ P i
  | some i => (∀ p, pos = some p → i ≤ p) ∧ P i ∧ ∀ j, i < j → (∀ p, pos = some p → j ≤ p) → ¬ P j

/-- The character of `hay` at `i` is one of `set`. -/
def OneOfAt (set hay : List Int) (i : Nat) : Prop := ∃ c, hay[i]? = some c ∧ c ∈ set

/-- Dictionary order on strings. -/
def lexLt : List Int → List Int → Bool
  | [], [] => false
  | [], _ :: _ => true
  | _ :: _, [] => false
  | a :: as, b :: bs => if a < b then true else if b < a then false else lexLt as bs

/-- The three-way result of comparing two lists by dictionary order. -/
def lexSign (a b : List Int) : Int := if lexLt a b then -1 else if lexLt b a then 1 else 0

/-- Length first, then dictionary order. -/
def shortLex (a b : List Int) : Int :=
  if a.length < b.length then -1 else if a.length > b.length then 1 else lexSign a b

/-- A C string: no interior zero, then a terminating zero. -/
def CString (c t : List Int) : Prop := (∃ rest, c = t ++ 0 :: rest) ∧ ∀ x ∈ t, x ≠ 0

end Verif.Strings.Spec
