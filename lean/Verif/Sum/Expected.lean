import Verif.Sum.Optional

/-!
# Model of `expected`

Modelled from `src/estd/expected.h` and `src/estd/internal/expected.h`: the storage is `variant_storage<T, E>`,
alternative 0 is the value, alternative 1 the error; the tag is `some 0` when `has_value_` and `some 1` otherwise.
Assigning one `expected` to another does not compile (its copy assignment is implicitly deleted by the user-declared
move constructor) and is not an operation here.
-/
namespace Verif.Sum.Expected
open Verif.Sum

/-- `has_value()`, expected.h:244 -/
def hasValue (x : Box α) : Bool := x.tag == some 0

/-- `destroy()`, expected.h:66-72 with internal/expected.h:157-165 -/
def destroyCurrent (k : Nat → Kind) (x : Box α) : Option (Slot α) :=
  if hasValue x then x.slot.destroy k 0 else x.slot.destroy k 1

/-- `operator=(U&&)`, expected.h:178-188 with internal/expected.h:168-173; `asg` is `is_assignable<T&, U>`, `conv` is
`is_convertible<U, T>` -/
def assignValue (k : Nat → Kind) (x : Box α) (src : Src α) (asg conv : Bool) : Option (Box α) :=
  (x.slot.assignOrInit k 0 1 (hasValue x) src asg conv).map fun s => ⟨s, some 0⟩

/-- `operator=(const unexpected<G>&)`, expected.h:199-210 with internal/expected.h:182-186 -/
def assignError (k : Nat → Kind) (x : Box α) (src : Src α) (asg conv : Bool) : Option (Box α) :=
  (x.slot.assignOrInit k 1 0 (!hasValue x) src asg conv).map fun s => ⟨s, some 1⟩

/-- `emplace`, expected.h:220-227 -/
def emplace (k : Nat → Kind) (x : Box α) (v : α) : Option (Box α) :=
  (destroyCurrent k x).map fun s => ⟨s.construct 0 v, some 0⟩

/-- `expected(const expected&)`, expected.h:106-111, through internal/expected.h:117-121 and `copying_constructor_functor`,
variant/storage.h:232-249: an alternative that is not copy constructible is left unconstructed.  `expected(expected&&)`,
132-135, passes its argument to the same (const reference) base constructor. -/
def copyCtor (k : Nat → Kind) (y : Box α) : Option (Box α) :=
  let i := if hasValue y then 0 else 1
  if (k i).copyable then (y.slot.read (.own i)).map fun v => ⟨Slot.raw.construct i v, some i⟩
  else some ⟨Slot.raw, some i⟩

inductive Op (α : Type u) where
  /-- `expected()`, `expected(U&&)`, `expected(in_place, …)`, 89-91, 125-129, 140-144 -/
  | newValue (v : α)
  /-- `expected(unexpect, …)`, `expected(const unexpected<G>&)`, 146-150, 165-174 -/
  | newError (e : α)
  | copy (b : Nat)
  | move (b : Nat)
  | assign (b : Nat) (v : α) (asg conv : Bool)
  | assignError (b : Nat) (e : α) (asg conv : Bool)
  | emplace (b : Nat) (v : α)
  /-- `~expected()`, 214-217 -/
  | destroy (b : Nat)
  deriving DecidableEq, Repr

def step (k : Nat → Kind) (s : State α) : Op α → Option (State α)
  | .newValue v => some (s.push ⟨Slot.raw.construct 0 v, some 0⟩)
  | .newError e => some (s.push ⟨Slot.raw.construct 1 e, some 1⟩)
  | .copy b =>
    match s.get b with
    | some y => (copyCtor k y).map s.push
    | none => none
  | .move b =>
    match s.get b with
    | some y => (copyCtor k y).map s.push
    | none => none
  | .assign b v asg conv =>
    match s.get b with
    | some x => (assignValue k x (.ext v) asg conv).map (s.put b)
    | none => none
  | .assignError b e asg conv =>
    match s.get b with
    | some x => (assignError k x (.ext e) asg conv).map (s.put b)
    | none => none
  | .emplace b v =>
    match s.get b with
    | some x => (emplace k x v).map (s.put b)
    | none => none
  | .destroy b =>
    match s.get b with
    | some x => (destroyCurrent k x).map fun sl => s.bury b sl.log
    | none => none

def run (k : Nat → Kind) (s : State α) : List (Op α) → Option (State α)
  | [] => some s
  | op :: ops =>
    match step k s op with
    | some s' => run k s' ops
    | none => none

/-- outcome of `value()`: the value, or `bad_expected_access` carrying the error -/
inductive Res (α : Type u) where
  | ok (v : α)
  | throws (e : α)
  deriving DecidableEq, Repr

/-- `value()`, expected.h:74-82, 230-242 -/
def value (x : Box α) : Option (Res α) :=
  if hasValue x then (x.slot.read (.own 0)).map .ok else (x.slot.read (.own 1)).map .throws

/-- `error()`, internal/expected.h:192-193; unchecked -/
def error (x : Box α) : Option α := x.slot.read (.own 1)

/-- `value_or(default)`, expected.h:279-283 -/
def valueOr (x : Box α) (d : α) : Option α :=
  if hasValue x then x.slot.read (.own 0) else some d

end Verif.Sum.Expected
