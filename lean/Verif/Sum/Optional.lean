import Verif.Sum.Storage

/-!
# Model of `optional`

Modelled from `src/estd/optional.h` and `src/estd/internal/optional.h` (`optional_value_provider`, `optional_base`): the
storage is `variant_storage<T, monostate>`, alternative 0 is the value, alternative 1 (`monostate`) is what
`assign_or_init<0, 1>` "moves away from" when empty.  Arguments have type `T`.  `gut` is what a move leaves in the
source.
-/
namespace Verif.Sum.Optional
open Verif.Sum

/-- `variant_storage<T, monostate>`: the alternatives -/
def kinds (t : Kind) : Nat → Kind
  | 0 => t
  | _ => ⟨true, true, true⟩

/-- `optional_has_value::has_value()`, internal/optional.h:77-91 -/
def hasValue (x : Box α) : Bool := x.tag == some 0

/-- `optional_base::destroy()`, internal/optional.h:234-238, 154-157 -/
def destroyValue (t : Kind) (x : Box α) : Option (Slot α) :=
  if hasValue x then x.slot.destroy (kinds t) 0 else some x.slot

/-- `optional_base::reset()`, internal/optional.h:245-250 -/
def reset (t : Kind) (x : Box α) : Option (Box α) := (destroyValue t x).map fun s => ⟨s, none⟩

/-- `optional::assign_value`, optional.h:47-54, and `optional_value_provider::assign_value`, internal/optional.h:166-178 -/
def assignValue (t : Kind) (x : Box α) (src : Src α) : Option (Box α) :=
  (x.slot.assignOrInit (kinds t) 0 1 (hasValue x) src t.assignable true).map fun s => ⟨s, some 0⟩

/-- `operator=(const optional&)` / `operator=(optional&&)`, optional.h:168-203: `y` is the source, `src` a reference to
its value -/
def assignFrom (t : Kind) (x y : Box α) (src : Src α) : Option (Box α) :=
  if hasValue y then assignValue t x src else reset t x

/-- `emplace`, optional.h:231-241 with internal/optional.h:141-145 -/
def emplace (t : Kind) (x : Box α) (v : α) : Option (Box α) :=
  (destroyValue t x).map fun s => ⟨s.construct 0 v, some 0⟩

/-- `optional(const optional&)` and `optional(optional&&)`, optional.h:101-106, 127-130, through
`optional_base(in_place_conditional…)`, internal/optional.h:212-231 and variant/storage.h:286-294: constructed only when the source has a value -/
def construct (y : Box α) : Option (Box α) :=
  if hasValue y then (y.slot.read (.own 0)).map fun v => ⟨Slot.raw.construct 0 v, some 0⟩
  else some ⟨Slot.raw, none⟩

inductive Op (α : Type u) where
  /-- `optional()` and `optional(nullopt)`, optional.h:90-92 -/
  | new
  /-- `optional(U&&)` and `optional(in_place, …)`, 112-119, 133-136 -/
  | newValue (v : α)
  | copy (b : Nat)
  | move (b : Nat)
  | assign (b : Nat) (v : α)
  | assignCopy (b c : Nat)
  | assignMove (b c : Nat)
  | emplace (b : Nat) (v : α)
  /-- `reset()` and `= nullopt`, 152-156 -/
  | reset (b : Nat)
  /-- `~optional_base`, internal/optional.h:240-243 -/
  | destroy (b : Nat)
  deriving DecidableEq, Repr

/-- reference to the value of container `c`, seen from container `b` -/
def srcOf (b c : Nat) (y : Box α) : Option (Src α) :=
  if b = c then some (.own 0) else (y.slot.read (.own 0)).map .ext

def step (t : Kind) (gut : α → α) (s : State α) : Op α → Option (State α)
  | .new => some (s.push ⟨Slot.raw, none⟩)
  | .newValue v => some (s.push ⟨Slot.raw.construct 0 v, some 0⟩)
  | .copy b =>
    match s.get b with
    | some y => (construct y).map s.push
    | none => none
  | .move b =>
    match s.get b with
    | some y => (construct y).map (s.put b (y.gut gut)).push
    | none => none
  | .assign b v =>
    match s.get b with
    | some x => (assignValue t x (.ext v)).map (s.put b)
    | none => none
  | .assignCopy b c =>
    match s.get b, s.get c with
    | some x, some y =>
      if hasValue y then
        match srcOf b c y with
        | some src => (assignFrom t x y src).map (s.put b)
        | none => none
      else (reset t x).map (s.put b)
    | _, _ => none
  | .assignMove b c =>
    match s.get b, s.get c with
    | some x, some y =>
      if hasValue y then
        match srcOf b c y with
        | some src =>
          match (assignFrom t x y src).map (s.put b) with
          | some s' =>
            -- the source has been moved from
            match s'.get c with
            | some y' => some (s'.put c (y'.gut gut))
            | none => none
          | none => none
        | none => none
      else (reset t x).map (s.put b)
    | _, _ => none
  | .emplace b v =>
    match s.get b with
    | some x => (emplace t x v).map (s.put b)
    | none => none
  | .reset b =>
    match s.get b with
    | some x => (reset t x).map (s.put b)
    | none => none
  | .destroy b =>
    match s.get b with
    | some x => (destroyValue t x).map fun sl => s.bury b sl.log
    | none => none

def run (t : Kind) (gut : α → α) (s : State α) : List (Op α) → Option (State α)
  | [] => some s
  | op :: ops =>
    match step t gut s op with
    | some s' => run t gut s' ops
    | none => none

/-- outcome of an accessor that may throw -/
inductive Res (α : Type u) where
  | ok (v : α)
  | throws
  deriving DecidableEq, Repr

/-- `value()`, optional.h:78-85, 247-266 -/
def value (x : Box α) : Option (Res α) :=
  if hasValue x then (x.slot.read (.own 0)).map .ok else some .throws

/-- `value_or(default)`, optional.h:280-293 -/
def valueOr (x : Box α) (d : α) : Option α :=
  if hasValue x then x.slot.read (.own 0) else some d

/-- `operator==(optional, value)`, optional.h:396-407 -/
def eqValue (eq : α → α → Bool) (x : Box α) (v : α) : Option Bool :=
  if hasValue x then (x.slot.read (.own 0)).map (eq · v) else some false

/-- `operator==(optional, optional)`, optional.h:409-415 -/
def eqOpt (eq : α → α → Bool) (x y : Box α) : Option Bool :=
  if hasValue x && hasValue y then
    match x.slot.read (.own 0), y.slot.read (.own 0) with
    | some a, some b => some (eq a b)
    | _, _ => none
  else some (!hasValue x && !hasValue y)

end Verif.Sum.Optional
