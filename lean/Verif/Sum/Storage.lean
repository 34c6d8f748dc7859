import Verif.Common.Mem

/-!
# Model of `variant_storage`, the storage under `optional`, `expected` and `variant`

Modelled from `src/estd/internal/variant/storage.h`.  A `Slot` is the raw storage together with the object alive in it
(alternative index and value) and a log of the constructor, destructor and assignment calls made on objects *in the
storage* (temporaries, such as the one in `assignment_emplace_helper`, 408-418, come and go outside it and are not
logged).  Values of all alternatives are drawn from one type `α`; constructors and assignments do not throw.
`none` is undefined behaviour: destroying or assigning an object that is not alive, or reading one.
-/
namespace Verif.Sum

/-- what the overloads in storage.h look at -/
structure Kind where
  /-- `is_trivial<T_i>` -/
  trivial : Bool
  /-- `is_copy_assignable<T_i>`, `is_move_assignable<T_i>` -/
  assignable : Bool
  /-- `is_copy_constructible<T_i>` -/
  copyable : Bool
  deriving DecidableEq, Repr

inductive Event where
  | ctor (i : Nat)
  | dtor (i : Nat)
  | assign (i : Nat)
  deriving DecidableEq, Repr

structure Slot (α : Type u) where
  live : Option (Nat × α)
  log : List Event
  deriving DecidableEq, Repr

/-- raw storage, nothing alive -/
def Slot.raw : Slot α := ⟨none, []⟩

/-- an argument: a value from outside, or a reference to the object in this very storage -/
inductive Src (α : Type u) where
  | ext (v : α)
  | own (i : Nat)
  deriving DecidableEq, Repr

/-- reading through the argument -/
def Slot.read (s : Slot α) : Src α → Option α
  | .ext v => some v
  | .own i =>
    match s.live with
    | some (j, v) => if j = i then some v else none
    | none => none

/-- `new (storage.raw) T_i(…)`: `construct_at`, `emplace`, `copy`, `move`; 36-40, 327-339, 375-386 -/
def Slot.construct (s : Slot α) (i : Nat) (v : α) : Slot α := ⟨some (i, v), s.log ++ [.ctor i]⟩

/-- `destroy<index>()`, 310-315; the destructor call of a trivial type on dead storage is a no-op -/
def Slot.destroy (k : Nat → Kind) (s : Slot α) (i : Nat) : Option (Slot α) :=
  match s.live with
  | some (j, _) =>
    if j = i then some ⟨none, s.log ++ [.dtor i]⟩
    else if (k i).trivial then some s else none
  | none => if (k i).trivial then some s else none

/-- `*get<I>() = v`; assigning to dead storage begins the lifetime of a trivial type -/
def Slot.assign (k : Nat → Kind) (s : Slot α) (i : Nat) (v : α) : Option (Slot α) :=
  match s.live with
  | some (j, _) =>
    if j = i then some ⟨some (i, v), s.log ++ [.assign i]⟩
    else if (k i).trivial then some (s.construct i v) else none
  | none => if (k i).trivial then some (s.construct i v) else none

/-- `assignment_emplace_helper`, 386-418; does nothing when the argument is not convertible -/
def Slot.emplaceHelper (s : Slot α) (i : Nat) (src : Src α) (conv : Bool) : Option (Slot α) :=
  if conv then (s.read src).map (s.construct i) else some s

/-- `assignment_helper`, 420-436: assign, or destroy and construct anew when not assignable -/
def Slot.assignmentHelper (k : Nat → Kind) (s : Slot α) (i : Nat) (src : Src α) (asg conv : Bool) : Option (Slot α) :=
  if asg then
    match s.read src with
    | some v => s.assign k i v
    | none => none
  else
    match s.destroy k i with
    | some s' => s'.emplaceHelper i src conv
    | none => none

/-- `direct_init_helper`, 438-467 -/
def Slot.directInit (k : Nat → Kind) (s : Slot α) (i : Nat) (src : Src α) (conv : Bool) : Option (Slot α) :=
  if (k i).trivial then
    if conv then
      match s.read src with
      | some v => s.assign k i v
      | none => none
    else some s
  else s.emplaceHelper i src conv

/-- `assign_or_init<I, index>(match, u)`, 477-495 -/
def Slot.assignOrInit (k : Nat → Kind) (s : Slot α) (i index : Nat) (matching : Bool) (src : Src α)
    (asg conv : Bool) : Option (Slot α) :=
  if matching then s.assignmentHelper k i src asg conv
  else
    match s.destroy k index with
    | some s' => s'.directInit k i src conv
    | none => none

/-- A container: the storage and its own record of what it holds: `has_value` of `optional` (`some 0` / `none`),
`has_value_` of `expected` (`some 0` / `some 1`), `index_` of `variant` (`none` is `variant_npos`). -/
structure Box (α : Type u) where
  slot : Slot α
  tag : Option Nat
  deriving DecidableEq, Repr

/-- containers by order of construction, `none` once destroyed, and the logs of the destroyed ones -/
structure State (α : Type u) where
  boxes : List (Option (Box α))
  buried : List (List Event)
  deriving DecidableEq, Repr

def State.init : State α := ⟨[], []⟩

/-- a container that has not been destroyed -/
def State.get (s : State α) (b : Nat) : Option (Box α) :=
  match rd s.boxes b with
  | some (some x) => some x
  | _ => none

/-- replace container `b` -/
def State.put (s : State α) (b : Nat) (x : Box α) : State α := { s with boxes := s.boxes.set b (some x) }

/-- a new container -/
def State.push (s : State α) (x : Box α) : State α := { s with boxes := s.boxes ++ [some x] }

/-- the container is gone -/
def State.bury (s : State α) (b : Nat) (log : List Event) : State α := ⟨s.boxes.set b none, s.buried ++ [log]⟩

/-- what a move leaves behind in the source (its value only, it stays alive) -/
def Box.gut (g : α → α) (x : Box α) : Box α :=
  { x with slot := { x.slot with live := x.slot.live.map fun p => (p.1, g p.2) } }

end Verif.Sum
