import Verif.Sum.Storage

/-!
# `optional`, `expected` and `variant` when the user's constructors and assignments throw

The same code as `Verif.Sum` models (`src/estd/optional.h`, `src/estd/internal/optional.h`, `src/estd/expected.h`,
`src/estd/internal/expected.h`, `src/estd/internal/variant.h`, `src/estd/internal/variant/storage.h`), now with operations
of the held types that may throw.  Every operation carries a flag: the constructor or assignment it calls throws.  The
exception leaves the operation at that point, the program catches it and goes on using the container.

Simplifications: values do not matter to what is alive and are left out, so that copying and moving are the same here; the
operations of trivial types do not throw; a construction through a temporary (storage.h:410-418) throws before the
temporary is moved or while it is, which leaves the storage in the same state; `optional` keeps its value as alternative 0
and `monostate` as alternative 1, `expected` its value as 0 and its error as 1; move constructors of `expected` and
`variant` are `noexcept`, so an exception in them ends the program and is not an operation here.
-/
namespace Verif.Throw
open Verif.Sum (Kind)

/-- How an operation ends: normally, with an exception, or wrongly: with undefined behaviour (an object destroyed, read or
assigned that is not alive) or with the storage of a living object that has a destructor overwritten. -/
inductive Out (σ : Type u) where
  | ok (s : σ)
  | threw (s : σ)
  | wrong
  deriving DecidableEq, Repr

/-- the next part of an operation runs only when the one before ended normally -/
def Out.bind (x : Out σ) (f : σ → Out τ) (g : σ → τ) : Out τ :=
  match x with
  | .ok s => f s
  | .threw s => .threw (g s)
  | .wrong => .wrong

/-- A container: the alternative alive in its storage, and its own record of it: `has_value` of `optional` (`some 0` /
`none`), `has_value_` of `expected` (`some 0` / `some 1`), `index_` of `variant` (`none` is `variant_npos`). -/
structure Box where
  live : Option Nat
  tag : Option Nat
  deriving DecidableEq, Repr

/-- `destroy<index>()`, storage.h:310-315; the destructor of a trivial type on dead storage is a no-op -/
def kill (k : Nat → Kind) (x : Box) (i : Nat) : Out Box :=
  if x.live = some i then .ok { x with live := none }
  else if (k i).trivial then .ok x else .wrong

/-- `new (storage.raw) T_i(…)`, storage.h:36-40, 327-339, 375-386; `f`: the constructor throws -/
def build (k : Nat → Kind) (x : Box) (i : Nat) (f : Bool) : Out Box :=
  match x.live with
  | some j =>
    if (k j).trivial then (if f && !(k i).trivial then .threw { x with live := none } else .ok { x with live := some i })
    else .wrong
  | none => if f && !(k i).trivial then .threw x else .ok { x with live := some i }

/-- `*get<I>() = v`, storage.h:425, 444; an assignment that throws leaves the object it was assigned to alive -/
def over (k : Nat → Kind) (x : Box) (i : Nat) (f : Bool) : Out Box :=
  if x.live = some i then (if f && !(k i).trivial then .threw x else .ok x)
  else if (k i).trivial then build k x i false else .wrong

/-- `assignment_helper`, storage.h:420-436: assign, or destroy and construct anew when not assignable -/
def assignmentHelper (k : Nat → Kind) (x : Box) (i : Nat) (f : Bool) : Out Box :=
  if (k i).assignable then over k x i f else (kill k x i).bind (fun y => build k y i f) id

/-- `direct_init_helper`, storage.h:438-467 -/
def directInit (k : Nat → Kind) (x : Box) (i : Nat) (f : Bool) : Out Box :=
  if (k i).trivial then over k x i f else build k x i f

/-- `assign_or_init<I, index>(match, u)`, storage.h:477-495 -/
def assignOrInit (k : Nat → Kind) (x : Box) (i index : Nat) (matching : Bool) (f : Bool) : Out Box :=
  if matching then assignmentHelper k x i f else (kill k x index).bind (fun y => directInit k y i f) id

/-- the container records what it holds: the last statement of the operations below -/
def record (t : Option Nat) (x : Box) : Out Box := .ok { x with tag := t }

/-! ## `optional` -/

/-- `optional_base::destroy`, internal/optional.h:234-238 -/
def Opt.destroy (k : Nat → Kind) (x : Box) : Out Box := if x.tag = some 0 then kill k x 0 else .ok x

/-- `assign_value`, optional.h:47-54; `operator=(U&&)` 206-215 -/
def Opt.assign (k : Nat → Kind) (x : Box) (f : Bool) : Out Box :=
  (assignOrInit k x 0 1 (x.tag = some 0) f).bind (record (some 0)) id

/-- `emplace`, optional.h:232-241 -/
def Opt.emplace (k : Nat → Kind) (x : Box) (f : Bool) : Out Box :=
  (Opt.destroy k x).bind (fun y => (build k y 0 f).bind (record (some 0)) id) id

/-- `reset`, internal/optional.h:245-250 -/
def Opt.reset (k : Nat → Kind) (x : Box) : Out Box := (Opt.destroy k x).bind (record none) id

/-! ## `expected` -/

/-- `destroy`, expected.h:66-72 -/
def Exp.destroy (k : Nat → Kind) (x : Box) : Out Box := if x.tag = some 0 then kill k x 0 else kill k x 1

/-- `operator=(U&&)`, expected.h:183-188 (value) and `operator=(const unexpected<G>&)`, 205-210 (error), with
internal/expected.h:168-186 -/
def Exp.assign (k : Nat → Kind) (x : Box) (i : Nat) (f : Bool) : Out Box :=
  if i = 0 then (assignOrInit k x 0 1 (x.tag = some 0) f).bind (record (some 0)) id
  else (assignOrInit k x 1 0 (!decide (x.tag = some 0)) f).bind (record (some 1)) id

/-- `emplace`, expected.h:220-227 -/
def Exp.emplace (k : Nat → Kind) (x : Box) (f : Bool) : Out Box :=
  (Exp.destroy k x).bind (fun y => (build k y 0 f).bind (record (some 0)) id) id

/-! ## `variant` -/

/-- `destroy_if_valid`, internal/variant.h:165-169, and `destroy(*index)`, storage.h:316-319, 516: `variant_npos` matches
no alternative -/
def Var.destroy (k : Nat → Kind) (x : Box) : Out Box :=
  match x.tag with
  | some j => kill k x j
  | none => .ok x

/-- `operator=(T&&)`, internal/variant.h:276-284 with `assign_or_init(size_type*, U&&)`, storage.h:497-520 -/
def Var.assign (k : Nat → Kind) (x : Box) (i : Nat) (f : Bool) : Out Box :=
  if x.tag = some i then assignmentHelper k x i f
  else (Var.destroy k x).bind (fun y => (directInit k y i f).bind (record (some i)) id) id

/-- `operator=(const variant&)` and `operator=(variant&&)`, internal/variant.h:311-343 with `assignment_functor` 90-145:
`j` is what the source holds.  For an assignable alternative the functor works on a copy of `index_` (96-97) and the
operator stores the new index at the end (323, 339); otherwise the storage is rebuilt (113-144).  (That the source of such
a move is emptied, 135-141, is part of C34.) -/
def Var.assignFrom (k : Nat → Kind) (x : Box) (j : Option Nat) (f : Bool) : Out Box :=
  match j with
  | none => (Var.destroy k x).bind (record none) id
  | some i =>
    if (k i).assignable then (Var.assign k x i f).bind (record (some i)) id
    else (Var.destroy k x).bind (fun y => (build k y i f).bind (record (some i)) id) id

/-- `emplace`, internal/variant.h:347-361: the index is cleared before the construction -/
def Var.emplace (k : Nat → Kind) (x : Box) (i : Nat) (f : Bool) : Out Box :=
  (Var.destroy k x).bind (fun y =>
    (record none y).bind (fun z => (build k z i f).bind (record (some i)) id) id) id

/-! ## Programs -/

inductive Flavor where | optional | expected | variant
  deriving DecidableEq, Repr

/-- What a program does.  `f`: the constructor or assignment of the held type that the operation runs throws. -/
inductive Op where
  /-- construct a container holding alternative `i` (`none`: an empty `optional`) -/
  | make (i : Option Nat) (f : Bool)
  /-- assign a value of alternative `i` to container `b` -/
  | assign (b i : Nat) (f : Bool)
  /-- assign container `c` to container `b` (`expected` has no such operator) -/
  | assignFrom (b c : Nat) (f : Bool)
  | emplace (b i : Nat) (f : Bool)
  | reset (b : Nat)
  | destroy (b : Nat)
  deriving DecidableEq, Repr

/-- the constructors: optional.h:90-140, expected.h:86-174, internal/variant.h:202-252; when the held object's
constructor throws there is no container -/
def make (k : Nat → Kind) (i : Option Nat) (f : Bool) : Out Box :=
  match i with
  | none => .ok ⟨none, none⟩
  | some j => (build k ⟨none, none⟩ j f).bind (record (some j)) id

/-- one operation on one container; `src` is what the record of the assigned container says -/
def act (fl : Flavor) (k : Nat → Kind) (x : Box) (src : Option Nat) : Op → Out Box
  | .make _ _ => .ok x
  | .assign _ i f =>
    match fl with
    | .optional => Opt.assign k x f
    | .expected => Exp.assign k x i f
    | .variant => Var.assign k x i f
  | .assignFrom _ _ f =>
    match fl with
    | .optional => if src = some 0 then Opt.assign k x f else Opt.reset k x
    | .expected => .ok x
    | .variant => Var.assignFrom k x src f
  | .emplace _ i f =>
    match fl with
    | .optional => Opt.emplace k x f
    | .expected => Exp.emplace k x f
    | .variant => Var.emplace k x i f
  | .reset _ =>
    match fl with
    | .optional => Opt.reset k x
    | .expected => .ok x
    | .variant => .ok x
  | .destroy _ =>
    match fl with
    | .optional => Opt.destroy k x
    | .expected => Exp.destroy k x
    | .variant => Var.destroy k x

/-- containers by order of construction, `none` once destroyed -/
abbrev State := List (Option Box)

/-- container `b`, when there is one -/
def State.get (s : State) (b : Nat) : Option Box := s[b]?.join

/-- the container an operation changes -/
def Op.target : Op → Nat
  | .make _ _ => 0
  | .assign b _ _ | .assignFrom b _ _ | .emplace b _ _ | .reset b | .destroy b => b

/-- the container an operation reads -/
def Op.source : Op → Nat
  | .assignFrom _ c _ => c
  | op => op.target

/-- One operation of the program; one that names a container that does not exist is no operation.  Assigning a container
to itself when the held type has to be destroyed and constructed anew reads a destroyed object. -/
def step (fl : Flavor) (k : Nat → Kind) (s : State) (op : Op) : Out State :=
  match op with
  | .make i f => (make k i f).bind (fun x => .ok (s ++ [some x])) (fun _ => s)
  | op =>
    match State.get s op.target, State.get s op.source with
    | some x, some y =>
      match op with
      | .destroy b => (act fl k x y.tag op).bind (fun _ => .ok (s.set b none)) (fun _ => s)
      | .assignFrom b c f =>
        if fl ≠ .expected ∧ b = c ∧ x.live.any (fun i => !(k i).assignable) then .wrong
        else (act fl k x y.tag (.assignFrom b c f)).bind (fun z => .ok (s.set b (some z))) (fun z => s.set b (some z))
      | op => (act fl k x y.tag op).bind (fun z => .ok (s.set op.target (some z))) (fun z => s.set op.target (some z))
    | _, _ => .ok s

/-- a program: exceptions are caught and the program goes on; `none` when something goes wrong -/
def run (fl : Flavor) (k : Nat → Kind) : State → List Op → Option State
  | s, [] => some s
  | s, op :: ops =>
    match step fl k s op with
    | .ok s' | .threw s' => run fl k s' ops
    | .wrong => none

end Verif.Throw
