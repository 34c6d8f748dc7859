import Verif.Common.Mem

/-!
# Model of `linked_ref`

Modelled from `src/estd/internal/linked_ref.h` and the circular list operations it uses
(`src/estd/internal/list/intrusive_forward.h`).  References are numbered by construction; a destroyed one is `none`.
`Traits::destruct` is represented by appending the object to a log.

`make_weak` (158-167) is not modelled: it passes a `const linked_ref&` where `insert_after` takes a non-const
reference, so it does not compile, and the only other source of weak references is private.  Every reference is
therefore shared.
-/
namespace Verif.LinkedRef
open Verif

/-- `value_` and `next_`, linked_ref.h:32-34; `next_ = nullptr` is `none` -/
structure Node where
  obj : Nat
  next : Option Nat
  deriving DecidableEq, Repr

structure State where
  nodes : List (Option Node)
  /-- objects passed to `Traits::destruct`, in order -/
  log : List Nat
  deriving DecidableEq, Repr

def State.init : State := ⟨[], []⟩

/-- dereference a reference that has not been destroyed -/
def State.get (s : State) (a : Nat) : Option Node :=
  match rd s.nodes a with
  | some (some n) => some n
  | _ => none

/-- `Traits::next(&node)` -/
def State.nextOf (s : State) (a : Nat) : Option (Option Nat) := (s.get a).map (·.next)

/-- `Traits::next(&node, v)` -/
def State.setNext (s : State) (a : Nat) (v : Option Nat) : Option State :=
  match s.get a with
  | some n => (wr s.nodes a (some { n with next := v })).map fun ns => { s with nodes := ns }
  | none => none

/-- `insert_after(pos, value)`, intrusive_forward.h:41-53 -/
def insertAfter (s : State) (pos y : Nat) : Option State :=
  match s.nextOf pos with
  | some n =>
    match s.setNext pos (some y) with
    | some s' => s'.setNext y n
    | none => none
  | none => none

/-- `erase_after(pos)`, intrusive_forward.h:56-65 -/
def eraseAfter (s : State) (pos : Nat) : Option State :=
  match s.nextOf pos with
  | some (some r) =>
    match s.nextOf r with
    | some after => s.setNext pos after
    | none => none
  | _ => none

/-- `circular_intrusive_forward::before_begin()`, intrusive_forward.h:106-114; a null `next` is dereferenced -/
def beforeBegin (s : State) (head : Nat) : Nat → Nat → Option Nat
  | 0, _ => none
  | fuel + 1, cur =>
    match s.nextOf cur with
    | some n =>
      if n = some head then some cur
      else
        match n with
        | some c => beforeBegin s head fuel c
        | none => none
    | none => none

/-- `explicit linked_ref(value)`, linked_ref.h:55-59: a new object, in a ring of its own -/
def create (s : State) : State :=
  { s with nodes := s.nodes ++ [some ⟨s.nodes.length, some s.nodes.length⟩] }

/-- a new reference with the value of `x` and an unset `next_` -/
def alloc (s : State) (x : Nat) : Option State :=
  match s.get x with
  | some n => some { s with nodes := s.nodes ++ [some ⟨n.obj, none⟩] }
  | none => none

/-- copy constructor, linked_ref.h:61-82 -/
def copy (s : State) (x : Nat) : Option State :=
  match alloc s x with
  | some s1 => insertAfter s1 x s.nodes.length
  | none => none

/-- move constructor, linked_ref.h:84-98 -/
def move (s : State) (x : Nat) : Option State :=
  let y := s.nodes.length
  match alloc s x with
  | some s1 =>
    match beforeBegin s1 x s1.nodes.length x with
    | some pos =>
      -- replace_after, intrusive_forward.h:68-74
      match eraseAfter s1 pos with
      | some s2 =>
        match insertAfter s2 pos y with
        | some s3 => s3.setNext x none
        | none => none
      | none => none
    | none => none
  | none => none

/-- the loop of the destructor, linked_ref.h:117-125: the predecessor of `x` and the number of other references -/
def circle (s : State) (x : Nat) : Nat → Nat → Nat → Option (Nat × Nat)
  | 0, _, _ => none
  | fuel + 1, n, shared =>
    match s.nextOf n with
    | some nx =>
      if nx = some x then some (n, shared)
      else
        match nx with
        | some c => circle s x fuel c (shared + 1)
        | none => none
    | none => none

/-- destructor, linked_ref.h:100-152 (the branch for weak references, 142-149, is unreachable) -/
def destroy (s : State) (x : Nat) : Option State :=
  match s.get x with
  | some n =>
    let dead (s : State) : State := { s with nodes := s.nodes.set x none }
    if n.next = none then some (dead s)
    else if n.next = some x then some (dead { s with log := s.log ++ [n.obj] })
    else
      match circle s x s.nodes.length x 0 with
      | some (p, shared) =>
        match eraseAfter s p with
        | some s1 => some (dead (if shared = 0 then { s1 with log := s1.log ++ [n.obj] } else s1))
        | none => none
      | none => none
  | none => none

/-- the loop of `count_shared`, linked_ref.h:179-188 -/
def countLoop (s : State) (x : Nat) : Nat → Nat → Nat → Option Nat
  | 0, _, _ => none
  | fuel + 1, i, count =>
    match s.nextOf i with
    | some (some c) => if c = x then some count else countLoop s x fuel c (count + 1)
    | some none => some count
    | none => none

/-- `count_shared()`, linked_ref.h:169-191 -/
def countShared (s : State) (x : Nat) : Option Nat := countLoop s x s.nodes.length x 1

inductive Op where
  | create
  | copy (x : Nat)
  | move (x : Nat)
  | destroy (x : Nat)
  deriving DecidableEq, Repr

def step (s : State) : Op → Option State
  | .create => some (LinkedRef.create s)
  | .copy x => LinkedRef.copy s x
  | .move x => LinkedRef.move s x
  | .destroy x => LinkedRef.destroy s x

def run (s : State) : List Op → Option State
  | [] => some s
  | op :: ops =>
    match step s op with
    | some s' => run s' ops
    | none => none

end Verif.LinkedRef
