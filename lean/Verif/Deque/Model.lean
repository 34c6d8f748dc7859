import Verif.Common.Mem
/-!
# Model of layer1::deque and queue (queue.h)

Iterators into the fixed array are indices `0 .. N` (`N` is `end()`).  Element lifetimes are not modelled
here: a popped slot keeps its bytes.
-/
namespace Verif.Deque
open Verif

variable {α : Type u}

/-- The members of `layer1::deque<T, N>`, queue.h:99-117; `N = arr.length`. -/
structure Deque (α : Type u) where
  arr : List α
  front : Nat
  back : Nat
  empty : Bool
deriving DecidableEq, Repr

/-- `deque()`, queue.h:184-189; `arr` is the uninitialised storage. -/
def init (arr : List α) : Deque α := ⟨arr, 0, 0, true⟩

/-- `evaluate_rollover`, queue.h:121-125. -/
def rollover (N i : Nat) : Nat := if i = N then 0 else i

/-- `evaluate_rollunder`, queue.h:131-140. -/
def rollunder (N i : Nat) : Nat := if i = 0 then N else i

/-- `decrement`, queue.h:144-151.  (For `N = 0` the code steps before the array; every use then
dereferences, which the zero-length array makes undefined.) -/
def decrement (N i : Nat) : Nat := rollunder N i - 1

/-- `increment`, queue.h:159-164. -/
def increment (N i : Nat) : Nat := rollover N (i + 1)

/-- `_size`, queue.h:175-181. -/
def rawSize (d : Deque α) : Nat :=
  if d.front > d.back then d.arr.length - (d.front - d.back) else d.back - d.front

/-- `size`, queue.h:271-280. -/
def size (d : Deque α) : Nat :=
  if d.empty then 0
  else if rawSize d = 0 then d.arr.length else rawSize d

/-- `push_back` (both overloads), queue.h:284-292 and 407-417. -/
def pushBack (d : Deque α) (v : α) : Option (Deque α) :=
  match wr d.arr d.back v with
  | none => none
  | some a => some ⟨a, d.front, rollover d.arr.length (d.back + 1), false⟩

/-- `emplace_back`, queue.h:394-403: also returns the slot the returned reference denotes. -/
def emplaceBack (d : Deque α) (v : α) : Option (Deque α × Nat) :=
  match wr d.arr d.back v with
  | none => none
  | some a => some (⟨a, d.front, increment d.arr.length d.back, false⟩, d.back)

/-- `push_front`, queue.h:303-314. -/
def pushFront (d : Deque α) (v : α) : Option (Deque α) :=
  let f := rollunder d.arr.length d.front - 1
  match wr d.arr f v with
  | none => none
  | some a => some ⟨a, f, d.back, false⟩

/-- `emplace_front`, queue.h:380-390: constructs at `*m_front` and only then decrements `m_front`. -/
def emplaceFront (d : Deque α) (v : α) : Option (Deque α × Nat) :=
  match wr d.arr d.front v with
  | none => none
  | some a => some (⟨a, decrement d.arr.length d.front, d.back, false⟩, d.front)

/-- `front()`, queue.h:341-357. -/
def frontVal (d : Deque α) : Option α := rd d.arr d.front

/-- `back()`, queue.h:359-375. -/
def backVal (d : Deque α) : Option α := rd d.arr (decrement d.arr.length d.back)

/-- `pop_back`, queue.h:317-326: destroys `back()` (a dereference), then steps back. -/
def popBack (d : Deque α) : Option (Deque α) :=
  match backVal d with
  | none => none
  | some _ =>
    let b := decrement d.arr.length d.back
    some { d with back := b, empty := if d.front = b then true else d.empty }

/-- `pop_front`, queue.h:328-339. -/
def popFront (d : Deque α) : Option (Deque α) :=
  match frontVal d with
  | none => none
  | some _ =>
    let f := rollover d.arr.length (d.front + 1)
    some { d with front := f, empty := if f = d.back then true else d.empty }

/-- The loop `for(auto i = d.begin(); i != d.end(); ++i) visit(*i);` with the iterator of queue.h:214-267
(`operator++` 226-230, `operator*` 246-249, `operator!=` 256-259).  `fuel` bounds the steps; running out is
reported as `none`. -/
def visit (d : Deque α) : Nat → Nat → Option (List α)
  | 0, _ => none
  | fuel + 1, it =>
    if it = d.back then some []
    else
      match rd d.arr it with
      | none => none
      | some x => (visit d fuel (increment d.arr.length it)).map (x :: ·)

/-- Operations a deque history is made of. -/
inductive Op (α : Type u) where
  | pushBack (v : α)
  | pushFront (v : α)
  | emplaceBack (v : α)
  | popBack
  | popFront

def step (d : Deque α) : Op α → Option (Deque α)
  | .pushBack v => pushBack d v
  | .pushFront v => pushFront d v
  | .emplaceBack v => (emplaceBack d v).map (·.1)
  | .popBack => popBack d
  | .popFront => popFront d

def run : List (Op α) → Deque α → Option (Deque α)
  | [], d => some d
  | op :: ops, d =>
    match step d op with
    | none => none
    | some d' => run ops d'

/-! `queue<T, Container>` over the deque, queue.h:428-480: `push`/`emplace` 452-455, 468-479 append at the
back, `pop` 450 removes at the front, `front`/`back`/`size`/`empty` forward. -/

inductive QOp (α : Type u) where
  | push (v : α)
  | emplace (v : α)
  | pop

/-- Runs a queue history, recording what `front()` returned just before each `pop()`. -/
def qrun : List (QOp α) → Deque α → Option (Deque α × List α)
  | [], d => some (d, [])
  | .push v :: ops, d =>
    match pushBack d v with
    | none => none
    | some d' => qrun ops d'
  | .emplace v :: ops, d =>
    match emplaceBack d v with
    | none => none
    | some (d', _) => qrun ops d'
  | .pop :: ops, d =>
    match frontVal d, popFront d with
    | some x, some d' => (qrun ops d').map fun r => (r.1, x :: r.2)
    | _, _ => none

end Verif.Deque
