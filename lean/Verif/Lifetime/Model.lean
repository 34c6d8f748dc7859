import Verif.DynArray.Model

/-!
# Lifetimes of the elements of fixed-capacity vectors

The same code as `Verif.DynArray` models, for elements that are not trivially copyable: whether a cell holds an object
matters, and constructions and destructions are counted.  Modelled from `src/estd/internal/dynamic_array.h`,
`src/estd/internal/container/specializer.h`, `src/estd/allocators/fixed.h` and `src/estd/internal/array.h`.

Simplifications: vectors with an explicit size (not null terminated); sizes do not wrap and growing a full vector ends the
program (both are the subject of C11); constructors, assignments and destructors of the element type have no effect
besides the value they leave.
-/
namespace Verif.Lifetime
open DynArray (Res)

/-- An object: a value, or what a move leaves behind. -/
inductive Obj (α : Type u) where
  | val (a : α)
  | moved
  deriving DecidableEq, Repr

/-- A vector: its cells (`none`: raw memory, no object there), `size()`, and how many elements have been constructed and
destroyed in its cells so far. -/
structure St (α : Type u) where
  slots : List (Option (Obj α))
  size : Nat
  born : Nat
  died : Nat
  deriving DecidableEq, Repr

variable {α : Type u}

/-- A `layer1::vector` of `cap` elements as constructed: for an element type that is not integral its buffer is
`uninitialized_array`, bytes holding no object (allocators/fixed.h:363-369, internal/array.h:28-50); the size is 0
(impl/dynamic_array.h:117-118). -/
def raw (cap : Nat) : St α := { slots := List.replicate cap none, size := 0, born := 0, died := 0 }

/-- A `layer2::vector` or `layer3::vector` over the caller's array of objects `xs`, with size 0: vector.h:79-83, 122-127
(for `layer3` the buffer is given as `T*`; allocators/fixed.h:391-396, 413-434). -/
def over (xs : List α) : St α := { slots := xs.map fun x => some (.val x), size := 0, born := xs.length, died := 0 }

/-- placement new at cell `i` (dynamic_array.h:624, 670-674, 297, 212; impl/handle_desc.h:232-237): what was in the cell is
not destroyed. -/
def construct (s : St α) (i : Nat) (o : Obj α) : Res (St α) :=
  if i < s.slots.length then .ok { s with slots := s.slots.set i (some o), born := s.born + 1 } else .ub

/-- the destructor of the object at cell `i` (impl/handle_desc.h:240-245); there has to be one -/
def destroy (s : St α) (i : Nat) : Res (St α) :=
  match s.slots[i]? with
  | some (some _) => .ok { s with slots := s.slots.set i none, died := s.died + 1 }
  | _ => .ub

/-- the object at cell `i`; there has to be one -/
def read (s : St α) (i : Nat) : Res (Obj α) :=
  match s.slots[i]? with
  | some (some o) => .ok o
  | _ => .ub

/-- assignment to the object at cell `i`; there has to be one -/
def assign (s : St α) (i : Nat) (o : Obj α) : Res (St α) :=
  match s.slots[i]? with
  | some (some _) => .ok { s with slots := s.slots.set i (some o) }
  | _ => .ub

/-- `*d = *s`, algorithm.h:130 -/
def copyAssign (s : St α) (src dst : Nat) : Res (St α) := (read s src).bind fun o => assign s dst o

/-- `*d = std::move(*s)`, algorithm.h:145 -/
def moveAssign (s : St α) (src dst : Nat) : Res (St α) :=
  (read s src).bind fun o => (assign s dst o).bind fun s' => assign s' src .moved

/-- `new (d) T(std::move(*s))`, dynamic_array.h:212 -/
def moveConstruct (s : St α) (src dst : Nat) : Res (St α) :=
  (read s src).bind fun o => (construct s dst o).bind fun s' => assign s' src .moved

/-- The backward loops that make room: `move_backward` (algorithm.h:144-145), `copy_backward` (129-130) and the
constructing one (dynamic_array.h:211-212): the `k` elements from `first` on, last one first, go `dist` cells up by `f`. -/
def shift (f : St α → Nat → Nat → Res (St α)) (first dist : Nat) : Nat → St α → Res (St α)
  | 0, s => .ok s
  | k + 1, s => (f s (first + k) (first + k + dist)).bind fun s' => shift f first dist k s'

/-- `grow(by)`, dynamic_array.h:422-439 with 157-179 and 132-141; see the simplifications above -/
def grow (s : St α) (by_ : Nat) : Res (St α) :=
  if s.size + by_ ≤ s.slots.length then .ok { s with size := s.size + by_ } else .abort

/-- `copy_n(buf, len, raw)`, specializer.h:92-99 and algorithm.h:114-115; also `copy` 98-100: assignments -/
def assignAll (s : St α) (pos : Nat) : List α → Res (St α)
  | [] => .ok s
  | v :: vs => (assign s pos (.val v)).bind fun s' => assignAll s' (pos + 1) vs

/-- What a program does with a vector. -/
inductive Op (α : Type u) where
  | pushCopy (v : α)
  | pushMove (v : α)
  | emplace (v : α)
  | pop
  | insertMove (i : Nat) (v : α)
  | insertRange (i : Nat) (vs : List α)
  | erase (i : Nat)
  | resize (n : Nat)
  deriving DecidableEq, Repr

/-- `push_back(const value_type&)`, dynamic_array.h:605-608 through `append` 457-485: assigns to the cell past the end -/
def pushCopy (s : St α) (v : α) : Res (St α) := (grow s 1).bind fun s' => assignAll s' s.size [v]

/-- `push_back(value_type&&)`, dynamic_array.h:611-629: constructs in the cell past the end -/
def pushMove (s : St α) (v : α) : Res (St α) := (grow s 1).bind fun s' => construct s' s.size (.val v)

/-- `emplace_back`, dynamic_array.h:660-680 -/
def emplace (s : St α) (v : α) : Res (St α) := (grow s 1).bind fun s' => construct s' s.size (.val v)

/-- `pop_back`, dynamic_array.h:586-603; popping an empty vector is undefined -/
def pop (s : St α) : Res (St α) :=
  if s.size = 0 then .ub
  else (destroy s (s.size - 1)).bind fun s' => .ok { s' with size := s.size - 1 }

/-- `insert(pos, value_type&&)`, dynamic_array.h:693-698 through `raw_insert` 278-300.  `assignable`: the element type has a
move assignment, so that `move_assist` is 196-201; otherwise it is 204-213. -/
def insertMove (assignable : Bool) (s : St α) (i : Nat) (v : α) : Res (St α) :=
  if s.size < i then .ub
  else (grow s 1).bind fun s' =>
    (shift (if assignable then moveAssign else moveConstruct) i 1 (s.size - i) s').bind fun s'' => construct s'' i (.val v)

/-- `insert(pos, first, last)`, dynamic_array.h:702-708 through `raw_insert` 303-322, with `copy_assist` 217-227 (the
element type has a copy assignment). -/
def insertRange (s : St α) (i : Nat) (vs : List α) : Res (St α) :=
  if s.size < i then .ub
  else (grow s vs.length).bind fun s' =>
    (shift copyAssign i vs.length (s.size - i) s').bind fun s'' => assignAll s'' i vs

/-- `erase(pos)`, dynamic_array.h:646-654 through `_erase` 489-506: the size goes down, and as many *bytes* as elements
follow the erased one are moved; for an element type that is not trivially copyable moving bytes is undefined.  Nothing is
destroyed. -/
def erase (s : St α) (i : Nat) : Res (St α) :=
  if i < s.size then (if s.size - (i + 1) = 0 then .ok { s with size := s.size - 1 } else .ub) else .ub

/-- `resize(n)`, dynamic_array.h:383-386 with 144-154; `clear()` is `resize(0)` (388-391) -/
def resize (s : St α) (n : Nat) : Res (St α) := if n ≤ s.slots.length then .ok { s with size := n } else .abort

/-- one operation -/
def step (assignable : Bool) (s : St α) : Op α → Res (St α)
  | .pushCopy v => pushCopy s v
  | .pushMove v => pushMove s v
  | .emplace v => emplace s v
  | .pop => pop s
  | .insertMove i v => insertMove assignable s i v
  | .insertRange i vs => insertRange s i vs
  | .erase i => erase s i
  | .resize n => resize s n

/-- a history -/
def run (assignable : Bool) (s : St α) : List (Op α) → Res (St α)
  | [] => .ok s
  | o :: os => (step assignable s o).bind fun s' => run assignable s' os

/-- The end of a `layer1::vector`: `dynamic_array` has no destructor (dynamic_array.h:373-374), nor has the byte buffer. -/
def finishRaw (s : St α) : Res (St α) := .ok s

/-- The end of the caller's array of objects: the language destroys every one of its cells. -/
def finishOver (s : St α) : Res (St α) :=
  if s.slots.all Option.isSome then .ok { s with slots := s.slots.map fun _ => none, died := s.died + s.slots.length } else .ub

end Verif.Lifetime
