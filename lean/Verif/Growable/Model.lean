import Verif.DynArray.History

/-!
# Vectors over an allocator that can reallocate

`src/estd/internal/dynamic_array.h`, `src/estd/internal/impl/dynamic_array.h`,
`src/estd/internal/impl/handle_desc.h`, `src/estd/allocators/handle_desc.h`: `estd::vector<T, Allocator>`
where `Allocator` hands out blocks and can resize them (the shape of `test/catch/mem.h:129-166`), so that
the descriptor itself remembers the capacity (`has_size = false`) and the vector its own length.

The allocator is the caller's.  It is modelled by what such allocators promise: `allocate` gives a fresh
block of indeterminate cells or the invalid handle; `reallocate` gives a block that keeps the common prefix
and gives up the old one, or, when it fails, the invalid handle with the old block untouched.  Whether the
next request succeeds is read off a list (`plan`), so theorems that quantify over it cover every pattern of
failures.  A block that was resized always gets a new identity.

Simplifications: sizes are natural numbers (`size_t` does not overflow: no allocator grants that much);
forming the address of a cell without reading or writing it is not an access; elements are trivially
copyable; `erase` is for one-byte elements, as in `Verif.DynArray` (wider ones: `DynArray.erase_wide_wrong`).
-/
namespace Verif.Growable

open Verif.DynArray (Res)

variable {α : Type} [DecidableEq α]

/-- The allocator's memory: block `i` is live with these cells (`none` = indeterminate), or given up.
`plan` says which of the next requests succeed (all of them once it is exhausted); `calls` and `moved`
count the requests and the cells copied by them. -/
structure Heap (α : Type) where
  blocks : List (Option (List (Option α)))
  plan : List Bool
  calls : Nat
  moved : Nat
  deriving DecidableEq, Repr

/-- The vector object: the handle (`none` = `invalid()`), the capacity the descriptor remembers
(allocators/handle_desc.h:50-54) and the length (impl/dynamic_array.h:114-118). -/
structure Vec where
  handle : Option Nat
  cap : Nat
  used : Nat
  deriving DecidableEq, Repr

/-- A program state: the memory and one vector. -/
structure St (α : Type) where
  heap : Heap α
  vec : Vec
  deriving DecidableEq, Repr

/-- `allocate(n)` of the allocator, test/catch/mem.h:129-132. -/
def Heap.allocate (h : Heap α) (n : Nat) : Heap α × Option Nat :=
  match h.plan with
  | false :: r => ({ h with plan := r, calls := h.calls + 1 }, none)
  | _ => ({ h with plan := h.plan.tail, calls := h.calls + 1,
                   blocks := h.blocks ++ [some (List.replicate n none)] }, some h.blocks.length)

/-- `reallocate(b, n)` of the allocator, test/catch/mem.h:163-166; resizing a block that is not live is
undefined. -/
def Heap.reallocate (h : Heap α) (b n : Nat) : Res (Heap α × Option Nat) :=
  match h.blocks[b]? with
  | some (some cells) =>
    match h.plan with
    | false :: r => .ok ({ h with plan := r, calls := h.calls + 1 }, none)
    | _ => .ok ({ h with plan := h.plan.tail, calls := h.calls + 1, moved := h.moved + min n cells.length,
                         blocks := h.blocks.set b none ++
                           [some (cells.take n ++ List.replicate (n - cells.length) none)] },
                some h.blocks.length)
  | _ => .ub

/-- The default constructor, allocators/handle_desc.h:56-58, 134-136, impl/dynamic_array.h:117-118, 318-324. -/
def fresh (h : Heap α) : St α := ⟨h, ⟨none, 0, 0⟩⟩

/-- `size()`, impl/dynamic_array.h:296-302, 138-141. -/
def size (s : St α) : Nat := if s.vec.handle = none then 0 else s.vec.used

/-- `empty()`, impl/dynamic_array.h:311-315, 123-126. -/
def empty (s : St α) : Bool := s.vec.used == 0

/-- `capacity()`, impl/dynamic_array.h:283-284, allocators/handle_desc.h:73. -/
def capacity (s : St α) : Nat := s.vec.cap

/-- `size(n)`, impl/dynamic_array.h:150-153, 305-309. -/
def setSize (s : St α) (n : Nat) : St α := { s with vec := { s.vec with used := n } }

/-- The cells a vector's handle leads to: nothing for the invalid handle (so that any access is out of
bounds), undefined for a block that was given up.  `lock`, impl/handle_desc.h:143-146, 209-212 with
`traits/allocator_traits.h:236-239`. -/
def cells (s : St α) : Option (List (Option α)) :=
  match s.vec.handle with
  | none => some []
  | some b =>
    match s.heap.blocks[b]? with
    | some (some c) => some c
    | _ => none

/-- Writing through the handle. -/
def store (s : St α) (c : List (Option α)) : St α :=
  match s.vec.handle with
  | none => s
  | some b => { s with heap := { s.heap with blocks := s.heap.blocks.set b (some c) } }

/-- `reserve(n)`, dynamic_array.h:396-402: `allocate` (allocators/handle_desc.h:75-79,
impl/handle_desc.h:266-270) if there is no block yet, else `reallocate` (allocators/handle_desc.h:81-85,
impl/handle_desc.h:255-259).  The capacity and the handle are overwritten whatever the allocator answers,
and `n` is not compared with the current capacity. -/
def reserve (s : St α) (n : Nat) : Res (St α × Bool) :=
  match s.vec.handle with
  | none =>
    let r := s.heap.allocate n
    .ok (⟨r.1, { s.vec with cap := n, handle := r.2 }⟩, r.2.isSome)
  | some b =>
    (s.heap.reallocate b n).bind fun r =>
      .ok (⟨r.1, { s.vec with cap := n, handle := r.2 }⟩, r.2.isSome)

/-- `ensure_total_capacity(n, pad)`, dynamic_array.h:132-141. -/
def ensureTotalCapacity (s : St α) (n pad : Nat) : Res (St α × Bool) :=
  if n > s.vec.cap then reserve s (n + pad) else .ok (s, true)

/-- `ensure_total_size(n)`, dynamic_array.h:144-154. -/
def ensureTotalSize (s : St α) (n : Nat) : Res (St α × Bool) :=
  (ensureTotalCapacity s n 0).bind fun p =>
    if p.2 = false then .ok (p.1, false) else .ok (setSize p.1 n, true)

/-- The slack added when a vector has to grow for an append, dynamic_array.h:163, for elements `esz` bytes
wide. -/
def pad (esz : Nat) : Nat := (32 + esz) / esz

/-- `grow(k)`, dynamic_array.h:422-439 with `ensure_additional_capacity` 157-179, whose result is ignored:
the new state and the size before. -/
def grow (esz : Nat) (s : St α) (k : Nat) : Res (St α × Nat) :=
  (ensureTotalCapacity s (size s + k) (pad esz)).bind fun p =>
    .ok (setSize p.1 (size s + k), size s)

/-- Writing values one after the other through the handle, specializer.h:92-99 with `copy_n`. -/
def putAll (s : St α) (pos : Nat) (src : List (Option α)) : Res (St α) :=
  (Res.ofOption (cells s)).bind fun c =>
    (Res.ofOption (DynArray.writeAll c pos src)).bind fun c' => .ok (store s c')

/-- `append(buf, len)`, dynamic_array.h:457-485; `push_back`, 605-629, and `emplace_back`, 660-680, are the
one-element case. -/
def append (esz : Nat) (s : St α) (src : List α) : Res (St α) :=
  (grow esz s src.length).bind fun p => putAll p.1 p.2 (src.map some)

/-- `append(*this)`, dynamic_array.h:579-583 with specializer.h:125-141, 178-197: the source is read through
the vector itself, after it has grown. -/
def appendSelf (esz : Nat) (s : St α) : Res (St α) :=
  (grow esz s (size s)).bind fun p =>
    (Res.ofOption (cells p.1)).bind fun c => putAll p.1 p.2 (c.take (size s))

/-- `push_back(v.at(i).lock())`: the argument is a reference into the vector's own block, which is read
after the vector has grown; a block that was given up meanwhile cannot be read. -/
def pushBackAlias (esz : Nat) (s : St α) (i : Nat) : Res (St α) :=
  (grow esz s 1).bind fun p =>
    (Res.ofOption (cells { p.1 with vec := s.vec })).bind fun c =>
      (Res.ofOption (rd c i)).bind fun x => putAll p.1 p.2 [x]

/-- `insert(pos, value&&)`, dynamic_array.h:693-698, 278-300: the new state and the iterator returned, as
the handle and offset it was made from (the argument itself, unchanged). -/
def insert (esz : Nat) (s : St α) (pos : Nat) (v : α) : Res (St α × Option Nat × Nat) :=
  (grow esz s 1).bind fun p =>
    (Res.ofOption (cells p.1)).bind fun c =>
      (Res.ofOption (Algorithm.copyBackward c pos p.2 (p.2 + 1))).bind fun q =>
        (Res.ofOption (wr q.1 pos (some v))).bind fun c' => .ok (store p.1 c', s.vec.handle, pos)

/-- `insert(pos, first, last)`, dynamic_array.h:703-708, 303-322. -/
def insertRange (s : St α) (pos : Nat) (src : List α) : Res (St α × Option Nat × Nat) :=
  (ensureTotalSize s (size s + src.length)).bind fun p =>
    if p.2 = false then .ok (p.1, s.vec.handle, pos)
    else
      (Res.ofOption (cells p.1)).bind fun c =>
        (Res.ofOption (Algorithm.copyBackward c pos (size s) (size s + src.length))).bind fun q =>
          (Res.ofOption (DynArray.writeAll q.1 pos (src.map some))).bind fun c' =>
            .ok (store p.1 c', s.vec.handle, pos)

/-- `erase(pos)`, dynamic_array.h:646-654 with `_erase` 489-506 (one-byte elements). -/
def eraseAt (s : St α) (pos : Nat) : Res (St α) :=
  if pos + 1 ≤ size s then
    (Res.ofOption (cells s)).bind fun c =>
      (Res.ofOption (DynArray.memmove c pos (pos + 1) (size s - (pos + 1)))).bind fun c' =>
        .ok (store (setSize s (size s - 1)) c')
  else .ub

/-- `pop_back()`, dynamic_array.h:586-603; on an empty vector the length wraps: undefined. -/
def popBack (s : St α) : Res (St α) :=
  if size s = 0 then .ub else .ok (setSize s (size s - 1))

/-- `resize(n)`, dynamic_array.h:383-386. -/
def resize (s : St α) (n : Nat) : Res (St α × Bool) := ensureTotalSize s n

/-- `clear()`, dynamic_array.h:388-391. -/
def clear (s : St α) : Res (St α) := (resize s 0).bind fun p => .ok p.1

/-- `shrink_to_fit()`, dynamic_array.h:710-713. -/
def shrinkToFit (s : St α) : Res (St α) := (reserve s (size s)).bind fun p => .ok p.1

/-- `assign(buf, len)`, dynamic_array.h:186-191 (the result of `ensure_total_size` is ignored) with
`copy_into`, impl/handle_desc.h:32-39. -/
def assign (s : St α) (src : List α) : Res (St α) :=
  (ensureTotalSize s src.length).bind fun p => putAll p.1 0 (src.map some)

/-- `operator[]`, runtime_array.h:333-337: the cell, `none` if it was never written. -/
def index (s : St α) (i : Nat) : Res (Option α) :=
  (Res.ofOption (cells s)).bind fun c => Res.ofOption (rd c i)

/-- Destruction: neither `dynamic_array` (dynamic_array.h:374-375) nor the descriptors
(allocators/handle_desc.h, impl/handle_desc.h) have a destructor, so memory is as before. -/
def destroy (s : St α) : Heap α := s.heap

/-- The implicit copy constructor (runtime_array.h:107-109): a second vector object with the same handle,
capacity and length. -/
def copy (s : St α) : Vec := s.vec

/-- The default constructor of a null-terminated array over such an allocator: `size(0)` writes the
terminator through the (invalid) handle, impl/dynamic_array.h:85-95, 318-324. -/
def freshTerminated (zero : α) (h : Heap α) : Res (St α) := putAll (fresh h) 0 [some zero]

/-- Construction from an initializer list, runtime_array.h:120-129: the values are copied through the handle
of a default-constructed vector, which then gets its length. -/
def ofList (h : Heap α) (l : List α) : Res (St α) :=
  (putAll (fresh h) 0 (l.map some)).bind fun s => .ok (setSize s l.length)

/-- The edits of the API that a well-behaved program makes. -/
inductive Op (α : Type) where
  | pushBack (v : α)
  | append (src : List α)
  | appendSelf
  | insert (pos : Nat) (v : α)
  | insertRange (pos : Nat) (src : List α)
  | eraseAt (pos : Nat)
  | popBack
  | truncate (n : Nat)
  | clear
  | assign (src : List α)
  | reserve (n : Nat)
  | shrinkToFit
  deriving DecidableEq, Repr

/-- Running one of them. -/
def Op.run (esz : Nat) (s : St α) : Op α → Res (St α)
  | .pushBack v => Growable.append esz s [v]
  | .append src => Growable.append esz s src
  | .appendSelf => Growable.appendSelf esz s
  | .insert pos v => (Growable.insert esz s pos v).bind fun p => .ok p.1
  | .insertRange pos src => (Growable.insertRange s pos src).bind fun p => .ok p.1
  | .eraseAt pos => Growable.eraseAt s pos
  | .popBack => Growable.popBack s
  | .truncate n => (Growable.resize s n).bind fun p => .ok p.1
  | .clear => Growable.clear s
  | .assign src => Growable.assign s src
  | .reserve n => (Growable.reserve s n).bind fun p => .ok p.1
  | .shrinkToFit => Growable.shrinkToFit s

/-- A history. -/
def runAll (esz : Nat) (s : St α) : List (Op α) → Res (St α)
  | [] => .ok s
  | o :: r => (o.run esz s).bind fun s' => runAll esz s' r

end Verif.Growable
