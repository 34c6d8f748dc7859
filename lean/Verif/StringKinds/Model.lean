import Verif.DynArray.Model

/-!
# Model of strings that refer to characters kept elsewhere

Modelled from `src/estd/internal/layer1/string.h`, `internal/layer2/string.h`, `internal/layer3/string.h`,
`internal/string.h`, `internal/dynamic_array.h`, `internal/container/specializer.h`,
`internal/impl/dynamic_array.h` and `src/estd/string.h`.

One memory holds every character buffer, so that two strings may refer to the same characters and the source of
an `append`, `insert` or assignment may lie inside the string it is added to (`Verif.DynArray` takes the source as a
list of values, i.e. assumes the opposite).  An access is undefined (`Res.ub`) when it falls outside the memory;
writing past one's own buffer into the next one is representable, and is what the statements about capacities are
about.

Simplifications: characters are of one type with one terminator; `assert` is compiled in or out
(`asserts`, allocators/fixed.h:179-187); feature switches are the defaults listed in `Verif.DynArray.Model`.
-/
namespace Verif.StringKinds
open Verif.DynArray (Res strlen)

universe u
variable {α : Type u} [DecidableEq α]

/-- A string object: where its characters start, `capacity()`, the modulus of its `size_type`, whether it is null
terminated, and `m_size` (used when it is not).  For `layer1` the cells are the object's own; for `layer2`
(allocators/fixed.h:392-404) and `layer3` (allocators/fixed.h:279-355) the object holds a pointer to them. -/
structure Str where
  ptr : Nat
  cap : Nat
  modulus : Nat
  term : Bool
  msize : Nat
  deriving DecidableEq, Repr

/-- `size()`, impl/dynamic_array.h:60-69 (null terminated), 138-141 (explicit) -/
def size (z : α) (m : List α) (s : Str) : Res Nat :=
  if s.term then (Res.ofOption (strlen z (m.drop s.ptr))).bind fun n => .ok (n % s.modulus)
  else .ok s.msize

/-- `size(n)`, impl/dynamic_array.h:85-95 (writes the terminator), 150-153 -/
def setSize (z : α) (m : List α) (s : Str) (n : Nat) : Res (List α × Str) :=
  if s.term then
    (Res.ofOption (wr m (s.ptr + n % s.modulus) z)).bind fun m' => .ok (m', s)
  else .ok (m, { s with msize := n % s.modulus })

/-- `ensure_total_capacity`, dynamic_array.h:132-141, with `reserve` 396-402 for a fixed allocator
(allocators/fixed.h:179-187): nothing happens, or the assertion fails -/
def ensureCapacity (asserts : Bool) (s : Str) (n : Nat) : Res Unit :=
  if n % s.modulus > s.cap then (if asserts then .abort else .ok ()) else .ok ()

/-- `ensure_total_size`, dynamic_array.h:144-154 -/
def ensureTotalSize (asserts : Bool) (z : α) (m : List α) (s : Str) (n : Nat) : Res (List α × Str) :=
  (ensureCapacity asserts s n).bind fun _ => setSize z m s n

/-- `grow`, dynamic_array.h:422-439 and `ensure_additional_capacity` 157-179: memory, string, size before -/
def grow (asserts : Bool) (z : α) (m : List α) (s : Str) (n : Nat) : Res (List α × Str × Nat) :=
  (size z m s).bind fun st =>
    (ensureCapacity asserts s (st + n)).bind fun _ =>
      (setSize z m s (st + n)).bind fun p => .ok (p.1, p.2, st)

/-- `copy_n(from, n, to)` and `copy(from, from + n, to)`, algorithm.h:98-101, 114-117: one character after the
other, upwards -/
def copyUp (m : List α) (dst src : Nat) : Nat → Option (List α)
  | 0 => some m
  | n + 1 =>
    match rd m src with
    | none => none
    | some x =>
      match wr m dst x with
      | none => none
      | some m' => copyUp m' (dst + 1) (src + 1) n

/-- `copy_backward(first, first + n, first + n + by)`, algorithm.h:129-132: from the last character down -/
def copyDown (m : List α) (first by_ : Nat) : Nat → Option (List α)
  | 0 => some m
  | n + 1 =>
    match rd m (first + n) with
    | none => none
    | some x =>
      match wr m (first + n + by_) x with
      | none => none
      | some m' => copyDown m' first by_ n

/-- `memcpy(dst, src, n)` as `copy_to` calls it, container/specializer.h:192: undefined when the two ranges have a
character in common -/
def memcpy (m : List α) (dst src n : Nat) : Option (List α) :=
  if n = 0 ∨ dst + n ≤ src ∨ src + n ≤ dst then copyUp m dst src n else none

/-- `copy(dest, count)` on a string, runtime_array.h:367-371 and container/specializer.h:178-197: the size is looked
up again to limit the count -/
def copyOut (z : α) (m : List α) (s : Str) (dst count : Nat) : Res (List α) :=
  (size z m s).bind fun n =>
    Res.ofOption (memcpy m dst s.ptr (if count > n then n else count))

/-- `string = pointer`, internal/string.h:314-321 (and layer2/string.h:108-113), dynamic_array.h:186-191,
runtime_array.h:142-145, impl/handle_desc.h:32-39: measure, set the size, copy -/
def assignPtr (asserts : Bool) (z : α) (m : List α) (s : Str) (p : Nat) : Res (List α × Str) :=
  (Res.ofOption (strlen z (m.drop p))).bind fun len =>
    (ensureTotalSize asserts z m s len).bind fun q =>
      (Res.ofOption (copyUp q.1 s.ptr p (len % s.modulus))).bind fun m' => .ok (m', q.2)

/-- `string = string` of another type, internal/string.h:305-312, dynamic_array.h:632-639,
container/specializer.h:102-110: measure, set the size, let the source copy itself.  Also the constructor of a
`layer1` string from another string, layer1/string.h:40-44. -/
def assignStr (asserts : Bool) (z : α) (m : List α) (s src : Str) : Res (List α × Str) :=
  (size z m src).bind fun len =>
    (ensureTotalSize asserts z m s len).bind fun q =>
      (copyOut z q.1 src s.ptr len).bind fun m' => .ok (m', q.2)

/-- `append(pointer, n)`, internal/string.h:378-382, dynamic_array.h:457-485; `push_back` and `+=` of one character
are this with `n = 1` (605-608), `append(pointer)` with `n` the measured length (internal/string.h:385-388) -/
def appendPtr (asserts : Bool) (z : α) (m : List α) (s : Str) (p n : Nat) : Res (List α × Str) :=
  (grow asserts z m s (n % s.modulus)).bind fun q =>
    (Res.ofOption (copyUp q.1 (s.ptr + q.2.2) p (n % s.modulus))).bind fun m' => .ok (m', q.2.1)

/-- `append(string)`, internal/string.h:371-376, container/specializer.h:125-141; `none` stands for the string
itself, whose size the source's `copy` then finds grown -/
def appendStr (asserts : Bool) (z : α) (m : List α) (s : Str) (src : Option Str) : Res (List α × Str) :=
  (size z m (src.getD s)).bind fun len0 =>
    let len := len0 % s.modulus
    (grow asserts z m s len).bind fun q =>
      (copyOut z q.1 (src.getD q.2.1) (s.ptr + q.2.2) len).bind fun m' => .ok (m', q.2.1)

/-- `insert(index, pointer, n)`, internal/string.h:262-269, `raw_insert` dynamic_array.h:303-322: set the size, move
the tail up, copy -/
def insertPtr (asserts : Bool) (z : α) (m : List α) (s : Str) (i p n : Nat) : Res (List α × Str) :=
  (size z m s).bind fun sz =>
    let input := n % s.modulus
    (ensureTotalSize asserts z m s (sz + input)).bind fun q =>
      if i ≤ sz then
        (Res.ofOption (copyDown q.1 (s.ptr + i) input (sz - i))).bind fun m1 =>
          (Res.ofOption (copyUp m1 (s.ptr + i) p n)).bind fun m2 => .ok (m2, q.2)
      else .ub

/-- `insert(index, string)`, internal/string.h:276-288 -/
def insertStr (asserts : Bool) (z : α) (m : List α) (s : Str) (i : Nat) (src : Str) : Res (List α × Str) :=
  (size z m src).bind fun n => insertPtr asserts z m s i src.ptr n

/-- `layer2::basic_string(pointer)`, layer2/string.h:38-40 and 63-69: refers to an already terminated string -/
def refer2 (p cap modulus : Nat) : Str := ⟨p, cap, modulus, true, 0⟩

/-- `layer2::basic_string(pointer, n)`, layer2/string.h:43-48 and (for `n ≥ 0`) 76-89; `layer3::basic_string(buffer,
initial, size)`, layer3/string.h:69-73: refers to a buffer and sets the size -/
def referSized (z : α) (m : List α) (p n cap modulus : Nat) (term : Bool) : Res (List α × Str) :=
  setSize z m ⟨p, cap, modulus, term, 0⟩ n

/-- `layer2::basic_string(string)`, layer2/string.h:91-98: refers to the characters of another string.  The capacity
is the new type's own. -/
def alias2 (src : Str) (cap modulus : Nat) : Str := ⟨src.ptr, cap, modulus, true, 0⟩

/-- `max_size()`, impl/dynamic_array.h:274-278; the subtraction is done in the source's `size_type` -/
def maxSize (s : Str) : Nat := if s.term then (s.cap + s.modulus - 1) % s.modulus else s.cap

/-- `layer3::basic_string(string)`, layer3/string.h:75-98: refers to the characters of another string; its capacity is
the source's `max_size()`, converted to its own `size_type` -/
def alias3 (src : Str) (modulus : Nat) : Str := ⟨src.ptr, maxSize src % modulus, modulus, true, 0⟩

/-- `string = string` of the same `layer2` or `layer3` type.  The assignment templates (layer2/string.h:101-106,
layer3/string.h:103-108, internal/string.h:305-312) are not copy assignment operators; the implicit one copies the
pointer and the sizes held by the object (allocators/fixed.h:93, 294). -/
def assignSame (_s src : Str) : Str := src

/-- `empty()` on `layer3::const_string` (string.h:46-67), impl/dynamic_array.h:227-230: its size is its capacity -/
def constEmpty (capacity : Nat) : Bool := decide (capacity > 0)

/-- `size()` on `layer3::const_string`, impl/dynamic_array.h:232-235 -/
def constSize (capacity : Nat) : Nat := capacity

/-- `empty()` on a null-terminated string, impl/dynamic_array.h:36-41; for constant ones 177-187 -/
def empty (z : α) (m : List α) (s : Str) : Res Bool :=
  (Res.ofOption (rd m s.ptr)).bind fun c => .ok (decide (c = z))

/-! ## Programs over several strings -/

/-- Calls on a family of strings.  Numbers are positions in the list of strings; a new string is added at its end. -/
inductive Op (α : Type u) where
  /-- a `layer2` string over the same characters -/
  | alias2 (src cap modulus : Nat)
  /-- a `layer3` string over the same characters -/
  | alias3 (src modulus : Nat)
  /-- assignment between strings of the same referring type -/
  | assignSame (dst src : Nat)
  /-- assignment between strings of different types -/
  | assignStr (dst src : Nat)
  /-- `append(string)` -/
  | append (dst src : Nat)
  /-- `insert(index, string)` -/
  | insert (dst index src : Nat)
  /-- `push_back(dst[i])`, a reference to one of its own characters -/
  | pushOwn (dst i : Nat)
  /-- `clear()` -/
  | clear (dst : Nat)
  deriving DecidableEq, Repr

/-- memory and strings -/
structure World (α : Type u) where
  mem : List α
  strs : List Str

/-- put an operation's result back -/
def World.put (w : World α) (i : Nat) : Res (List α × Str) → Res (World α)
  | .ok p => .ok ⟨p.1, w.strs.set i p.2⟩
  | .abort => .abort
  | .ub => .ub

/-- one call; a string that does not exist is undefined.  Cites as for the functions used; `clear()` is
dynamic_array.h:388-391. -/
def step (asserts : Bool) (z : α) (w : World α) : Op α → Res (World α)
  | .alias2 j cap md =>
    match w.strs[j]? with
    | some s => .ok { w with strs := w.strs ++ [alias2 s cap md] }
    | none => .ub
  | .alias3 j md =>
    match w.strs[j]? with
    | some s => .ok { w with strs := w.strs ++ [alias3 s md] }
    | none => .ub
  | .assignSame i j =>
    match w.strs[i]?, w.strs[j]? with
    | some d, some s => .ok { w with strs := w.strs.set i (assignSame d s) }
    | _, _ => .ub
  | .assignStr i j =>
    match w.strs[i]?, w.strs[j]? with
    | some d, some s => w.put i (assignStr asserts z w.mem d s)
    | _, _ => .ub
  | .append i j =>
    match w.strs[i]?, w.strs[j]? with
    | some d, some s => w.put i (appendStr asserts z w.mem d (if i = j then none else some s))
    | _, _ => .ub
  | .insert i k j =>
    match w.strs[i]?, w.strs[j]? with
    | some d, some s => w.put i (insertStr asserts z w.mem d k s)
    | _, _ => .ub
  | .pushOwn i k =>
    match w.strs[i]? with
    | some d => w.put i (appendPtr asserts z w.mem d (d.ptr + k) 1)
    | none => .ub
  | .clear i =>
    match w.strs[i]? with
    | some d => w.put i (ensureTotalSize asserts z w.mem d 0)
    | none => .ub

/-- a sequence of calls -/
def run (asserts : Bool) (z : α) (w : World α) : List (Op α) → Res (World α)
  | [] => .ok w
  | op :: ops => (step asserts z w op).bind fun w' => run asserts z w' ops

end Verif.StringKinds
