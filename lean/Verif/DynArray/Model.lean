import Verif.Algorithm.Model

/-!
# Model of `internal::dynamic_array` over fixed buffers (vector, string)

Modelled from `src/estd/internal/dynamic_array.h`, `src/estd/internal/impl/dynamic_array.h`,
`src/estd/allocators/fixed.h` and `src/estd/internal/string.h`, in the default configuration
(`FEATURE_ESTD_DYNAMIC_ARRAY_BOUNDS_CHECK = 0`, `FEATURE_ESTD_DYNAMIC_ARRAY_MEMMOVE = 0`,
internal/feature/dynamic_array.h:11, 38).

Simplifications: elements are trivially copyable (a move leaves the source cell unchanged); the source of
an `append`/`insert`/`assign` is passed as the list of values read from it, i.e. it does not overlap the
container's own buffer.
-/
namespace Verif.DynArray

/-- Outcome of an operation: a new value, termination by `assert(false)` / `abort()`, or undefined
behaviour (an access outside the buffer). -/
inductive Res (α : Type u) where
  | ok (a : α)
  | abort
  | ub
  deriving DecidableEq, Repr

/-- sequencing -/
def Res.bind {α : Type u} {β : Type v} : Res α → (α → Res β) → Res β
  | .ok a, f => f a
  | .abort, _ => .abort
  | .ub, _ => .ub

/-- an access that may fall outside the buffer -/
def Res.ofOption {α : Type u} : Option α → Res α
  | some a => .ok a
  | none => .ub

@[simp] theorem Res.bind_ok {α : Type u} {β : Type v} (a : α) (f : α → Res β) : (Res.ok a).bind f = f a := rfl
@[simp] theorem Res.bind_abort {α : Type u} {β : Type v} (f : α → Res β) : (Res.abort).bind f = .abort := rfl
@[simp] theorem Res.bind_ub {α : Type u} {β : Type v} (f : α → Res β) : (Res.ub).bind f = .ub := rfl
@[simp] theorem Res.ofOption_some {α : Type u} (a : α) : Res.ofOption (some a) = .ok a := rfl
@[simp] theorem Res.ofOption_none {α : Type u} : Res.ofOption (none : Option α) = .ub := rfl

/-- The compile-time choices that matter: the modulus of `size_type` (256 for a `layer1` buffer of at most
255 cells, internal/deduce_fixed_size.h:21-37), the length policy (impl/dynamic_array.h:14-155: null
terminated, or an explicit `m_size`), the terminator, and whether `assert` is compiled in (`NDEBUG` not
defined; allocators/fixed.h:179-187). -/
structure Cfg (α : Type u) where
  modulus : Nat
  nullTerm : Bool
  zero : α
  asserts : Bool

/-- A container: its buffer of `capacity()` cells and the `m_size` field (unused when null terminated). -/
structure Arr (α : Type u) where
  buf : List α
  msize : Nat
  deriving DecidableEq, Repr

variable {α : Type u} [DecidableEq α]

/-- `capacity()`, impl/dynamic_array.h:283-284: the number of cells, *including* the one the terminator needs. -/
def Arr.capacity (a : Arr α) : Nat := a.buf.length

/-- `max_size()`, impl/dynamic_array.h:274-278 -/
def maxSize (c : Cfg α) (a : Arr α) : Nat := a.capacity - (if c.nullTerm then 1 else 0)

/-- `strlen` over the buffer: reads until the terminator; running off the buffer is undefined. -/
def strlen (zero : α) : List α → Option Nat
  | [] => none
  | x :: r => if x = zero then some 0 else (strlen zero r).map (· + 1)

/-- `size()`, impl/dynamic_array.h:60-69 (null terminated), 138-141 (explicit), 296-302.  A singular fixed
allocator is always allocated (impl/handle_desc.h:168-172, value_evaporator.h:20-36). -/
def size (c : Cfg α) (a : Arr α) : Res Nat :=
  if c.nullTerm then (Res.ofOption (strlen c.zero a.buf)).bind fun n => .ok (n % c.modulus)
  else .ok a.msize

/-- `size(n)`, impl/dynamic_array.h:85-95 (writes the terminator) and 150-153; `n` is a `size_type`. -/
def setSize (c : Cfg α) (a : Arr α) (n : Nat) : Res (Arr α) :=
  if c.nullTerm then
    (Res.ofOption (wr a.buf (n % c.modulus) c.zero)).bind fun b => .ok { a with buf := b }
  else .ok { a with msize := n % c.modulus }

/-- `reserve`, dynamic_array.h:396-402, for a fixed allocator: `reallocate` (allocators/fixed.h:179-187,
impl/handle_desc.h:255-259) is `assert(false)` followed by returning the (always valid) handle. -/
def reserve (c : Cfg α) : Res Bool := if c.asserts then .abort else .ok true

/-- `ensure_total_capacity`, dynamic_array.h:132-141 -/
def ensureTotalCapacity (c : Cfg α) (a : Arr α) (newSize : Nat) : Res Bool :=
  if newSize % c.modulus > a.capacity then reserve c else .ok true

/-- `ensure_total_size` (with `shrink = false`), dynamic_array.h:144-154 -/
def ensureTotalSize (c : Cfg α) (a : Arr α) (newSize : Nat) : Res (Arr α × Bool) :=
  (ensureTotalCapacity c a newSize).bind fun okc =>
    if okc = false then .ok (a, false)
    else (setSize c a newSize).bind fun a' => .ok (a', true)

/-- `grow`, dynamic_array.h:422-439 with `ensure_additional_capacity` 157-179 (whose result is ignored):
returns the array and the size before growth. -/
def grow (c : Cfg α) (a : Arr α) (by_ : Nat) : Res (Arr α × Nat) :=
  (size c a).bind fun st =>
    (ensureTotalCapacity c a (st + by_)).bind fun _ =>
      (setSize c a (st + by_)).bind fun a' => .ok (a', st)

/-- `copy_n(source, len, &buffer[pos])`, impl/handle_desc.h:32-39: writes the source values one after the
other. -/
def writeAll (b : List α) (pos : Nat) : List α → Option (List α)
  | [] => some b
  | x :: r =>
    match wr b pos x with
    | none => none
    | some b' => writeAll b' (pos + 1) r

/-- `append(buf, len)`, dynamic_array.h:457-485; also `string::append(s, count)` internal/string.h:378-382
and, with a null-terminated source already measured, `append(s)` 385-388.  `len` is a `size_type`. -/
def append (c : Cfg α) (a : Arr α) (src : List α) : Res (Arr α) :=
  (grow c a (src.length % c.modulus)).bind fun (a', st) =>
    (Res.ofOption (writeAll a'.buf st (src.take (src.length % c.modulus)))).bind fun b =>
      .ok { a' with buf := b }

/-- `push_back`, dynamic_array.h:605-608 (`append(&value, 1)`), 611-629 (grow, then construct at the old
size), and `emplace_back` 660-680: the same effect. -/
def pushBack (c : Cfg α) (a : Arr α) (v : α) : Res (Arr α) :=
  (grow c a 1).bind fun (a', st) =>
    (Res.ofOption (wr a'.buf st v)).bind fun b => .ok { a' with buf := b }

/-- `string::append(count, c)`, internal/string.h:363-369: repeated `+=`. -/
def appendFill (c : Cfg α) (a : Arr α) (count : Nat) (v : α) : Res (Arr α) :=
  match count with
  | 0 => .ok a
  | n + 1 => (pushBack c a v).bind fun a' => appendFill c a' n v

/-- `insert(pos, value&&)`, dynamic_array.h:693-698 through `raw_insert` 278-300 with `move_assist` 198-201. -/
def insert (c : Cfg α) (a : Arr α) (pos : Nat) (v : α) : Res (Arr α) :=
  (size c a).bind fun s0 =>
    let sz := (s0 + 1) % c.modulus
    (grow c a 1).bind fun (a', _) =>
      (Res.ofOption (Algorithm.copyBackward a'.buf pos (sz - 1) sz)).bind fun (b, _) =>
        (Res.ofOption (wr b pos v)).bind fun b' => .ok { a' with buf := b' }

/-- `insert(pos, first, last)`, dynamic_array.h:702-708 and `string::insert` internal/string.h:262-288,
through `raw_insert` 303-322 with `copy_assist` 224-227 and `estd::copy`.  Returns the array and
`raw_insert`'s result. -/
def insertRange (c : Cfg α) (a : Arr α) (pos : Nat) (src : List α) : Res (Arr α × Bool) :=
  (size c a).bind fun sz =>
    let inputSz := src.length % c.modulus
    (ensureTotalSize c a (sz + inputSz)).bind fun (a', okc) =>
      if okc = false then .ok (a', false)
      else
        (Res.ofOption (Algorithm.copyBackward a'.buf pos sz (sz + inputSz))).bind fun (b, _) =>
          (Res.ofOption (writeAll b pos src)).bind fun b' => .ok ({ a' with buf := b' }, true)

/-- `memmove(dst, src, n)` on a block of bytes: both ranges must lie in the block; the source is read as if
into a temporary. -/
def memmove (b : List α) (dst src n : Nat) : Option (List α) :=
  if dst + n ≤ b.length ∧ src + n ≤ b.length then
    some (b.take dst ++ (b.drop src).take n ++ b.drop (dst + n))
  else none

/-- `_erase(index, count)`, dynamic_array.h:489-506, for one-byte elements (so the byte count passed to
`memmove` is also the element count; see `eraseBytes` for wider elements).  A negative difference converts
to an enormous `size_t`: undefined. -/
def eraseRaw (c : Cfg α) (a : Arr α) (index count : Nat) : Res (Arr α) :=
  (size c a).bind fun prev =>
    (if c.nullTerm then .ok (a, prev + 1)
      else (setSize c a (prev + c.modulus - count)).bind fun a' => .ok (a', prev)).bind
      fun (p : Arr α × Nat) =>
        if index + count ≤ p.2 then
          (Res.ofOption (memmove p.1.buf index (index + count) (p.2 - (index + count)))).bind fun b =>
            .ok { p.1 with buf := b }
        else .ub

/-- `erase(iterator)`, dynamic_array.h:646-654 (one-byte elements): the array and the returned position. -/
def eraseAt (c : Cfg α) (a : Arr α) (index : Nat) : Res (Arr α × Nat) :=
  (eraseRaw c a index 1).bind fun a' => .ok (a', index)

/-- `string::erase(index, count)`, internal/string.h:290-303; `size() - index` is a `size_type`. -/
def strErase (c : Cfg α) (a : Arr α) (index count : Nat) : Res (Arr α) :=
  (size c a).bind fun sz =>
    let rest := (sz + c.modulus - index) % c.modulus
    eraseRaw c a index (if rest < count then rest else count)

/-- `pop_back`, dynamic_array.h:586-603 (the destructor of a trivial element does nothing). -/
def popBack (c : Cfg α) (a : Arr α) : Res (Arr α) :=
  (size c a).bind fun sz => setSize c a (sz + c.modulus - 1)

/-- `resize`, dynamic_array.h:383-386 -/
def resize (c : Cfg α) (a : Arr α) (count : Nat) : Res (Arr α × Bool) := ensureTotalSize c a count

/-- `clear`, dynamic_array.h:388-391 -/
def clear (c : Cfg α) (a : Arr α) : Res (Arr α) := (resize c a 0).bind fun p => .ok p.1

/-- `assign(buf, len)`, dynamic_array.h:186-191 (the result of `ensure_total_size` is ignored); this is
`string::operator=(const char*)`, internal/string.h:314-321. -/
def assign (c : Cfg α) (a : Arr α) (src : List α) : Res (Arr α) :=
  (ensureTotalSize c a src.length).bind fun p =>
    (Res.ofOption (writeAll p.1.buf 0 (src.take (src.length % c.modulus)))).bind fun b =>
      .ok { p.1 with buf := b }

/-- The constructor of an empty container over a given buffer, impl/dynamic_array.h:318-324. -/
def construct (c : Cfg α) (buf : List α) : Res (Arr α) := setSize c { buf := buf, msize := 0 } 0

/-- `operator[]` / `at` on a valid handle: `lock(pos)`, allocators/fixed.h:145-148. -/
def index (a : Arr α) (i : Nat) : Res α := Res.ofOption (rd a.buf i)

/-- `_erase` on a container of explicitly counted elements that are `esz` bytes wide,
dynamic_array.h:489-506, at byte level: `raw` is the byte address `index * esz`, but the length handed to
`memmove` is the *element* count `prev_size - (index + count)`.  Result: the bytes and the new size. -/
def eraseBytes {β : Type u} [DecidableEq β] (bytes : List β) (esz size index count : Nat) :
    Res (List β × Nat) :=
  if index + count ≤ size then
    (Res.ofOption (memmove bytes (index * esz) (index * esz + count * esz) (size - (index + count)))).bind
      fun b => .ok (b, size - count)
  else .ub

end Verif.DynArray
