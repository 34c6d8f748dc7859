import Verif.Growable.Model
import Verif.Arrays.Model
/-!
# Model of handle descriptors and of the fixed allocators they describe

`src/estd/internal/impl/handle_desc.h`, `src/estd/allocators/handle_desc.h`, `src/estd/internal/value_evaporator.h`,
`src/estd/allocators/fixed.h`.

A handle descriptor ties together an allocator, one handle of it and, when the allocator cannot tell, the size of the
block.  It is modelled over an arbitrary allocator, given by its functions, and used with two: a fixed buffer
(`layer1`/`layer2`/`layer3::allocator`) and one that hands out blocks (the caller's, as in `Verif.Growable`).

Simplifications: elements are trivially copyable, so `destroy` does nothing; `lock`/`unlock` pairs, which do nothing in
these allocators, are left out; an allocator without state is modelled like one with (for such an allocator `construct`,
`destroy` and `copy_into` do not compile, handle_desc.h:234, 242, 250 bind a temporary to a reference).
-/
namespace Verif.Descriptor
open Verif.DynArray (Res)
open Verif.Growable (Heap)

universe u v w

/-- `value_evaporator<handle, !singular, bool, true>`, value_evaporator.h:20-56: the handle of a descriptor is stored, or,
for a singular allocator, not there: then it always reads as the given constant -/
inductive Slot (η : Type v) where
  | stored (h : η)
  | evaporated (constant : η)
  deriving DecidableEq, Repr

/-- `value()`, value_evaporator.h:30, 50 -/
def Slot.get {η : Type v} : Slot η → η
  | .stored h => h
  | .evaporated c => c

/-- `value(v)`, value_evaporator.h:24, 44 -/
def Slot.set {η : Type v} : Slot η → η → Slot η
  | .stored _, h => .stored h
  | .evaporated c, _ => .evaporated c

/-- the functions of an allocator a descriptor calls -/
structure Allocator (α : Type u) (σ : Type w) (η : Type v) where
  /-- `invalid()` -/
  invalid : η
  /-- `allocate(n)` -/
  allocate : σ → Nat → σ × η
  /-- `reallocate(h, n)` -/
  reallocate : σ → η → Nat → Res (σ × η)
  /-- `free(h)` -/
  free : σ → η → Res σ
  /-- reading `lock(h, pos)` -/
  read : σ → η → Nat → Res α
  /-- constructing or assigning at `lock(h, pos)` -/
  write : σ → η → Nat → α → Res σ
  /-- `size(h)`, for allocators that can tell -/
  sizeOf : σ → Nat

/-- a descriptor: its allocator, its handle, and the size it tracks itself (allocators/handle_desc.h:51) unless the
allocator knows it (104-107) -/
structure Desc (σ : Type w) (η : Type v) where
  a : σ
  slot : Slot η
  tracked : Option Nat
  deriving DecidableEq, Repr

variable {α : Type u} {σ : Type w} {η : Type v} [DecidableEq η]

/-- `size()`, allocators/handle_desc.h:73, 104-107 -/
def Desc.size (A : Allocator α σ η) (d : Desc σ η) : Nat := d.tracked.getD (A.sizeOf d.a)

/-- `is_allocated()`, impl/handle_desc.h:261-264 -/
def Desc.isAllocated (A : Allocator α σ η) (d : Desc σ η) : Bool := decide (A.invalid ≠ d.slot.get)

/-- `allocate(n)`, impl/handle_desc.h:266-270, allocators/handle_desc.h:75-79: the tracked size is set first -/
def Desc.allocate (A : Allocator α σ η) (d : Desc σ η) (n : Nat) : Desc σ η × Bool :=
  let r := A.allocate d.a n
  let d' : Desc σ η := ⟨r.1, d.slot.set r.2, d.tracked.map fun _ => n⟩
  (d', d'.isAllocated A)

/-- `reallocate(n)`, impl/handle_desc.h:255-259, allocators/handle_desc.h:81-85 -/
def Desc.reallocate (A : Allocator α σ η) (d : Desc σ η) (n : Nat) : Res (Desc σ η × Bool) :=
  (A.reallocate d.a d.slot.get n).bind fun r =>
    let d' : Desc σ η := ⟨r.1, d.slot.set r.2, d.tracked.map fun _ => n⟩
    .ok (d', decide (d'.slot.get ≠ A.invalid))

/-- `free()`, impl/handle_desc.h:272-275 (it compiles only with an allocator that has a `free`) -/
def Desc.free (A : Allocator α σ η) (d : Desc σ η) : Res (Desc σ η) :=
  (A.free d.a d.slot.get).bind fun a => .ok { d with a := a }

/-- `construct(pos, v)`, impl/handle_desc.h:231-237 -/
def Desc.construct (A : Allocator α σ η) (d : Desc σ η) (pos : Nat) (v : α) : Res (Desc σ η) :=
  (A.write d.a d.slot.get pos v).bind fun a => .ok { d with a := a }

/-- reading through `clock(pos)`, impl/handle_desc.h:217-220 -/
def Desc.read (A : Allocator α σ η) (d : Desc σ η) (pos : Nat) : Res α := A.read d.a d.slot.get pos

/-- `copy_into(source, pos, len)`, impl/handle_desc.h:32-39, 247-253, with `copy_n` (algorithm.h:109-119): the source
elements are written one after the other -/
def Desc.copyInto (A : Allocator α σ η) (d : Desc σ η) : List α → Nat → Res (Desc σ η)
  | [], _ => .ok d
  | v :: src, pos => (d.construct A pos v).bind fun d' => Desc.copyInto A d' src (pos + 1)

/-- `copy_from(…, pos, len)`, impl/handle_desc.h:43-50 -/
def Desc.copyFrom (A : Allocator α σ η) (d : Desc σ η) (pos : Nat) : Nat → Res (List α)
  | 0 => .ok []
  | len + 1 => (d.read A pos).bind fun v => (Desc.copyFrom A d (pos + 1) len).bind fun l => .ok (v :: l)

/-! ## fixed buffers -/

/-- a fixed allocator: the program's memory, where the buffer starts, its length (0 with a length known at compile time
means unbounded, fixed.h:198), whether the length is known only at run time (layer3, fixed.h:278-355), the width of the
size type, and whether assertions are compiled in -/
structure Fixed (α : Type u) where
  mem : List (Option α)
  base : Nat
  len : Nat
  runtime : Bool
  bits : Nat
  asserts : Bool
  deriving DecidableEq, Repr

/-- `max_size()` of the allocator, fixed.h:266-269, 328-332 -/
def Fixed.maxSize (f : Fixed α) : Nat := if !f.runtime && f.len == 0 then 2 ^ 64 - 1 else f.len

/-- `allocate(n)`, `allocate_ext(n)`, fixed.h:239-255, 334-346 -/
def Fixed.allocate (f : Fixed α) (n : Nat) : Bool :=
  if !f.runtime && f.len == 0 then true else decide (n ≤ f.maxSize)

/-- a fixed allocator as one a descriptor can use, fixed.h:121, 145-187, 271, 324; it has no `free`: not callable -/
def fixedAllocator (α : Type u) : Allocator α (Fixed α) Bool where
  invalid := false
  allocate f n := (f, f.allocate n)
  reallocate f h _ := if f.asserts then .abort else .ok (f, h)
  free _ _ := .ub
  read f _ pos :=
    match rd f.mem (f.base + pos) with
    | some (some v) => .ok v
    | _ => .ub
  write f _ pos v :=
    match wr f.mem (f.base + pos) (some v) with
    | some m => .ok { f with mem := m }
    | none => .ub
  sizeOf f := f.maxSize % 2 ^ f.bits

/-- `handle_descriptor<layer1/2/3::allocator>`, allocators/handle_desc.h:134-140: singular, and sized by its allocator -/
def fixedDesc (f : Fixed α) : Desc (Fixed α) Bool := ⟨f, .evaporated true, none⟩

/-- `layer1::allocator<T, len>` / `layer2::allocator<T, len>` over the buffer at `base`, fixed.h:200-204, 363-403: the size
type is deduced from the length (deduce_fixed_size.h:21-37) -/
def sized (mem : List (Option α)) (base len : Nat) (asserts : Bool) : Option (Fixed α) :=
  (Arrays.deduceBits len).map fun b => ⟨mem, base, len, false, b, asserts⟩

/-- `layer3::allocator<T>` over `len` elements at `base`, fixed.h:304-322, 430-434: `size_t` sizes -/
def runtimeSized (mem : List (Option α)) (base len : Nat) (asserts : Bool) : Fixed α :=
  ⟨mem, base, len, true, 64, asserts⟩

/-! ## blocks -/

/-- `free(h)` of an allocator of blocks; giving back nothing does nothing -/
def heapFree {α : Type} (h : Heap α) : Option Nat → Res (Heap α)
  | none => .ok h
  | some b =>
    match h.blocks[b]? with
    | some (some _) => .ok { h with blocks := h.blocks.set b none }
    | _ => .ub

/-- an allocator of blocks, test/catch/mem.h:129-166: resizing nothing allocates -/
def heapAllocator (α : Type) : Allocator α (Heap α) (Option Nat) where
  invalid := none
  allocate h n := h.allocate n
  reallocate h b n :=
    match b with
    | none => .ok (h.allocate n)
    | some b => h.reallocate b n
  free := heapFree
  read h b pos :=
    match b.bind (fun b => h.blocks[b]?) with
    | some (some cells) =>
      match rd cells pos with
      | some (some v) => .ok v
      | _ => .ub
    | _ => .ub
  write h b pos v :=
    match b with
    | none => .ub
    | some b =>
      match h.blocks[b]? with
      | some (some cells) =>
        match wr cells pos (some v) with
        | some c => .ok { h with blocks := h.blocks.set b (some c) }
        | none => .ub
      | _ => .ub
  sizeOf _ := 0

/-- `handle_descriptor<Allocator>` for such an allocator, allocators/handle_desc.h:56-58, 134-136: no block, size 0 -/
def heapDesc {α : Type} (h : Heap α) : Desc (Heap α) (Option Nat) := ⟨h, .stored none, some 0⟩

/-! ## histories -/

/-- a call on a descriptor -/
inductive Op (α : Type u) where
  | allocate (n : Nat)
  | reallocate (n : Nat)
  | construct (pos : Nat) (v : α)
  | copyInto (src : List α) (pos : Nat)
  | read (pos : Nat)
  | copyFrom (pos len : Nat)
  | isAllocated
  | size

/-- its answer -/
inductive Out (α : Type u) where
  | unit
  | bool (b : Bool)
  | nat (n : Nat)
  | val (v : α)
  | vals (l : List α)
  deriving DecidableEq, Repr

/-- one call, impl/handle_desc.h:209-270, allocators/handle_desc.h:73-85, 104-107 -/
def Desc.step (A : Allocator α σ η) (d : Desc σ η) : Op α → Res (Desc σ η × Out α)
  | .allocate n => .ok ((d.allocate A n).1, .bool (d.allocate A n).2)
  | .reallocate n => (d.reallocate A n).bind fun r => .ok (r.1, .bool r.2)
  | .construct pos v => (d.construct A pos v).bind fun d => .ok (d, .unit)
  | .copyInto src pos => (d.copyInto A src pos).bind fun d => .ok (d, .unit)
  | .read pos => (d.read A pos).bind fun v => .ok (d, .val v)
  | .copyFrom pos len => (d.copyFrom A pos len).bind fun l => .ok (d, .vals l)
  | .isAllocated => .ok (d, .bool (d.isAllocated A))
  | .size => .ok (d, .nat (d.size A))

/-- a sequence of calls (impl/handle_desc.h:209-270), with the answers -/
def Desc.run (A : Allocator α σ η) (d : Desc σ η) : List (Op α) → Res (Desc σ η × List (Out α))
  | [] => .ok (d, [])
  | op :: ops => (d.step A op).bind fun r => (Desc.run A r.1 ops).bind fun q => .ok (q.1, r.2 :: q.2)

end Verif.Descriptor
