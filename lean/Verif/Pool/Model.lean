import Verif.Common.Chain
/-!
# Model of the block pool (internal/memory/v1/pool.h)

A block is an index into `storage_`.  `mem[b]` is the pointer-sized overlay at the start of block `b`
(the union member `next_`, pool.h:15-18): while a block is free it is the free-list link, while it is
allocated it is whatever the user wrote there.  `none` is `nullptr`.  Bytes of a block beyond the overlay
are never touched by the pool and are not modelled.
-/
namespace Verif.Pool
open Verif

/-- `pool<block_size, blocks>`: storage overlay (pool.h:133) and `head_free_` (pool.h:30). -/
structure Pool where
  mem : List (Option Nat)
  head : Option Nat
deriving DecidableEq, Repr

/-- `control::free`, pool.h:23-27: `next_ = *head; *head = this;` -/
def controlFree (mem : List (Option Nat)) (this : Nat) (head : Option Nat) :
    Option (List (Option Nat) × Option Nat) :=
  match wr mem this head with
  | none => none
  | some m => some (m, some this)

/-- Loop of `pool_block::reset`, pool.h:108-109: `while(i-- > storage) i->base_.free(&current);` -/
def resetLoop (mem : List (Option Nat)) : Nat → Option Nat → Option (List (Option Nat))
  | 0, _ => some mem
  | i + 1, current =>
    match controlFree mem i current with
    | none => none
    | some (m, c) => resetLoop m i c

/-- `pool_block::reset`, pool.h:101-110. -/
def reset (mem : List (Option Nat)) (blocks : Nat) : Option (List (Option Nat)) := resetLoop mem blocks none

/-- `pool()` / `pool_block(control*, unsigned)`, pool.h:112-118, 136: head is the first block.  `mem` is the
uninitialised storage.  (A pool of zero blocks is not a valid C++ array.) -/
def create (mem : List (Option Nat)) : Option Pool :=
  match mem with
  | [] => none
  | _ :: _ =>
    match reset mem mem.length with
    | none => none
    | some m => some ⟨m, some 0⟩

/-- `full`, pool.h:49. -/
def full (p : Pool) : Bool := p.head.isNone

/-- `alloc` with `alloc_next`, pool.h:33-41, 71-78.  The inner `none` is `nullptr`. -/
def alloc (p : Pool) : Option (Pool × Option Nat) :=
  match p.head with
  | none => some (p, none)
  | some b =>
    match rd p.mem b with
    | none => none
    | some n => some (⟨p.mem, n⟩, some b)

/-- `free(void*)`, pool.h:64-69. -/
def free (p : Pool) (b : Nat) : Option Pool :=
  match controlFree p.mem b p.head with
  | none => none
  | some (m, h) => some ⟨m, h⟩

/-- Loop of `available_blocks`, pool.h:55-56; a run longer than the storage can only be a cycle, reported
as `none` (as is a read outside the storage). -/
def availLoop (mem : List (Option Nat)) : Nat → Option Nat → Option Nat
  | _, none => some 0
  | 0, some _ => none
  | fuel + 1, some b =>
    match rd mem b with
    | none => none
    | some n => (availLoop mem fuel n).map (· + 1)

/-- `available_blocks`, pool.h:51-59. -/
def available (p : Pool) : Option Nat := availLoop p.mem p.mem.length p.head

/-- The owner of block `b` writes to the bytes where the free-list link lived. -/
def userWrite (p : Pool) (b : Nat) (v : Option Nat) : Option Pool :=
  match wr p.mem b v with
  | none => none
  | some m => some { p with mem := m }

/-- `to_handle`, pool.h:140-143: block index narrowed to `int8_t`. -/
def toHandle (b : Nat) : BitVec 8 := BitVec.ofNat 8 b

/-- `from_handle`, pool.h:145-148: `&storage_[handle]`, i.e. the (signed) index of the handle. -/
def fromHandle (h : BitVec 8) : Int := h.toInt

end Verif.Pool
