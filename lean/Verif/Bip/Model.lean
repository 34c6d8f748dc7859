import Verif.Common.Mem

/-!
# Model of the bip buffer

Modelled from `src/estd/ext/willemt/bipbuffer/bipbuffer.c` and the helpers of `src/estd/internal/bip/buffer.h`.
`size` is a 64-bit unsigned, the cursors are 32-bit unsigned, results of type `int` are 32-bit signed
(bipbuffer.h:4-18); all of C's conversions between them are modelled.  `data` is the flexible array of `size` bytes;
writing outside it is undefined (`none`).
-/
namespace Verif.Bip
open Verif

/-- `bipbuf_t`, bipbuffer.h:4-18 -/
structure Buf (α : Type u) where
  size : Nat
  aStart : Nat
  aEnd : Nat
  bEnd : Nat
  /-- `b_inuse`, only ever 0 or 1 -/
  bInuse : Bool
  data : List α
  deriving DecidableEq, Repr

/-- 32-bit unsigned subtraction -/
def sub32 (a b : Nat) : Nat := (a + 4294967296 - b) % 4294967296
/-- 32-bit unsigned addition -/
def add32 (a b : Nat) : Nat := (a + b) % 4294967296
/-- 64-bit unsigned subtraction -/
def sub64 (a b : Nat) : Nat := (a + 18446744073709551616 - b) % 18446744073709551616

/-- conversion of an unsigned value to `int` -/
def toInt (a : Nat) : Int := if a % 4294967296 < 2147483648 then (a % 4294967296 : Nat) else (a % 4294967296 : Nat) - 4294967296

/-- `bipbuf_init`, bipbuffer.c:42-47; the bytes of the array are whatever they were -/
def init (size : Nat) (mem : List α) : Buf α := ⟨size, 0, 0, 0, false, mem⟩

/-- `bipbuf_unused`, bipbuffer.c:23-30 -/
def unused (b : Buf α) : Int :=
  if b.bInuse then toInt (sub32 b.aStart b.bEnd) else toInt (sub64 b.size b.aEnd)

/-- `bipbuf_used`, bipbuffer.c:37-40 -/
def used (b : Buf α) : Int := toInt (add32 (sub32 b.aEnd b.aStart) b.bEnd)

/-- `bipbuf_is_empty`, bipbuffer.c:63-66 -/
def isEmpty (b : Buf α) : Bool := b.aStart == b.aEnd

/-- `__check_for_switch_to_b`, bipbuffer.c:70-74, and `check_for_switch_to_b`, bip/buffer.h:40-44 -/
def checkSwitch (b : Buf α) : Buf α :=
  if sub64 b.size b.aEnd < sub32 b.aStart b.bEnd then { b with bInuse := true } else b

/-- `memcpy(data + i, d, n)` -/
def memcpy (m : List α) (i : Nat) : List α → Option (List α)
  | [] => some m
  | c :: d =>
    match wr m i c with
    | some m' => memcpy m' (i + 1) d
    | none => none

/-- `bipbuf_offer(me, data, size)`, bipbuffer.c:76-95; `d` is the `size` bytes offered (a negative `size` is not
modelled).  Returns the number of bytes accepted. -/
def offer (b : Buf α) (d : List α) : Option (Nat × Buf α) :=
  if unused b < d.length then some (0, b)
  else
    match (if b.bInuse then
        (memcpy b.data b.bEnd d).map fun m => { b with data := m, bEnd := add32 b.bEnd d.length }
      else (memcpy b.data b.aEnd d).map fun m => { b with data := m, aEnd := add32 b.aEnd d.length }) with
    | some b' => some (d.length, checkSwitch b')
    | none => none

/-- `offer_begin`, bip/buffer.h:47-50: where the caller may write -/
def offerBegin (b : Buf α) : Nat := if b.bInuse then b.bEnd else b.aEnd

/-- `offer_end`, bip/buffer.h:53-65 -/
def offerEnd (b : Buf α) (n : Nat) : Buf α :=
  checkSwitch (if b.bInuse then { b with bEnd := add32 b.bEnd n } else { b with aEnd := add32 b.aEnd n })

/-- `bipbuf_peek`, bipbuffer.c:97-107; `none` is `NULL`, otherwise an index into `data` -/
def peek (b : Buf α) (n : Nat) : Option Nat :=
  if b.size < add32 b.aStart n then none
  else if isEmpty b then none
  else some b.aStart

/-- `bipbuf_poll`, bipbuffer.c:109-138 -/
def poll (b : Buf α) (n : Nat) : Option Nat × Buf α :=
  if isEmpty b then (none, b)
  else if b.size < add32 b.aStart n then (none, b)
  else
    let p := b.aStart
    let b1 := { b with aStart := add32 b.aStart n }
    let b2 :=
      if b1.aStart = b1.aEnd then
        if b1.bInuse then { b1 with aStart := 0, aEnd := b1.bEnd, bEnd := 0, bInuse := false }
        else { b1 with aStart := 0, aEnd := 0 }
      else b1
    (some p, checkSwitch b2)

end Verif.Bip
