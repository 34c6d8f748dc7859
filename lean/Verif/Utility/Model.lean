import Verif.Heap.Props
/-!
# Model of `swap`, `exchange` and `pair` (utility.h)

Objects of one integer type live in a memory `List (BitVec w)`; a reference to one is its index.  Widths are those of
the platform the unit tests run on (32 bit `int`, 64 bit `long`).

Not modelled: the piecewise constructor (utility.h:44-54; tuples are C64), `constexpr` evaluation, and pairs holding
references.
-/
namespace Verif.Utility
open Verif Verif.Algorithm

/-- the built-in integer types -/
inductive Ty where
  | char | schar | short | int | long | llong
  | uchar | ushort | uint | ulong | ullong
  deriving DecidableEq, Repr

/-- the width of a type in bits -/
def Ty.bits : Ty → Nat
  | .char | .schar | .uchar => 8
  | .short | .ushort => 16
  | .int | .uint => 32
  | .long | .llong | .ulong | .ullong => 64

/-- whether values of the type are signed -/
def Ty.signed : Ty → Bool
  | .char | .schar | .short | .int | .long | .llong => true
  | .uchar | .ushort | .uint | .ulong | .ullong => false

/-- utility.h:205-227: the types for which `estd::swap` is specialised to `xor_swap` -/
def Ty.xorSwapped : Ty → Bool
  | .char | .short | .int | .long | .uchar | .ushort | .uint | .ulong => true
  | .schar | .llong | .ullong => false

/-- the value `a ^= b` stores: both sides are promoted to at least `int`, combined, and the result converted back -/
def xorAssign (t : Ty) (a b : BitVec t.bits) : BitVec t.bits :=
  let up (v : BitVec t.bits) : BitVec (max 32 t.bits) := if t.signed then v.signExtend _ else v.setWidth _
  (up a ^^^ up b).setWidth t.bits

/-- one statement `*dst ^= *src;` on objects -/
def xorStep (t : Ty) (m : List (BitVec t.bits)) (dst src : Nat) : Option (List (BitVec t.bits)) :=
  match rd m dst, rd m src with
  | some x, some y => wr m dst (xorAssign t x y)
  | _, _ => none

/-- `internal::xor_swap(a, b)`, utility.h:195-201: `a ^= b; b ^= a; a ^= b;` -/
def xorSwap (t : Ty) (m : List (BitVec t.bits)) (a b : Nat) : Option (List (BitVec t.bits)) :=
  match xorStep t m a b with
  | none => none
  | some m1 =>
    match xorStep t m1 b a with
    | none => none
    | some m2 => xorStep t m2 a b

/-- the generic `swap(a, b)`, utility.h:182-191: `const T temp = a; a = b; b = temp;` -/
def genericSwap {α : Type u} (m : List α) (a b : Nat) : Option (List α) :=
  match rd m a with
  | none => none
  | some temp =>
    match rd m b with
    | none => none
    | some y =>
      match wr m a y with
      | none => none
      | some m' => wr m' b temp

/-- `estd::swap(a, b)` for two objects of an integer type, utility.h:182-227 -/
def swap (t : Ty) (m : List (BitVec t.bits)) (a b : Nat) : Option (List (BitVec t.bits)) :=
  if t.xorSwapped then xorSwap t m a b else genericSwap m a b

/-! ## Algorithms over integers: the same code with `estd::swap` as it is for them -/

/-- `reverse` over integers, algorithm.h:207-211 (198-201 `iter_swap`) -/
def reverseInt (t : Ty) (m : List (BitVec t.bits)) (first last : Nat) : Option (List (BitVec t.bits)) :=
  if first = last then some m
  else
    match last with
    | 0 => none
    | l + 1 =>
      if first = l then some m
      else
        match swap t m first l with
        | none => none
        | some m' => reverseInt t m' (first + 1) l
termination_by last

/-- the loop of `heap::restore_up` over integers, heap.h:66-85 -/
def upLoopInt (t : Ty) (comp : BitVec t.bits → BitVec t.bits → Bool) (k f : Nat) (m : List (BitVec t.bits))
    (cur : Nat) : Option (List (BitVec t.bits) × Nat) :=
  if h0 : cur = 0 then some (m, cur)
  else if k = 0 then none
  else
    match rd m (f + (cur - 1) / k), rd m (f + cur) with
    | some p, some c =>
      if comp p c then
        match swap t m (f + cur) (f + (cur - 1) / k) with
        | none => none
        | some m' => upLoopInt t comp k f m' ((cur - 1) / k)
      else some (m, cur)
    | _, _ => none
termination_by cur
decreasing_by
  have := Nat.div_le_self (cur - 1) k
  omega

/-- `heap::restore_down(current)` over integers, heap.h:96-125 -/
def restoreDownInt (t : Ty) (comp : BitVec t.bits → BitVec t.bits → Bool) (k f n : Nat) (m : List (BitVec t.bits))
    (cur : Nat) : Option (List (BitVec t.bits)) :=
  if hk : k = 0 then none
  else if hl : n ≤ cur * k + 1 then some m
  else
    match hc : maxElement comp m (f + (cur * k + 1)) (min (f + (cur * k + 1) + k) (f + n)) with
    | none => none
    | some ch =>
      match rd m (f + cur), rd m ch with
      | some x, some y =>
        if comp x y then
          match swap t m ch (f + cur) with
          | none => none
          | some m' => restoreDownInt t comp k f n m' (ch - f)
        else some m
      | _, _ => none
termination_by n - cur
decreasing_by
  have hr := Heap.maxElement_range hc (by omega)
  have : cur ≤ cur * k := Nat.le_mul_of_pos_right cur (by omega)
  omega

/-- `heap::pop` over integers, heap.h:135-139 -/
def popInt (t : Ty) (comp : BitVec t.bits → BitVec t.bits → Bool) (k f n : Nat) (m : List (BitVec t.bits)) :
    Option (List (BitVec t.bits)) :=
  if n = 0 then none
  else
    match swap t m f (f + (n - 1)) with
    | none => none
    | some m' => restoreDownInt t comp k f (n - 1) m' 0

/-- `pop_heap(first, last, comp)` over integers, heap.h:199-204 -/
def popHeapInt (t : Ty) (comp : BitVec t.bits → BitVec t.bits → Bool) (m : List (BitVec t.bits))
    (first last : Nat) : Option (List (BitVec t.bits)) :=
  popInt t comp 2 first (last - first) m

/-! ## `exchange` -/

/-- `exchange(obj, new_value)`, utility.h:173-179, for objects `obj` and `src` of a type whose move leaves `moved x`
where `x` was.  `rv` tells whether the second argument is an rvalue (`std::forward` then moves from it).
Answers the returned value and the memory.  Moving an object onto itself is taken to leave it as a move would. -/
def exchange {α : Type u} (moved : α → α) (rv : Bool) (m : List α) (obj src : Nat) : Option (α × List α) :=
  match rd m obj with
  | none => none
  | some old =>
    match wr m obj (moved old) with
    | none => none
    | some m1 =>
      match rd m1 src with
      | none => none
      | some v =>
        match wr m1 obj v with
        | none => none
        | some m2 =>
          if rv then
            match wr m2 src (moved v) with
            | none => none
            | some m3 => some (old, m3)
          else some (old, m2)

/-! ## Pairs -/

/-- `pair::swap`, utility.h:58-62 (and 65-69), of two pairs of integers; pair `i` is `m1[i]`, `m2[i]` -/
def pairSwap (t1 t2 : Ty) (m1 : List (BitVec t1.bits)) (m2 : List (BitVec t2.bits)) (i j : Nat) :
    Option (List (BitVec t1.bits) × List (BitVec t2.bits)) :=
  match swap t1 m1 i j with
  | none => none
  | some m1' =>
    match swap t2 m2 i j with
    | none => none
    | some m2' => some (m1', m2')

/-- the operators of a component type -/
structure Ops (α : Type u) where
  eq : α → α → Bool
  ne : α → α → Bool
  lt : α → α → Bool
  gt : α → α → Bool

variable {α : Type u} {β : Type v}

/-- `operator==`, utility.h:78-82 -/
def pairEq (A : Ops α) (B : Ops β) (l r : α × β) : Bool := A.eq l.1 r.1 && B.eq l.2 r.2

/-- `operator!=`, utility.h:84-88 -/
def pairNe (A : Ops α) (B : Ops β) (l r : α × β) : Bool := A.ne l.1 r.1 || B.ne l.2 r.2

/-- `operator<`, utility.h:90-97 -/
def pairLt (A : Ops α) (B : Ops β) (l r : α × β) : Bool :=
  if A.lt l.1 r.1 then true else if A.gt l.1 r.1 then false else B.lt l.2 r.2

/-- `operator>`, utility.h:99-107 -/
def pairGt (A : Ops α) (B : Ops β) (l r : α × β) : Bool :=
  if A.gt l.1 r.1 then true else if A.lt l.1 r.1 then false else B.gt l.2 r.2

/-- `pair(U1&& first, U2&& second)`, utility.h:41-42: the parameters are named, so both members are copied whatever
was passed; `rv1`, `rv2` tell whether an rvalue was.  Answers the pair and what is left in the two sources. -/
def pairConstruct (_rv1 _rv2 : Bool) (x : α) (y : β) : (α × β) × α × β := ((x, y), x, y)

/-- `get<0>`, `get<1>` assigned through, utility.h:125-165; a pair has two elements (110-111) -/
inductive Elem where
  | first
  | second
  deriving DecidableEq, Repr

/-- `get<I>(p) = v` for a pair of two values of one type -/
def setElem (p : α × α) : Elem → α → α × α
  | .first, v => (v, p.2)
  | .second, v => (p.1, v)

/-- `get<I>(p)`, utility.h:126-141 -/
def getElem (p : α × α) : Elem → α
  | .first => p.1
  | .second => p.2

end Verif.Utility
