import Verif.DynArray.History
import Verif.Algorithm.CopyProps

/-!
# Model of arrays, of maps over arrays, and of `stack`

Modelled from `src/estd/internal/array.h`, `src/estd/internal/legacy/array.h`, `src/estd/array.h`, `src/estd/map.h`,
`src/estd/stack.h` and `src/estd/internal/deduce_fixed_size.h`.

Storage is a list of objects, each a list of cells; a cell is `none` while its value is indeterminate.  Every array is a
view: object, offset, length.  `estd::array` is a view of the whole of its own object; the `layer2`/`layer3` arrays hold a
pointer into someone else's.

Not expressible, because the program does not compile: `back()` of an `estd::array` (array.h:154-155 calls
`base_type::end()`, which neither implementation has).
Simplifications: elements are copied whole; padding and alignment are not modelled.
-/
namespace Verif.Arrays
open Verif

universe u v

/-! ## the deduced size type -/

/-- `deduce_fixed_size_t<N>`, deduce_fixed_size.h:21-37: the width of the size type; `none`: does not compile -/
def deduceBits (n : Nat) : Option Nat :=
  if n ≤ 255 then some 8 else if 255 < n ∧ n ≤ 0xFFFF then some 16
  else if 0xFFFF < n ∧ n ≤ 0xFFFFFFFF then some 32 else none

/-- `size()` and `max_size()` of `array<T, N>`, array.h:23-24: `N` converted to the size type -/
def sizeOf (n : Nat) : Option Nat := (deduceBits n).map fun b => n % 2 ^ b

/-- `deduce_bit_count<val>`, deduce_fixed_size.h:40-87 -/
def bitCount (n : Nat) : Option Nat :=
  if n ≤ 1 then some 1 else if n ≤ 3 then some 2 else if n ≤ 7 then some 3 else if n ≤ 15 then some 4
  else if n ≤ 31 then some 5 else if n ≤ 63 then some 6 else if n ≤ 127 then some 7 else none

/-! ## storage and views -/

/-- the objects of the program -/
abbrev Mem (α : Type u) := List (List (Option α))

/-- what an array of any layer refers to, array.h:85, legacy/array.h:255-263, 299-318 -/
structure View where
  obj : Nat
  off : Nat
  n : Nat
  deriving DecidableEq, Repr

/-- a fresh `array<T, N>`, array.h:99: nothing is initialised -/
def fresh {α : Type u} (n : Nat) : List (Option α) := List.replicate n none

/-- `array<T, N>{...}`, array.h:102-105 (and legacy/array.h:73-83): `copy` without a bound; `none`: runs over the end -/
def ofList {α : Type u} (n : Nat) (init : List α) : Option (List (Option α)) := DynArray.writeAll (fresh n) 0 (init.map some)

/-- `to_array(a)`, estd/array.h:13-21 -/
def toArray {α : Type u} (a : List (Option α)) : Option (List (Option α)) :=
  match Algorithm.copyN (a ++ fresh a.length) 0 a.length a.length with
  | none => none
  | some (m, _) => some (m.drop a.length)

/-- `a[i]` read, array.h:157-161, legacy/array.h:87-95; `none`: outside the object, or indeterminate -/
def get {α : Type u} (m : Mem α) (v : View) (i : Nat) : Option α :=
  match m[v.obj]? with
  | none => none
  | some o => match rd o (v.off + i) with
    | none => none
    | some c => c

/-- `a[i] = x` -/
def set {α : Type u} (m : Mem α) (v : View) (i : Nat) (x : α) : Option (Mem α) :=
  match m[v.obj]? with
  | none => none
  | some o => match wr o (v.off + i) (some x) with
    | none => none
    | some o' => some (m.set v.obj o')

/-- `a.fill(x)`, array.h:163-166, legacy/array.h:238-241 -/
def fill {α : Type u} (m : Mem α) (v : View) (x : α) : Option (Mem α) :=
  match m[v.obj]? with
  | none => none
  | some o => match Algorithm.fillN o v.off v.n (some x) with
    | none => none
    | some (o', _) => some (m.set v.obj o')

/-- `b = a` for two `estd::array`s of one type: the implicit assignment of `data_` -/
def assign {α : Type u} (m : Mem α) (src dst : Nat) : Option (Mem α) :=
  match m[src]? with
  | none => none
  | some o => some (m.set dst o)

/-- `for(T& x : a)`, array.h:142-148, legacy/array.h:195-196, 276-277, 335-336: what is seen, in order -/
def iterate {α : Type u} (m : Mem α) (v : View) : Nat → Nat → Option (List α)
  | _, 0 => some []
  | i, n + 1 =>
    match get m v i with
    | none => none
    | some x => (iterate m v (i + 1) n).map (x :: ·)

/-- `front()`, array.h:151-152, legacy/array.h:188-189 -/
def front {α : Type u} (m : Mem α) (v : View) : Option α := get m v 0

/-- `back()` of a `layer3` array, legacy/array.h:330-331: index `size() - 1`, in the size type of `bits` bits -/
def back {α : Type u} (bits : Nat) (m : Mem α) (v : View) : Option α := get m v ((v.n + 2 ^ bits - 1) % 2 ^ bits)

/-- `a == b`, array.h:111-115 -/
def arrEq {α : Type u} [DecidableEq α] (m : Mem α) (a b : View) : Option Bool :=
  if a.n = b.n then
    match iterate m a 0 a.n, iterate m b 0 b.n with
    | some l, some r => Algorithm.equal (fun x y => decide (x = y)) l r 0 l.length 0
    | _, _ => none
  else some false

/-- `a != b`, array.h:117-121 -/
def arrNe {α : Type u} [DecidableEq α] (m : Mem α) (a b : View) : Option Bool :=
  if a.n = b.n then
    match iterate m a 0 a.n, iterate m b 0 b.n with
    | some l, some r => (Algorithm.equal (fun x y => decide (x = y)) l r 0 l.length 0).map (! ·)
    | _, _ => none
  else some true

/-! ## maps -/

/-- `operator[]`, map.h:156-169, 205-218, 260-273: the loop from entry `i`, `rem` entries to go.  Outer `none`: an
indeterminate key was compared, or the loop left the object; inner `none`: a null pointer; `some j`: a pointer to the
value of entry `j`. -/
def lookupFrom {κ : Type u} {β : Type v} [DecidableEq κ] (m : Mem (κ × β)) (v : View) (k : κ) : Nat → Nat → Option (Option Nat)
  | _, 0 => some none
  | i, rem + 1 =>
    match get m v i with
    | none => none
    | some e => if e.1 = k then some (some i) else lookupFrom m v k (i + 1) rem

/-- `map[k]` -/
def lookup {κ : Type u} {β : Type v} [DecidableEq κ] (m : Mem (κ × β)) (v : View) (k : κ) : Option (Option Nat) :=
  lookupFrom m v k 0 v.n

/-- the three maps -/
inductive Layer where
  | layer1
  | layer2
  | layer3
  deriving DecidableEq, Repr

/-- building a map on the caller's array, object 0: `layer1` copies it (map.h:52, 148), `layer2` and `layer3` keep its
address (map.h:200-201, 252-253) -/
def mapOn {κ : Type u} {β : Type v} (layer : Layer) (a : List (Option (κ × β))) : Mem (κ × β) × View :=
  match layer with
  | .layer1 => ([a, a], ⟨1, 0, a.length⟩)
  | .layer2 => ([a], ⟨0, 0, a.length⟩)
  | .layer3 => ([a], ⟨0, 0, a.length⟩)

/-- what a program does with a map and the array it was built on -/
inductive MOp (κ : Type u) (β : Type v) where
  /-- `T* p = map[k]; p ? *p : nothing` -/
  | find (k : κ)
  /-- `if(T* p = map[k]) *p = x` -/
  | assign (k : κ) (x : β)
  /-- `array[i] = pair(k, x)` -/
  | poke (i : Nat) (e : κ × β)
  /-- `array[i]` -/
  | peek (i : Nat)

/-- what the program sees -/
inductive MOut (κ : Type u) (β : Type v) where
  | value (o : Option β)
  | assigned (b : Bool)
  | entry (e : κ × β)
  | none
  deriving DecidableEq, Repr

/-- one step -/
def MOp.step {κ : Type u} {β : Type v} [DecidableEq κ] (v : View) (n : Nat) (m : Mem (κ × β)) : MOp κ β → Option (Mem (κ × β) × MOut κ β)
  | .find k =>
    match lookup m v k with
    | .none => .none
    | some .none => some (m, .value .none)
    | some (some i) => (get m v i).map fun e => (m, .value (some e.2))
  | .assign k x =>
    match lookup m v k with
    | .none => .none
    | some .none => some (m, .assigned false)
    | some (some i) =>
      match get m v i with
      | .none => .none
      | some e => (set m v i (e.1, x)).map fun m' => (m', .assigned true)
  | .poke i e => (set m ⟨0, 0, n⟩ i e).map fun m' => (m', .none)
  | .peek i => (get m ⟨0, 0, n⟩ i).map fun e => (m, .entry e)

/-- a history -/
def MOp.run {κ : Type u} {β : Type v} [DecidableEq κ] (v : View) (n : Nat) : Mem (κ × β) → List (MOp κ β) → Option (List (MOut κ β))
  | _, [] => some []
  | m, o :: os =>
    match o.step v n m with
    | .none => .none
    | some (m', r) => (MOp.run v n m' os).map (r :: ·)

/-! ## `stack` -/

/-- the calls, stack.h:28-43 -/
inductive SOp (α : Type u) where
  | push (x : α)
  | pop
  | top
  | size
  | empty
  /-- `for(T& x : stack)`, stack.h:72-73 -/
  | iterate

inductive SOut (α : Type u) where
  | none
  | value (x : α)
  | count (n : Nat)
  | flag (b : Bool)
  | all (l : List α)
  deriving DecidableEq, Repr

/-- iteration of the underlying vector from position `i`, `rem` elements to go -/
def vecFrom {α : Type u} (a : DynArray.Arr α) : Nat → Nat → DynArray.Res (List α)
  | _, 0 => .ok []
  | i, rem + 1 => (DynArray.index a i).bind fun x => (vecFrom a (i + 1) rem).bind fun r => .ok (x :: r)

/-- `top()` is `back()`, runtime_array.h:344-347: element `size() - 1`, in the size type -/
def SOp.step {α : Type u} [DecidableEq α] (c : DynArray.Cfg α) (a : DynArray.Arr α) : SOp α → DynArray.Res (DynArray.Arr α × SOut α)
  | .push x => (DynArray.pushBack c a x).bind fun a' => .ok (a', .none)
  | .pop => (DynArray.popBack c a).bind fun a' => .ok (a', .none)
  | .top => (DynArray.size c a).bind fun n =>
      (DynArray.index a ((n + c.modulus - 1) % c.modulus)).bind fun x => .ok (a, .value x)
  | .size => (DynArray.size c a).bind fun n => .ok (a, .count n)
  | .empty => (DynArray.size c a).bind fun n => .ok (a, .flag (n == 0))
  | .iterate => (DynArray.size c a).bind fun n => (vecFrom a 0 n).bind fun l => .ok (a, .all l)

def SOp.run {α : Type u} [DecidableEq α] (c : DynArray.Cfg α) : DynArray.Arr α → List (SOp α) → DynArray.Res (List (SOut α))
  | _, [] => .ok []
  | a, o :: os => (o.step c a).bind fun p => (SOp.run c p.1 os).bind fun r => .ok (p.2 :: r)

end Verif.Arrays
