import Verif.Descriptor.Model
/-!
# What a handle descriptor promises (C95)

Plain lists; the only thing taken from the model are the names of the calls and answers.
-/
namespace Verif.Descriptor.Spec
open Verif.Descriptor (Op Out)

universe u
variable {α : Type u}

/-- the cells with `src` written from `pos` on -/
def splice (cells : List (Option α)) (pos : Nat) (src : List α) : List (Option α) :=
  cells.take pos ++ src.map some ++ cells.drop (pos + src.length)

/-- the values of `len` cells from `pos` on, if all have one -/
def slice (cells : List (Option α)) (pos : Nat) : Nat → Option (List α)
  | 0 => some []
  | len + 1 =>
    match cells[pos]?, slice cells (pos + 1) len with
    | some (some v), some l => some (v :: l)
    | _, _ => none

/-- calls on the contents of a block, `none` when outside it or reading a value never written -/
def onCells (cells : List (Option α)) : Op α → Option (List (Option α) × Out α)
  | .construct pos v => if pos < cells.length then some (splice cells pos [v], .unit) else none
  | .copyInto src pos => if pos + src.length ≤ cells.length then some (splice cells pos src, .unit) else none
  | .read pos =>
    match cells[pos]? with
    | some (some v) => some (cells, .val v)
    | _ => none
  | .copyFrom pos len => (slice cells pos len).map fun l => (cells, .vals l)
  | .isAllocated => some (cells, .bool true)
  | .size => some (cells, .nat cells.length)
  | _ => none

/-- a descriptor of a fixed buffer: the buffer is always there; a request is granted when it fits -/
def fixed (cells : List (Option α)) : Op α → Option (List (Option α) × Out α)
  | .allocate n => some (cells, .bool (decide (n ≤ cells.length)))
  | op => onCells cells op

/-- a descriptor of a block: `none` while it has none.  A request is made when there is no block, or to resize the block,
which keeps what fits of its contents. -/
def block : Option (List (Option α)) → Op α → Option (Option (List (Option α)) × Out α)
  | none, .allocate n | none, .reallocate n => some (some (List.replicate n none), .bool true)
  | none, .isAllocated => some (none, .bool false)
  | none, .size => some (none, .nat 0)
  | none, _ => none
  | some cells, .reallocate n => some (some (cells.take n ++ List.replicate (n - cells.length) none), .bool true)
  | some cells, op => (onCells cells op).map fun r => (some r.1, r.2)

/-- a sequence of calls and its answers; `none` when one of them must not be made -/
def runs {S : Type u} (f : S → Op α → Option (S × Out α)) (s : S) : List (Op α) → Option (S × List (Out α))
  | [] => some (s, [])
  | op :: ops =>
    match f s op with
    | none => none
    | some (s', o) => (runs f s' ops).map fun q => (q.1, o :: q.2)

end Verif.Descriptor.Spec
