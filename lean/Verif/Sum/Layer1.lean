import Verif.Sum.VariantProps

/-!
# C32: the `layer1` optionals (sentinel value and bitfield)

Modelled from `src/estd/internal/optional.h:253-366` under `src/estd/optional.h`.  `T` is trivial, so an optional is just
its stored value (and flag).
-/
namespace Verif.Sum.Layer1

inductive Op (α : Type u) where
  /-- `operator=(value)` -/
  | assign (v : α)
  /-- `reset()`, `= nullopt` -/
  | reset
  deriving DecidableEq, Repr

/-- What an optional should hold. -/
def next (_ : Option α) : Op α → Option α
  | .assign v => some v
  | .reset => none

/-! ## Sentinel flavour, 261-307 -/

namespace Sentinel

/-- default constructor, internal/optional.h:283 -/
def init (null : α) : α := null

/-- `assign_value`, optional.h:47-54 (the flag is not stored, internal/optional.h:299-303); `reset()`, 304 -/
def step (null : α) (_ : α) : Op α → α
  | .assign v => v
  | .reset => null

/-- `has_value()`, internal/optional.h:298 -/
def hasValue [DecidableEq α] (null stored : α) : Bool := decide (stored ≠ null)

/-- converting copy constructor from another kind of optional, internal/optional.h:289-293 -/
def ofOptional (null : α) (src : Option α) : α :=
  match src with
  | some v => v
  | none => null

/-- the optional as seen through `has_value` and `value` -/
def view [DecidableEq α] (null stored : α) : Option α := if hasValue null stored then some stored else none

/-- **C32 for `layer1::optional` (partial).** Over every history that does not store the null value, `has_value()` and
`value()` reflect the last assignment or reset.  Missing: storing the null value (`assign_null_empties`). -/
theorem sentinel_history_partial [DecidableEq α] (null : α) (ops : List (Op α))
    (h : ∀ v, Op.assign v ∈ ops → v ≠ null) :
    view null (ops.foldl (step null) (init null)) = ops.foldl next none := by
  have key : ∀ (ops : List (Op α)) (s : α) (o : Option α), (∀ v, Op.assign v ∈ ops → v ≠ null) → view null s = o →
      view null (ops.foldl (step null) s) = ops.foldl next o := by
    intro ops
    induction ops with
    | nil => intro s o _ h; exact h
    | cons op ops ih =>
      intro s o hn hv
      refine ih _ _ (fun v hv => hn v (List.mem_cons_of_mem _ hv)) ?_
      cases op with
      | assign v =>
        have := hn v List.mem_cons_self
        simp [step, next, view, hasValue, this]
      | reset => simp [step, next, view, hasValue]
  exact key ops _ _ h (by simp [init, view, hasValue])

/-- Copying from an ordinary optional keeps presence and value, for values other than the null value. -/
theorem ofOptional_spec [DecidableEq α] (null : α) (src : Option α) (h : src ≠ some null) :
    view null (ofOptional null src) = src := by
  cases src with
  | none => simp [ofOptional, view, hasValue]
  | some v =>
    have : v ≠ null := fun e => h (by rw [e])
    simp [ofOptional, view, hasValue, this]

/-- Assigning the null value empties the optional instead of storing it, whatever it held. -/
theorem assign_null_empties [DecidableEq α] (null s : α) :
    view null (step null s (.assign null)) = none := by simp [step, view, hasValue]

example : ∀ v, Op.assign v ∈ [Op.assign 4, .reset, .assign 9] → v ≠ (0 : Nat) := by simp

end Sentinel

/-! ## Bitfield flavour, 310-366; `T` unsigned -/

namespace Bits

structure Field where
  value : Nat
  hasValue : Bool
  deriving DecidableEq, Repr

/-- default constructor, 346-348; `value_` is left uninitialised (any value `junk` that fits) -/
def init (bits junk : Nat) : Field := ⟨junk % 2 ^ bits, false⟩

/-- `assign_value`, 326-338, stores what fits in the bitfield; `has_value(true)`, 322; `reset`, 360 -/
def step (bits : Nat) (f : Field) : Op Nat → Field
  | .assign v => ⟨v % 2 ^ bits, true⟩
  | .reset => { f with hasValue := false }

def view (f : Field) : Option Nat := if f.hasValue then some f.value else none

/-- Over every history the optional holds the last assigned value, reduced to the width of the field. -/
theorem bits_history (bits junk : Nat) (ops : List (Op Nat)) :
    view (ops.foldl (step bits) (init bits junk)) = (ops.foldl next none).map (· % 2 ^ bits) := by
  have key : ∀ (ops : List (Op Nat)) (f : Field) (o : Option Nat), view f = o.map (· % 2 ^ bits) →
      view (ops.foldl (step bits) f) = (ops.foldl next o).map (· % 2 ^ bits) := by
    intro ops
    induction ops with
    | nil => intro f o h; exact h
    | cons op ops ih =>
      intro f o h
      refine ih _ _ ?_
      cases op <;> simp [step, next, view]
  exact key ops _ _ (by simp [init, view])

/-- In particular `layer1::optional<bool>` (one bit) is exact. -/
theorem bool_history (junk : Nat) (ops : List (Op Nat)) (h : ∀ v, Op.assign v ∈ ops → v < 2) :
    view (ops.foldl (step 1) (init 1 junk)) = ops.foldl next none := by
  have key : ∀ (ops : List (Op Nat)) (f : Field) (o : Option Nat), (∀ v, Op.assign v ∈ ops → v < 2) → view f = o →
      view (ops.foldl (step 1) f) = ops.foldl next o := by
    intro ops
    induction ops with
    | nil => intro f o _ h; exact h
    | cons op ops ih =>
      intro f o hn h
      refine ih _ _ (fun v hv => hn v (List.mem_cons_of_mem _ hv)) ?_
      cases op with
      | assign v =>
        have := hn v List.mem_cons_self
        simp [step, next, view, Nat.mod_eq_of_lt this]
      | reset => simp [step, next, view]
  exact key ops _ _ h (by simp [init, view])

example : ∀ v, Op.assign v ∈ [Op.assign 1, .reset, .assign 0] → v < 2 := by simp

end Bits
end Verif.Sum.Layer1
