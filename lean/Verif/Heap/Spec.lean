/-!
# Specification of a k-ary heap, independent of the model
-/
namespace Verif.Heap.Spec

variable {α : Type u}

/-- The `n` cells of `m` from `f` are a `k`-ary heap for `comp`: no cell belongs nearer the root than the
cell at its parent index. -/
def IsHeap (comp : α → α → Bool) (k f n : Nat) (m : List α) : Prop :=
  ∀ i x y, 0 < i → i < n → m[f + (i - 1) / k]? = some x → m[f + i]? = some y → comp x y = false

/-- `m'` is `m` with only the `n` cells from `f` rearranged. -/
structure Rearranged (f n : Nat) (m m' : List α) : Prop where
  length : m'.length = m.length
  outside : ∀ j, j < f ∨ f + n ≤ j → m'[j]? = m[j]?
  perm : ((m'.drop f).take n).Perm ((m.drop f).take n)

end Verif.Heap.Spec
