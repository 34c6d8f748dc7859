import Verif.DynArray.Model

/-!
# What a vector/string edit should do, as edits of a list of values
-/
namespace Verif.DynArray

variable {α : Type u}

/-- What a user can observe of a container through `size()` and `operator[]`: it holds exactly `l`. -/
def Holds [DecidableEq α] (c : Cfg α) (a : Arr α) (l : List α) : Prop :=
  size c a = .ok l.length ∧ ∀ i (h : i < l.length), index a i = .ok l[i]

/-- The edits of the C++ API. -/
inductive Op (α : Type u) where
  | pushBack (v : α)
  | append (src : List α)
  | appendFill (count : Nat) (v : α)
  | insert (pos : Nat) (v : α)
  | insertRange (pos : Nat) (src : List α)
  | eraseAt (pos : Nat)
  | erase (pos count : Nat)
  | popBack
  | truncate (n : Nat)
  | clear
  | assign (src : List α)

/-- What the standard operation does to the sequence of values. -/
def Op.spec : Op α → List α → List α
  | .pushBack v, l => l ++ [v]
  | .append src, l => l ++ src
  | .appendFill n v, l => l ++ List.replicate n v
  | .insert pos v, l => l.take pos ++ v :: l.drop pos
  | .insertRange pos src, l => l.take pos ++ src ++ l.drop pos
  | .eraseAt pos, l => l.take pos ++ l.drop (pos + 1)
  | .erase pos count, l => l.take pos ++ l.drop (pos + count)
  | .popBack, l => l.dropLast
  | .truncate n, l => l.take n
  | .clear, _ => []
  | .assign src, _ => src

/-- The standard's preconditions on positions, for the sequence `l`. -/
def Op.Pre : Op α → List α → Prop
  | .insert pos _, l => pos ≤ l.length
  | .insertRange pos _, l => pos ≤ l.length
  | .eraseAt pos, l => pos < l.length
  | .erase pos _, l => pos ≤ l.length   -- `count` may exceed what follows `pos`
  | .popBack, l => l ≠ []
  | .truncate n, l => n ≤ l.length
  | _, _ => True

end Verif.DynArray
