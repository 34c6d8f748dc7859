import Verif.Growable.Model

/-!
# What a growable vector should do
-/
namespace Verif.Growable

variable {α : Type}

/-- What the operation does to the sequence of values. -/
def Op.spec : Op α → List α → List α
  | .pushBack v, l => l ++ [v]
  | .append src, l => l ++ src
  | .appendSelf, l => l ++ l
  | .insert pos v, l => l.take pos ++ v :: l.drop pos
  | .insertRange pos src, l => l.take pos ++ src ++ l.drop pos
  | .eraseAt pos, l => l.take pos ++ l.drop (pos + 1)
  | .popBack, l => l.dropLast
  | .truncate n, l => l.take n
  | .clear, _ => []
  | .assign src, _ => src
  | .reserve _, l => l
  | .shrinkToFit, l => l

/-- The sequence after a history. -/
def specAll (l : List α) : List (Op α) → List α
  | [] => l
  | o :: r => specAll (o.spec l) r

/-- The standard's preconditions; for `reserve`, additionally, that it is not asked for less than the vector
already holds (the standard would ignore such a request). -/
def Op.Pre : Op α → List α → Prop
  | .insert pos _, l => pos ≤ l.length
  | .insertRange pos _, l => pos ≤ l.length
  | .eraseAt pos, l => pos < l.length
  | .popBack, l => l ≠ []
  | .truncate n, l => n ≤ l.length
  | .reserve n, l => l.length ≤ n
  | _, _ => True

/-- Every operation of the history meets its precondition. -/
def Legal (l : List α) : List (Op α) → Prop
  | [] => True
  | o :: r => o.Pre l ∧ Legal (o.spec l) r

/-- What the user sees of a vector: it holds exactly `l`. -/
def Holds [DecidableEq α] (s : St α) (l : List α) : Prop :=
  size s = l.length ∧ (empty s = true ↔ l = []) ∧ l.length ≤ capacity s ∧
    ∀ i (h : i < l.length), index s i = .ok (some l[i])

/-- The allocator grants every request. -/
def Grants (h : Heap α) : Prop := ∀ b ∈ h.plan, b = true

/-- The number of blocks that were handed out and not given up. -/
def live (h : Heap α) : Nat := (h.blocks.filter Option.isSome).length

end Verif.Growable
