import Verif.Lifetime.Model

/-!
# What C74 asks

A vector is a sequence; an operation that adds an element begins one lifetime and one that removes an element ends one.
-/
namespace Verif.Lifetime.Spec
variable {α : Type u}

/-- the sequence after an operation; `none`: the operation is not allowed (no room, no such position) -/
def apply (cap : Nat) (l : List α) : Op α → Option (List α)
  | .pushCopy v | .pushMove v | .emplace v => if l.length < cap then some (l ++ [v]) else none
  | .pop => if l.length = 0 then none else some l.dropLast
  | .insertMove i v => if i ≤ l.length ∧ l.length < cap then some (l.take i ++ v :: l.drop i) else none
  | .insertRange i vs => if i ≤ l.length ∧ l.length + vs.length ≤ cap then some (l.take i ++ vs ++ l.drop i) else none
  | .erase i => if i < l.length then some (l.eraseIdx i) else none
  | .resize n => if n ≤ l.length then some (l.take n) else none

/-- the sequence after a history -/
def applyAll (cap : Nat) (l : List α) : List (Op α) → Option (List α)
  | [] => some l
  | o :: os => (apply cap l o).bind fun l' => applyAll cap l' os

/-- The vector is sound: its cells below `size()` are objects with the values of the sequence. -/
def Holds (s : St α) (l : List α) : Prop :=
  s.size = l.length ∧ ∀ i (h : i < l.length), s.slots[i]? = some (some (Obj.val l[i]))

/-- No lifetime is lost: every element constructed has been destroyed or is still in a cell below `size()`. -/
def NoLeak (s : St α) : Prop := s.born = s.died + s.size

/-- Operations that construct in the cell past the end and destroy the last: fit for raw memory. -/
def Op.ends (len : Nat) : Op α → Prop
  | .pushMove _ | .emplace _ | .pop => True
  | .insertMove i _ => i = len
  | .resize n => n = len
  | _ => False

/-- Operations that only assign: fit for an array of objects. -/
def Op.assigns (len : Nat) : Op α → Prop
  | .pushCopy _ | .insertRange _ _ | .resize _ => True
  | .erase i => i + 1 = len
  | _ => False

/-- A history that is allowed and all of whose operations are `fit`, from the sequence `l`. -/
def Legal (fit : Nat → Op α → Prop) (cap : Nat) : List α → List (Op α) → Prop
  | _, [] => True
  | l, o :: os => fit l.length o ∧ ∃ l', apply cap l o = some l' ∧ Legal fit cap l' os

end Verif.Lifetime.Spec
