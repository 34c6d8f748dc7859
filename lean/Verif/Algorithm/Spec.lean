/-!
# Specification vocabulary for the sequence algorithms

These definitions do not mention the model.  A range is described by the list of its cells.
-/
namespace Verif.Algorithm.Spec

/-- `r` is the first position in `[first, last)` whose cell satisfies `P`, or `last` when there is none. -/
structure FirstMatch {α : Type u} (m : List α) (P : α → Prop) (first last r : Nat) : Prop where
  lo : first ≤ r
  hi : r ≤ last
  earlier : ∀ i x, first ≤ i → i < r → m[i]? = some x → ¬ P x
  here : r < last → ∃ x, m[r]? = some x ∧ P x

/-- `r` is the last position in `(first, last]` whose cell satisfies `P`, or `first` when there is none. -/
structure LastMatch {α : Type u} (m : List α) (P : α → Prop) (first last r : Nat) : Prop where
  lo : first ≤ r
  hi : r ≤ last
  later : ∀ i x, r < i → i ≤ last → m[i]? = some x → ¬ P x
  here : first < r → ∃ x, m[r]? = some x ∧ P x

/-- The needle cells `s[sFirst, sLast)` occur in `m` at position `pos`, entirely before `last`
(cells compared with `p`). -/
def OccursAt {α : Type u} {β : Type v} (m : List α) (s : List β) (p : α → β → Bool)
    (last sFirst sLast pos : Nat) : Prop :=
  pos + (sLast - sFirst) ≤ last ∧
  ∀ k, k < sLast - sFirst → ∃ x y, m[pos + k]? = some x ∧ s[sFirst + k]? = some y ∧ p x y = true

end Verif.Algorithm.Spec
