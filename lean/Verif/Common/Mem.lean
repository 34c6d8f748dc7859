/-!
# Memory conventions shared by the models

A flat memory (an array, or several arrays laid out in one block) is a `List α`; a pointer or iterator
into it is a `Nat` index.  A modelled C++ operation returns `Option`: `none` is *undefined behaviour*
(an access outside the memory, a null/dead dereference), never a C++-level error result.
-/
namespace Verif

/-- `*p` as an rvalue: reading outside the memory is undefined behaviour. -/
def rd {α : Type u} (m : List α) (i : Nat) : Option α := m[i]?

/-- `*p = v`: writing outside the memory is undefined behaviour. -/
def wr {α : Type u} (m : List α) (i : Nat) (v : α) : Option (List α) :=
  if i < m.length then some (m.set i v) else none

theorem rd_lt {α : Type u} {m : List α} {i : Nat} (h : i < m.length) : rd m i = some m[i] := by
  simp [rd, h]

theorem wr_lt {α : Type u} {m : List α} {i : Nat} {v : α} (h : i < m.length) :
    wr m i v = some (m.set i v) := by simp [wr, h]

theorem wr_length {α : Type u} {m m' : List α} {i : Nat} {v : α} (h : wr m i v = some m') :
    m'.length = m.length := by
  unfold wr at h; split at h <;> simp at h; subst h; simp

/-- A strict weak order presented as a boolean comparator, the contract C++ places on `Compare`. -/
structure StrictWeak {α : Type u} (lt : α → α → Bool) : Prop where
  irrefl : ∀ a, lt a a = false
  trans : ∀ a b c, lt a b = true → lt b c = true → lt a c = true
  /-- incomparability is transitive, stated as negative transitivity -/
  negTrans : ∀ a b c, lt a b = false → lt b c = false → lt a c = false

theorem StrictWeak.asymm {α : Type u} {lt : α → α → Bool} (h : StrictWeak lt) {a b : α}
    (hab : lt a b = true) : lt b a = false := by
  cases hb : lt b a with
  | false => rfl
  | true => have := h.trans a b a hab hb; simp [h.irrefl] at this

/-- `a < b ≤ c → a < c` -/
theorem StrictWeak.lt_of_lt_of_not {α : Type u} {lt : α → α → Bool} (h : StrictWeak lt) {a b c : α}
    (hab : lt a b = true) (hcb : lt c b = false) : lt a c = true := by
  cases hac : lt a c with
  | true => rfl
  | false => have := h.negTrans a c b hac hcb; simp [hab] at this

/-- `a ≤ b < c → a < c` -/
theorem StrictWeak.lt_of_not_of_lt {α : Type u} {lt : α → α → Bool} (h : StrictWeak lt) {a b c : α}
    (hba : lt b a = false) (hbc : lt b c = true) : lt a c = true := by
  cases hac : lt a c with
  | true => rfl
  | false => have := h.negTrans b a c hba hac; simp [hbc] at this

theorem strictWeak_natLt : StrictWeak (fun a b : Nat => decide (a < b)) := by
  constructor <;> intros <;> simp_all <;> omega

theorem strictWeak_natGt : StrictWeak (fun a b : Nat => decide (a > b)) := by
  constructor <;> intros <;> simp_all <;> omega

theorem strictWeak_intLt : StrictWeak (fun a b : Int => decide (a < b)) := by
  constructor <;> intros <;> simp_all <;> omega

end Verif
