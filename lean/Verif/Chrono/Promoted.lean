import Verif.Chrono.Calendar

/-!
# C46: the promoted type of two integer types

`promoted_type<T1, T2>` (promoted_type.h:71-114) is meant to be the smallest type able to hold both operands.
(For 64-bit `uint64_t` with `int64_t` the code yields `void`; the model's 128-bit result stands for "no type".)
-/
namespace Verif.Chrono

/-- every value of `r` is a value of `s` -/
def Holds (s r : Rep) : Prop := ∀ x : Int, r.inRange x → s.inRange x

theorem pow_mono {a b : Nat} (h : a ≤ b) : (2 : Int) ^ a ≤ 2 ^ b := by
  have := Nat.pow_le_pow_right (n := 2) (by decide) h
  exact_mod_cast this

theorem holds_of {r s : Rep} (hs : r.signed = true → s.signed = true) (hd : r.digits ≤ s.digits) : Holds s r := by
  intro x hx
  unfold Rep.digits at hd
  unfold Rep.inRange at hx ⊢
  have := pow_mono hd
  cases h1 : r.signed <;> cases h2 : s.signed <;> simp_all <;> omega

theorem not_holds_digits {r s : Rep} (hd : s.digits < r.digits) : ¬ Holds s r := by
  intro h
  have h1 := h (2 ^ r.digits - 1)
  have h2 := pow_mono (a := s.digits) (b := r.digits) (by omega)
  have h3 : (2 : Int) ^ (s.digits + 1) ≤ 2 ^ r.digits := pow_mono (by omega)
  have h4 : (0 : Int) < 2 ^ s.digits := by
    have := Nat.two_pow_pos s.digits
    exact_mod_cast this
  rw [Int.pow_succ] at h3
  unfold Rep.inRange Rep.digits at *
  cases h5 : r.signed <;> cases h6 : s.signed <;> simp_all <;> omega

/-- Types of the same signedness: the promoted type is the wider of the two. -/
theorem promoted_same (t1 t2 : Rep) (h : t1.signed = t2.signed) :
    promotedType t1 t2 = if t1.digits ≥ t2.digits then t1 else t2 := by
  unfold promotedType
  by_cases hd : t1.digits ≥ t2.digits
  · have : ¬ t1.digits < t2.digits := by omega
    simp only [hd, this, if_true, if_false, h]
    cases hs : t2.signed <;> simp [h, hs]
  · have : t1.digits < t2.digits := by omega
    simp only [hd, this, if_true, if_false, h]
    cases hs : t2.signed <;> simp [hs]

/-- An unsigned `a`-bit and a signed `b`-bit type, in either order. -/
theorem promoted_mixed (a b : Nat) (ha : 8 ≤ a) (hb : 8 ≤ b) (hw : a = b ∨ 2 * a ≤ b ∨ 2 * b ≤ a) :
    let r : Rep := if a = b then ⟨2 * b, true⟩ else if a < b then ⟨b, true⟩ else ⟨a, true⟩
    promotedType ⟨a, false⟩ ⟨b, true⟩ = r ∧ promotedType ⟨b, true⟩ ⟨a, false⟩ = r := by
  intro r
  rcases hw with h | h | h
  · subst h
    have h1 : a ≥ a - 1 := by omega
    have h2 : ¬ a < a - 1 := by omega
    have h3 : ¬ a - 1 ≥ a := by omega
    have h4 : a - 1 < a := by omega
    simp [r, promotedType, Rep.digits, Rep.makeSigned, Rep.promote, h2, h3, h4]
  · have h1 : ¬ a ≥ b - 1 := by omega
    have h2 : a < b - 1 := by omega
    have h3 : b - 1 ≥ a := by omega
    have h4 : ¬ b - 1 < a := by omega
    have h5 : a ≠ b := by omega
    have h6 : a < b := by omega
    simp [r, promotedType, Rep.digits, h1, h2, h3, h4, h5, h6]
  · have h1 : a ≥ b - 1 := by omega
    have h2 : ¬ a < b - 1 := by omega
    have h3 : ¬ b - 1 ≥ a := by omega
    have h4 : b - 1 < a := by omega
    have h5 : a ≠ b := by omega
    have h6 : ¬ a < b := by omega
    have h7 : ¬ a - 1 = b - 1 := by omega
    simp [r, promotedType, Rep.digits, Rep.makeSigned, h1, h2, h3, h4, h5, h6, h7]

/-- the promoted type of an unsigned and a signed type holds both exactly when the signed one is at least as wide -/
theorem promoted_mixed_holds (a b : Nat) (ha : 8 ≤ a) (hb : 8 ≤ b) (hw : a = b ∨ 2 * a ≤ b ∨ 2 * b ≤ a) (r : Rep)
    (hr : r = if a = b then ⟨2 * b, true⟩ else if a < b then ⟨b, true⟩ else ⟨a, true⟩) :
    (Holds r ⟨a, false⟩ ∧ Holds r ⟨b, true⟩) ↔ a ≤ b := by
  subst hr
  constructor
  · rintro ⟨h, -⟩
    by_cases hab : a ≤ b
    · exact hab
    · rw [if_neg (by omega), if_neg (by omega)] at h
      exact absurd h (not_holds_digits (by simp [Rep.digits]; omega))
  · intro h
    by_cases he : a = b
    · rw [if_pos he]
      exact ⟨holds_of (by simp) (by simp [Rep.digits]; omega), holds_of (by simp) (by simp [Rep.digits]; omega)⟩
    · rw [if_neg he, if_pos (by omega)]
      exact ⟨holds_of (by simp) (by simp [Rep.digits]; omega), holds_of (by simp) (Nat.le_refl _)⟩

/-- C46: the promoted type holds every value of both operand types exactly when the operands have the same
signedness or the signed operand is at least as wide as the unsigned one (widths at least 8, equal or at least a
factor 2 apart, as those of the fixed-width integer types are).

Missing: an unsigned operand wider than the signed one, where the code is wrong. -/
theorem promoted_holds_iff_partial (t1 t2 : Rep) (h1 : 8 ≤ t1.bits) (h2 : 8 ≤ t2.bits)
    (hw : t1.bits = t2.bits ∨ 2 * t1.bits ≤ t2.bits ∨ 2 * t2.bits ≤ t1.bits) :
    (Holds (promotedType t1 t2) t1 ∧ Holds (promotedType t1 t2) t2) ↔
      (t1.signed = t2.signed ∨ (t1.signed = true ∧ t2.bits ≤ t1.bits) ∨ (t2.signed = true ∧ t1.bits ≤ t2.bits)) := by
  by_cases hs : t1.signed = t2.signed
  · rw [promoted_same t1 t2 hs]
    simp only [hs, true_or, iff_true]
    constructor
    · split
      · exact holds_of id (Nat.le_refl _)
      · exact holds_of (fun h => by rwa [← hs]) (by omega)
    · split
      · exact holds_of (fun h => by rwa [hs]) (by omega)
      · exact holds_of id (Nat.le_refl _)
  · obtain ⟨b1, s1⟩ := t1
    obtain ⟨b2, s2⟩ := t2
    simp only at h1 h2 hs hw
    cases s1 <;> cases s2 <;> simp only [not_true_eq_false, reduceCtorEq, not_false_eq_true] at hs
    · have := promoted_mixed_holds b1 b2 h1 h2 hw _ (promoted_mixed b1 b2 h1 h2 hw).1
      rw [this]; simp
    · have := promoted_mixed_holds b2 b1 h2 h1 (by omega) _ (promoted_mixed b2 b1 h2 h1 (by omega)).2
      rw [And.comm, this]; simp

/-- all fixed-width types: 8, 16, 32 and 64 bits satisfy the width condition pairwise -/
example : ∀ a ∈ [8, 16, 32, 64], ∀ b ∈ [8, 16, 32, 64], a = b ∨ 2 * a ≤ b ∨ 2 * b ≤ a := by decide

/-- Same width: `uint16_t` with `int16_t` gives `int32_t`. -/
example : promotedType ⟨16, false⟩ ⟨16, true⟩ = ⟨32, true⟩ := by decide

/-- **Violation.** The code is wrong for every wider unsigned operand: the promoted type is the signed type of its width, which
holds no value of the upper half of the operand's. -/
theorem promoted_wrong (a b : Nat) (hb : 8 ≤ b) (hab : 2 * b ≤ a) (x : Int) (h1 : 2 ^ (a - 1) ≤ x) (h2 : x < 2 ^ a) :
    promotedType ⟨a, false⟩ ⟨b, true⟩ = ⟨a, true⟩ ∧ promotedType ⟨b, true⟩ ⟨a, false⟩ = ⟨a, true⟩ ∧
    (⟨a, false⟩ : Rep).inRange x ∧ ¬ (⟨a, true⟩ : Rep).inRange x := by
  obtain ⟨e1, e2⟩ := promoted_mixed a b (by omega) hb (Or.inr (Or.inr hab))
  rw [if_neg (by omega), if_neg (by omega)] at e1 e2
  have hp : (0 : Int) ≤ 2 ^ (a - 1) := by
    have := Nat.two_pow_pos (a - 1)
    exact_mod_cast Nat.le_of_lt this
  refine ⟨e1, e2, ?_, ?_⟩
  · unfold Rep.inRange; simp; omega
  · unfold Rep.inRange; simp; omega
/-- `uint16_t` with `int8_t` gives `int16_t`, which cannot hold 65535 -/
example : promotedType ⟨16, false⟩ ⟨8, true⟩ = ⟨16, true⟩ ∧
    (⟨16, false⟩ : Rep).inRange 65535 ∧ ¬ (promotedType ⟨16, false⟩ ⟨8, true⟩).inRange 65535 := by
  decide +kernel

/-- The promoted type does not depend on the order of the operands when their widths are as above. -/
theorem promoted_comm (t1 t2 : Rep) (h1 : 8 ≤ t1.bits) (h2 : 8 ≤ t2.bits)
    (hw : t1.bits = t2.bits ∨ 2 * t1.bits ≤ t2.bits ∨ 2 * t2.bits ≤ t1.bits) :
    promotedType t1 t2 = promotedType t2 t1 := by
  obtain ⟨b1, s1⟩ := t1
  obtain ⟨b2, s2⟩ := t2
  simp only at h1 h2 hw
  by_cases hs : s1 = s2
  · subst hs
    rw [promoted_same ⟨b1, s1⟩ ⟨b2, s1⟩ rfl, promoted_same ⟨b2, s1⟩ ⟨b1, s1⟩ rfl]
    cases s1 <;> simp only [Rep.digits] <;> split <;> split <;> first | rfl | (simp at *; done) | (simp at *; omega)
  · cases s1 <;> cases s2 <;> simp only [not_true_eq_false, reduceCtorEq, not_false_eq_true] at hs
    · obtain ⟨e1, e2⟩ := promoted_mixed b1 b2 h1 h2 hw
      rw [e1, e2]
    · obtain ⟨e1, e2⟩ := promoted_mixed b2 b1 h2 h1 (by omega)
      rw [e1, e2]

end Verif.Chrono
