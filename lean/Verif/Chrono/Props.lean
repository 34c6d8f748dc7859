import Verif.Chrono.Model

/-!
# C40: ratio arithmetic is exact and reduced
-/
namespace Verif.Chrono

/-! ## gcd and lcm -/

theorem gcd_natAbs (a b : Int) : (gcd a b).natAbs = Int.gcd a b := by
  fun_induction gcd a b with
  | case1 a => simp
  | case2 a b h ih =>
    rw [ih]
    simp only [Int.gcd, Int.natAbs_tmod]
    rw [Nat.gcd_comm, ← Nat.gcd_rec, Nat.gcd_comm]

/-- C40: `gcd` divides both numbers and every common divisor divides it, for all integers. -/
theorem gcd_spec (a b : Int) :
    gcd a b ∣ a ∧ gcd a b ∣ b ∧ ∀ d : Int, d ∣ a → d ∣ b → d ∣ gcd a b := by
  have h := gcd_natAbs a b
  refine ⟨?_, ?_, ?_⟩
  · rw [← Int.natAbs_dvd, h]; exact Int.gcd_dvd_left ..
  · rw [← Int.natAbs_dvd, h]; exact Int.gcd_dvd_right ..
  · intro d ha hb; rw [← Int.dvd_natAbs, h]; exact Int.dvd_coe_gcd ha hb

/-- C40: for non-negative arguments (not both zero) the result is the positive one. -/
theorem gcd_pos (a b : Int) (ha : 0 ≤ a) (hb : 0 ≤ b) (h : a ≠ 0 ∨ b ≠ 0) : 0 < gcd a b := by
  fun_induction gcd a b with
  | case1 a => omega
  | case2 a b hb0 ih =>
    exact ih hb (Int.tmod_nonneg b ha) (Or.inl hb0)

example : gcd 84 36 = 12 := by decide +kernel

theorem gcd_ne_zero {a b : Int} (h : a ≠ 0 ∨ b ≠ 0) : gcd a b ≠ 0 := by
  intro h0
  have := gcd_natAbs a b
  rw [h0] at this
  simp at this
  have := Int.gcd_eq_zero_iff.mp this.symm
  omega

/-- exact truncated division -/
theorem tdiv_mul_cancel' {a g : Int} (h : g ∣ a) : a.tdiv g * g = a := Int.tdiv_mul_cancel h

/-- C40: `lcm` of non-zero numbers is a common multiple and divides every common multiple. -/
theorem lcm_spec (a b : Int) (ha : a ≠ 0) (hb : b ≠ 0) :
    a ∣ lcm a b ∧ b ∣ lcm a b ∧ ∀ m : Int, a ∣ m → b ∣ m → lcm a b ∣ m := by
  obtain ⟨⟨x, hx⟩, ⟨y, hy⟩, _⟩ := gcd_spec a b
  have hg := gcd_ne_zero (Or.inl ha : a ≠ 0 ∨ b ≠ 0)
  have hl : lcm a b = x * b := by
    unfold lcm
    conv => lhs; rw [show a * b = gcd a b * (x * b) by rw [← Int.mul_assoc, ← hx]]
    rw [Int.mul_tdiv_cancel_left _ hg]
  have hl2 : lcm a b = a * y := by
    unfold lcm
    conv => lhs; rw [show a * b = gcd a b * (a * y) by rw [Int.mul_left_comm, ← hy]]
    rw [Int.mul_tdiv_cancel_left _ hg]
  refine ⟨⟨y, hl2⟩, ⟨x, by rw [hl, Int.mul_comm]⟩, ?_⟩
  intro m hma hmb
  have h1 : Int.lcm a b ∣ m.natAbs :=
    Nat.lcm_dvd (Int.natAbs_dvd_natAbs.mpr hma) (Int.natAbs_dvd_natAbs.mpr hmb)
  have h2 : (lcm a b).natAbs = Int.lcm a b := by
    have : (lcm a b).natAbs * Int.gcd a b = a.natAbs * b.natAbs := by
      rw [← gcd_natAbs, ← Int.natAbs_mul, ← Int.natAbs_mul]
      congr 1
      unfold lcm
      exact tdiv_mul_cancel' (Int.dvd_trans (gcd_spec a b).1 (Int.dvd_mul_right a b))
    have h3 : Int.lcm a b * Int.gcd a b = a.natAbs * b.natAbs := by
      rw [Nat.mul_comm]; simpa [Int.lcm, Int.gcd] using Nat.gcd_mul_lcm a.natAbs b.natAbs
    have h4 : 0 < Int.gcd a b := Int.gcd_pos_of_ne_zero_left _ ha
    exact Nat.eq_of_mul_eq_mul_right h4 (by rw [this, h3])
  rw [← Int.natAbs_dvd_natAbs, h2]
  exact h1

theorem lcm_pos (a b : Int) (ha : 0 < a) (hb : 0 < b) : 0 < lcm a b := by
  obtain ⟨y, hy⟩ := (lcm_spec a b (by omega) (by omega)).1
  have hg := gcd_pos a b (by omega) (by omega) (by omega)
  unfold lcm
  have hm := Int.mul_pos ha hb
  obtain ⟨k, hk⟩ := Int.dvd_trans (gcd_spec a b).1 (Int.dvd_mul_right a b)
  rw [hk, Int.mul_tdiv_cancel_left _ (by omega)]
  rw [hk] at hm
  exact Int.pos_of_mul_pos_right hm (by omega)

example : lcm 12 18 = 36 := by decide +kernel

/-! ## Reduction -/

/-- Reducing divides numerator and denominator by the same non-zero integer, and the result is in lowest terms. -/
theorem type_spec (r : Ratio) (h : r.den ≠ 0) :
    ∃ k : Int, k ≠ 0 ∧ r.num = k * r.type.num ∧ r.den = k * r.type.den ∧ Int.gcd r.type.num r.type.den = 1 := by
  have hg := gcd_ne_zero (Or.inr h : r.num ≠ 0 ∨ r.den ≠ 0)
  obtain ⟨⟨x, hx⟩, ⟨y, hy⟩, _⟩ := gcd_spec r.num r.den
  have e1 : r.type.num = x := by
    unfold Ratio.type; simp only; conv => lhs; arg 1; rw [hx]
    rw [Int.mul_tdiv_cancel_left _ hg]
  have e2 : r.type.den = y := by
    unfold Ratio.type; simp only; conv => lhs; arg 1; rw [hy]
    rw [Int.mul_tdiv_cancel_left _ hg]
  refine ⟨gcd r.num r.den, hg, by rw [e1, ← hx], by rw [e2, ← hy], ?_⟩
  rw [e1, e2]
  have h1 := gcd_natAbs r.num r.den
  have h5 : Int.gcd r.num r.den = (gcd r.num r.den).natAbs * Int.gcd x y := by
    rw [← Int.gcd_mul_left, ← hx, ← hy]
  have h2 : 0 < (gcd r.num r.den).natAbs := by omega
  have h3 : (gcd r.num r.den).natAbs * Int.gcd x y = (gcd r.num r.den).natAbs * 1 := by omega
  exact Nat.eq_of_mul_eq_mul_left h2 h3

theorem type_den_pos (r : Ratio) (hn : 0 ≤ r.num) (hd : 0 < r.den) : 0 ≤ r.type.num ∧ 0 < r.type.den := by
  have hg := gcd_pos r.num r.den hn (by omega) (by omega)
  obtain ⟨⟨x, hx⟩, ⟨y, hy⟩, _⟩ := gcd_spec r.num r.den
  have e1 : r.type.num = x := by
    unfold Ratio.type; simp only; conv => lhs; arg 1; rw [hx]
    rw [Int.mul_tdiv_cancel_left _ (by omega)]
  have e2 : r.type.den = y := by
    unfold Ratio.type; simp only; conv => lhs; arg 1; rw [hy]
    rw [Int.mul_tdiv_cancel_left _ (by omega)]
  rw [e1, e2]
  constructor
  · rw [hx] at hn; exact Int.nonneg_of_mul_nonneg_right hn hg
  · rw [hy] at hd; exact Int.pos_of_mul_pos_right hd (by omega)

/-- A ratio `r` represents the fraction `n/d` in lowest terms. -/
def Reduced (r : Ratio) (n d : Int) : Prop :=
  r.den ≠ 0 ∧ r.num * d = n * r.den ∧ Int.gcd r.num r.den = 1

theorem type_reduced (r : Ratio) (h : r.den ≠ 0) : Reduced r.type r.num r.den := by
  obtain ⟨k, hk, e1, e2, e3⟩ := type_spec r h
  refine ⟨?_, ?_, e3⟩
  · intro h0; rw [h0] at e2; simp at e2; exact h e2
  · conv => lhs; rw [e2]
    conv => rhs; rw [e1]
    rw [Int.mul_left_comm, Int.mul_assoc]

/-- A ratio divided through by a common divisor, then reduced, is the same fraction in lowest terms. -/
theorem reduced_of_common {n d g : Int} (hd : d ≠ 0) (h1 : g ∣ n) (h2 : g ∣ d) :
    Reduced (Ratio.type ⟨n.tdiv g, d.tdiv g⟩) n d := by
  obtain ⟨x, rfl⟩ := h1
  obtain ⟨y, rfl⟩ := h2
  have hg : g ≠ 0 := by rintro rfl; simp at hd
  rw [Int.mul_tdiv_cancel_left _ hg, Int.mul_tdiv_cancel_left _ hg]
  have hy : y ≠ 0 := by rintro rfl; simp at hd
  obtain ⟨a, b, c⟩ := type_reduced ⟨x, y⟩ hy
  refine ⟨a, ?_, c⟩
  have b' : (Ratio.type ⟨x, y⟩).num * y = x * (Ratio.type ⟨x, y⟩).den := b
  rw [Int.mul_left_comm, b', Int.mul_assoc]

/-- C40: `ratio<>::type` is the same fraction in lowest terms, for every ratio. -/
theorem ratio_type_spec (r : Ratio) (h : r.den ≠ 0) : Reduced r.type r.num r.den := type_reduced r h

/-- C40: `ratio_multiply` is the exact product in lowest terms. -/
theorem ratio_multiply_spec (r s : Ratio) (hr : r.den ≠ 0) (hs : s.den ≠ 0) :
    Reduced (ratioMultiply r s) (r.num * s.num) (r.den * s.den) := by
  obtain ⟨h1, h2, _⟩ := gcd_spec (s.den * r.den) (r.num * s.num)
  exact reduced_of_common (Int.mul_ne_zero hr hs) h2 (by rw [Int.mul_comm r.den]; exact h1)

/-- C40: `ratio_divide` is the exact quotient in lowest terms. -/
theorem ratio_divide_spec (r s : Ratio) (hr : r.den ≠ 0) (hs : s.num ≠ 0) :
    Reduced (ratioDivide r s) (r.num * s.den) (r.den * s.num) := by
  obtain ⟨h1, h2, _⟩ := gcd_spec (s.den * r.num) (r.den * s.num)
  have := reduced_of_common (Int.mul_ne_zero hr hs) h1 h2
  rw [Int.mul_comm s.den] at this
  simpa only [ratioDivide, Int.mul_comm s.den] using this

/-- C40: `ratio_add` is the exact sum in lowest terms. -/
theorem ratio_add_spec (r s : Ratio) (hr : r.den ≠ 0) (hs : s.den ≠ 0) :
    Reduced (ratioAdd r s) (r.num * s.den + s.num * r.den) (r.den * s.den) :=
  type_reduced ⟨r.num * s.den + s.num * r.den, r.den * s.den⟩ (Int.mul_ne_zero hr hs)

example : ratioAdd ⟨1, 6⟩ ⟨1, 10⟩ = ⟨4, 15⟩ := by decide +kernel
example : ratioMultiply ⟨4, 9⟩ ⟨3, 8⟩ = ⟨1, 6⟩ := by decide +kernel
example : ratioDivide ⟨1, 1000⟩ ⟨60, 1⟩ = ⟨1, 60000⟩ := by decide +kernel

/-- C40, sign convention: for ratios with positive denominators and non-negative numerators every result has a
positive denominator. -/
theorem ratio_den_pos (r s : Ratio) (hr : 0 < r.den) (hs : 0 < s.den) (hrn : 0 ≤ r.num) (hsn : 0 ≤ s.num) :
    0 < r.type.den ∧ 0 < (ratioMultiply r s).den ∧ 0 < (ratioAdd r s).den ∧
      (0 < s.num → 0 < (ratioDivide r s).den) := by
  have hdiv : ∀ {a b : Int}, 0 ≤ a → 0 < b → 0 ≤ a.tdiv b := fun ha hb => Int.tdiv_nonneg ha (by omega)
  have hpos : ∀ {a g : Int}, 0 < a → 0 < g → g ∣ a → 0 < a.tdiv g := by
    rintro a g ha hg ⟨x, rfl⟩
    rw [Int.mul_tdiv_cancel_left _ (by omega)]; exact Int.pos_of_mul_pos_right ha (by omega)
  have hm := Int.mul_pos hr hs
  refine ⟨(type_den_pos r hrn hr).2, ?_, ?_, ?_⟩
  · have hnn : 0 ≤ r.num * s.num := Int.mul_nonneg hrn hsn
    have hm' : 0 < s.den * r.den := Int.mul_pos hs hr
    have hg := gcd_pos (s.den * r.den) (r.num * s.num) (by omega) hnn (by omega)
    exact (type_den_pos _ (hdiv hnn hg)
      (hpos hm hg (by rw [Int.mul_comm r.den]; exact (gcd_spec (s.den * r.den) (r.num * s.num)).1))).2
  · exact (type_den_pos ⟨r.num * s.den + s.num * r.den, r.den * s.den⟩
      (Int.add_nonneg (Int.mul_nonneg hrn (by omega)) (Int.mul_nonneg hsn (by omega))) hm).2
  · intro hsp
    have hm' : 0 < r.den * s.num := Int.mul_pos hr hsp
    have hnn : 0 ≤ s.den * r.num := Int.mul_nonneg (by omega) hrn
    have hg := gcd_pos (s.den * r.num) (r.den * s.num) hnn (by omega) (by omega)
    exact (type_den_pos _ (hdiv hnn hg)
      (hpos hm' hg (gcd_spec (s.den * r.num) (r.den * s.num)).2.1)).2

/-- **Violation.** With a negative numerator the sign can end up in the denominator, unlike `std::ratio`: for every
denominator `d`, it does for all the numerators `-1, -(d+1), -(2d+1), …` and their multiples by a common factor. -/
theorem ratio_sign_in_den (k d f : Int) (hk : 0 ≤ k) (hd : 2 ≤ d) (hf : 0 < f) :
    Ratio.type ⟨-(k * d + 1) * f, d * f⟩ = ⟨k * d + 1, -d⟩ := by
  have hkd : 0 ≤ k * d := Int.mul_nonneg hk (by omega)
  have hdf : d * f ≠ 0 := Int.mul_ne_zero (by omega) (by omega)
  have h1 : (-(k * d + 1) * f).tmod (d * f) = -f := by
    have e : -(k * d + 1) * f = -((k * d + 1) * f) := Int.neg_mul _ _
    rw [e, Int.neg_tmod, Int.tmod_eq_emod_of_nonneg (Int.mul_nonneg (by omega) (by omega))]
    have e2 : (k * d + 1) * f = f + d * f * k := by
      rw [Int.add_mul, Int.one_mul, Int.add_comm, Int.mul_comm k d, Int.mul_right_comm]
    rw [e2, Int.add_mul_emod_self_left]
    rw [Int.emod_eq_of_lt (by omega)]
    have : 2 * f ≤ d * f := Int.mul_le_mul_of_nonneg_right hd (by omega)
    omega
  have h2 : (d * f).tmod (-f) = 0 := by rw [Int.tmod_neg]; exact Int.mul_tmod_left d f
  have hg : gcd (-(k * d + 1) * f) (d * f) = -f := by
    rw [gcd, dif_neg hdf, h1, gcd, dif_neg (by omega), h2, gcd, dif_pos rfl]
  unfold Ratio.type
  simp only [hg]
  have h3 : (-(k * d + 1) * f).tdiv (-f) = k * d + 1 := by
    rw [show -(k * d + 1) * f = (k * d + 1) * -f by rw [Int.neg_mul, Int.mul_neg]]
    exact Int.mul_tdiv_cancel _ (by omega)
  have h4 : (d * f).tdiv (-f) = -d := by
    rw [Int.tdiv_neg, Int.mul_tdiv_cancel _ (by omega)]
  rw [h3, h4]
example : Ratio.type ⟨-6, 4⟩ = ⟨3, -2⟩ := ratio_sign_in_den 1 2 2 (by decide) (by decide) (by decide)

end Verif.Chrono
