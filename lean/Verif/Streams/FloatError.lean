import Verif.Streams.ExtractFloat
import Mathlib.Algebra.Order.Ring.Pow

/-!
# C81: how far off long numbers are

For numbers with more digits than the format has, every step may round.  The error of the result is bounded in terms of
the number of digits.
-/
namespace Verif.Streams
open Verif

/-! ## Specification -/

/-- results between `tiny` and `huge` in magnitude are finite and off by at most the fraction `u`; zero is exact -/
structure Spec.Accurate (F : Verif.Streams.Fmt) (u tiny huge : Rat) : Prop where
  zero : F.round 0 = .fin 0
  rel : ∀ x : Rat, tiny ≤ |x| → |x| ≤ huge → ∃ y, F.round x = .fin y ∧ |y - x| ≤ u * |x|

/-- `y` is `x` times a factor between `lo` and `hi` -/
def Spec.Within (lo hi x y : Rat) : Prop := ∃ t, lo ≤ t ∧ t ≤ hi ∧ y = t * x

/-! ## IEEE formats are accurate -/

theorem ieee_accurate (p emax emin : Nat) (hp : 1 ≤ p) (hpe : 1 ≤ emax) :
    Spec.Accurate (ieee p emax emin) (1 / 2 ^ p) (2 ^ ((p : Int) - 1 - emin)) (2 ^ (emax - 1)) where
  zero := by
    have := (ieee_binary p emax emin hp).exact 0 0 (by simp) (by simp)
    simpa using this
  rel := by
    intro x ht hh
    have htp : (0 : Rat) < 2 ^ ((p : Int) - 1 - emin) := zpow_pos (by norm_num) _
    have hx : (0 : Rat) < |x| := lt_of_lt_of_le htp ht
    have hlog : (p : Int) - 1 - emin ≤ Int.log 2 |x| := by
      have := Int.zpow_le_iff_le_log (b := 2) (by norm_num) hx (x := (p : Int) - 1 - emin)
      rw [← this]; exact_mod_cast ht
    have hu : ulpExp p emin x = Int.log 2 |x| - (p - 1 : Int) := by
      unfold ulpExp; exact max_eq_left (by omega)
    have hg : (0 : Rat) < 2 ^ ulpExp p emin x := zpow_pos (by norm_num) _
    have hule : (2 : Rat) ^ ulpExp p emin x ≤ |x| * (2 / 2 ^ p) := by
      have h1 : ((2 : Nat) : Rat) ^ Int.log 2 |x| ≤ |x| := Int.zpow_log_le_self (b := 2) (by norm_num) hx
      have h2 : (2 : Rat) ^ ulpExp p emin x = 2 ^ Int.log 2 |x| * (2 / 2 ^ p) := by
        rw [hu, zpow_sub₀ (by norm_num), zpow_sub₀ (by norm_num), zpow_natCast, zpow_one]
        field_simp
      rw [h2]
      refine mul_le_mul_of_nonneg_right ?_ (by positivity)
      exact_mod_cast h1
    have herr : |nearest p emin x - x| ≤ 1 / 2 ^ p * |x| := by
      have h1 : |x / 2 ^ ulpExp p emin x - round (x / 2 ^ ulpExp p emin x)| ≤ 1 / 2 := abs_sub_round _
      have h2 : x - nearest p emin x = (x / 2 ^ ulpExp p emin x - round (x / 2 ^ ulpExp p emin x)) * 2 ^ ulpExp p emin x := by
        unfold nearest
        rw [sub_mul, div_mul_cancel₀ _ hg.ne']
      rw [abs_sub_comm, h2, abs_mul, abs_of_pos hg]
      calc _ ≤ 1 / 2 * 2 ^ ulpExp p emin x := mul_le_mul_of_nonneg_right h1 hg.le
        _ ≤ 1 / 2 * (|x| * (2 / 2 ^ p)) := by linarith
        _ = 1 / 2 ^ p * |x| := by ring
    refine ⟨nearest p emin x, ?_, herr⟩
    have hdouble : (2 : Rat) ^ emax = 2 * 2 ^ (emax - 1) := by
      rw [← pow_succ']; congr 1; omega
    have hpos1 : (0 : Rat) < 2 ^ (emax - 1) := by positivity
    have hsmall : (1 : Rat) / 2 ^ p ≤ 1 / 2 := by
      apply one_div_le_one_div_of_le (by norm_num)
      calc (2 : Rat) = 2 ^ 1 := by norm_num
        _ ≤ 2 ^ p := pow_le_pow_right₀ (by norm_num) hp
    have hn : |nearest p emin x| < 2 ^ emax := by
      have h1 : |nearest p emin x| ≤ |nearest p emin x - x| + |x| := by
        have := abs_add_le (nearest p emin x - x) x
        simpa using this
      have h2 : 1 / 2 ^ p * |x| ≤ 1 / 2 * |x| := mul_le_mul_of_nonneg_right hsmall hx.le
      linarith
    simp only [ieee]
    rw [if_neg]
    push Not
    exact ⟨by linarith, hn⟩

/-! ## Intervals of factors -/

theorem within_mul {lo hi lo' hi' x y z : Rat} (h : Spec.Within lo hi x y) (h' : Spec.Within lo' hi' y z) (h0 : 0 ≤ lo) (h0' : 0 ≤ lo') :
    Spec.Within (lo * lo') (hi * hi') x z := by
  obtain ⟨t, a, b, rfl⟩ := h
  obtain ⟨t', a', b', rfl⟩ := h'
  refine ⟨t * t', ?_, ?_, by ring⟩
  · exact mul_le_mul a a' h0' (le_trans h0 a)
  · exact mul_le_mul b b' (le_trans h0' a') (le_trans (le_trans h0 a) b)

theorem round_within {F : Fmt} {u tiny huge : Rat} (hF : Spec.Accurate F u tiny huge) (hu : 0 ≤ u) {x : Rat}
    (h : x = 0 ∨ tiny ≤ |x|) (hh : |x| ≤ huge) : ∃ y, F.round x = .fin y ∧ Spec.Within (1 - u) (1 + u) x y := by
  by_cases h0 : x = 0
  · subst h0
    exact ⟨0, hF.zero, 1, by linarith, by linarith, by ring⟩
  · obtain ⟨y, e, hy⟩ := hF.rel x (h.resolve_left h0) hh
    refine ⟨y, e, y / x, ?_, ?_, by field_simp⟩
    all_goals
      have hx : 0 < |x| := abs_pos.mpr h0
      have : |y / x - 1| ≤ u := by
        have : y / x - 1 = (y - x) / x := by field_simp
        rw [this, abs_div, div_le_iff₀ hx]
        exact hy
      have := abs_le.mp this
      linarith [this.1, this.2]

/-- adding something with the same sign keeps within -/
theorem within_add {lo hi x y d : Rat} (h : Spec.Within lo hi x y) (hx : 0 ≤ x) (hd : 0 ≤ d) (hlo : lo ≤ 1) (hhi : 1 ≤ hi) :
    Spec.Within lo hi (x + d) (y + d) := by
  by_cases h0 : x + d = 0
  · have hx0 : x = 0 := by linarith
    have hd0 : d = 0 := by linarith
    obtain ⟨t, a, b, rfl⟩ := h
    exact ⟨t, a, b, by rw [hx0, hd0]; ring⟩
  · have hpos : 0 < x + d := lt_of_le_of_ne (by linarith) (Ne.symm h0)
    obtain ⟨t, a, b, rfl⟩ := h
    refine ⟨(t * x + d) / (x + d), ?_, ?_, by field_simp⟩
    · rw [le_div_iff₀ hpos]
      have h1 : lo * x ≤ t * x := mul_le_mul_of_nonneg_right a hx
      have h2 : lo * d ≤ 1 * d := mul_le_mul_of_nonneg_right hlo hd
      linarith
    · rw [div_le_iff₀ hpos]
      have h1 : t * x ≤ hi * x := mul_le_mul_of_nonneg_right b hx
      have h2 : 1 * d ≤ hi * d := mul_le_mul_of_nonneg_right hhi hd
      linarith

theorem within_sgn {lo hi x y : Rat} (pos : Bool) (h : Spec.Within lo hi x y) : Spec.Within lo hi (sgn pos * x) (sgn pos * y) := by
  obtain ⟨t, a, b, rfl⟩ := h
  exact ⟨t, a, b, by ring⟩

/-! ## The digits -/

theorem sgn_sq (pos : Bool) : (sgn pos : Rat) * sgn pos = 1 := by cases pos <;> simp [sgn]

theorem abs_sgn (pos : Bool) (x : Rat) : |(sgn pos : Rat) * x| = |x| := by cases pos <;> simp [sgn]

/-- one digit costs two roundings -/
theorem raise_within {F : Fmt} {u tiny huge : Rat} (hF : Spec.Accurate F u tiny huge) (hu : 0 ≤ u) (hu1 : u ≤ 1 / 2)
    (ht1 : tiny ≤ 1) (pos : Bool) (m d j : Nat) (q : Rat)
    (hq : Spec.Within ((1 - u) ^ j) ((1 + u) ^ j) (sgn pos * m) q) (hm1 : m = 0 ∨ 1 ≤ (1 - u) ^ j * m * 5)
    (hh : ((m * 10 + d : Nat) : Rat) * (1 + u) ^ (j + 2) ≤ huge) :
    ∃ q', fpRaise F pos (.fin q) d = .fin q' ∧
      Spec.Within ((1 - u) ^ (j + 2)) ((1 + u) ^ (j + 2)) (sgn pos * ((m * 10 + d : Nat) : Rat)) q' := by
  have hlo0 : (0 : Rat) ≤ (1 - u) ^ j := pow_nonneg (by linarith) _
  have hhi0 : (0 : Rat) ≤ (1 + u) ^ j := pow_nonneg (by linarith) _
  have hlo1 : (1 - u) ^ (j + 1) ≤ 1 := pow_le_one₀ (by linarith) (by linarith)
  have hhi1 : 1 ≤ (1 + u) ^ (j + 1) := one_le_pow₀ (by linarith)
  have hdn : (0 : Rat) ≤ d := by positivity
  have hmn : (0 : Rat) ≤ m := by positivity
  -- the product
  obtain ⟨t, a, b, rfl⟩ := hq
  have ht0 : 0 ≤ t := le_trans hlo0 a
  have hw10 : Spec.Within ((1 - u) ^ j) ((1 + u) ^ j) (sgn pos * ((m : Rat) * 10)) (t * (sgn pos * m) * 10) := ⟨t, a, b, by ring⟩
  have habs10 : |t * (sgn pos * (m : Rat)) * 10| = t * m * 10 := by
    rw [show t * (sgn pos * (m : Rat)) * 10 = sgn pos * (t * m * 10) by ring, abs_sgn, abs_of_nonneg (by positivity)]
  have hup : t * m * 10 ≤ ((m * 10 + d : Nat) : Rat) * (1 + u) ^ j := by
    push_cast
    have h1 : t * (m * 10) ≤ (1 + u) ^ j * (m * 10) := mul_le_mul_of_nonneg_right b (by positivity)
    have h2 : 0 ≤ (d : Rat) * (1 + u) ^ j := by positivity
    linarith
  have hstep : (1 + u) ^ j ≤ (1 + u) ^ (j + 2) := pow_le_pow_right₀ (by linarith) (by omega)
  have hstep1 : (1 + u) ^ (j + 1) ≤ (1 + u) ^ (j + 2) := pow_le_pow_right₀ (by linarith) (by omega)
  obtain ⟨y, e1, hy⟩ := round_within hF hu (x := t * (sgn pos * (m : Rat)) * 10) (by
    rcases hm1 with h | h
    · left; rw [h]; simp
    · right
      rw [habs10]
      have h1 : (1 - u) ^ j * m ≤ t * m := mul_le_mul_of_nonneg_right a hmn
      linarith) (by
    rw [habs10]
    have : ((m * 10 + d : Nat) : Rat) * (1 + u) ^ j ≤ ((m * 10 + d : Nat) : Rat) * (1 + u) ^ (j + 2) :=
      mul_le_mul_of_nonneg_left hstep (by positivity)
    linarith)
  have hw1 : Spec.Within ((1 - u) ^ (j + 1)) ((1 + u) ^ (j + 1)) (sgn pos * ((m : Rat) * 10)) y := by
    rw [pow_succ, pow_succ]; exact within_mul hw10 hy hlo0 (by linarith)
  -- the sum
  have hw2 : Spec.Within ((1 - u) ^ (j + 1)) ((1 + u) ^ (j + 1)) ((m : Rat) * 10 + d) (sgn pos * y + d) := by
    refine within_add ?_ (by positivity) hdn hlo1 hhi1
    have := within_sgn pos hw1
    rwa [← mul_assoc, sgn_sq, one_mul] at this
  have hsum : y + (if pos then (d : Rat) else -(d : Rat)) = sgn pos * (sgn pos * y + d) := by
    cases pos <;> simp [sgn]; ring
  have hw3 : Spec.Within ((1 - u) ^ (j + 1)) ((1 + u) ^ (j + 1)) (sgn pos * ((m * 10 + d : Nat) : Rat))
      (y + (if pos then (d : Rat) else -(d : Rat))) := by
    rw [hsum]
    push_cast
    exact within_sgn pos hw2
  obtain ⟨t2, a2, b2, h2⟩ := hw2
  have ht2 : 0 ≤ t2 := le_trans (pow_nonneg (by linarith) _) a2
  have habs2 : |y + (if pos then (d : Rat) else -(d : Rat))| = t2 * (m * 10 + d) := by
    rw [hsum, abs_sgn, h2, abs_of_nonneg (by positivity)]
  obtain ⟨z, e2, hz⟩ := round_within hF hu (x := y + (if pos then (d : Rat) else -(d : Rat))) (by
    by_cases h0 : (m : Rat) * 10 + d = 0
    · left; rw [hsum, h2, h0]; ring
    · right
      rw [habs2]
      -- at least one half
      have hge : (1 : Rat) ≤ t2 * (m * 10 + d) := by
        rcases hm1 with h | h
        · -- the first digit: nothing was rounded
          subst h
          have hy0 : y = 0 := by obtain ⟨t', _, _, hh'⟩ := hw1; rw [hh']; simp
          rw [hy0] at h2
          simp only [mul_zero, zero_add, Nat.cast_zero, zero_mul] at h2 h0 ⊢
          rw [← h2]
          have : d ≠ 0 := fun hd => h0 (by rw [hd]; simp)
          exact_mod_cast Nat.one_le_iff_ne_zero.mpr this
        · have h3 : (1 - u) ^ (j + 1) * (m * 10 + d) ≤ t2 * (m * 10 + d) := mul_le_mul_of_nonneg_right a2 (by positivity)
          have h4 : (1 - u) ^ (j + 1) * (m * 10) = (1 - u) * ((1 - u) ^ j * m * 5) * 2 := by ring
          have h5 : (1 - u) * ((1 - u) ^ j * m * 5) ≥ (1 - u) * 1 := mul_le_mul_of_nonneg_left h (by linarith)
          have h6 : 0 ≤ (1 - u) ^ (j + 1) * d := mul_nonneg (pow_nonneg (by linarith) _) hdn
          linarith
      linarith) (by
    rw [habs2]
    have h3 : t2 * (m * 10 + d) ≤ (1 + u) ^ (j + 1) * (m * 10 + d) := mul_le_mul_of_nonneg_right b2 (by positivity)
    have h4 : (1 + u) ^ (j + 1) * ((m : Rat) * 10 + d) ≤ (1 + u) ^ (j + 2) * (m * 10 + d) :=
      mul_le_mul_of_nonneg_right hstep1 (by positivity)
    push_cast at hh
    linarith)
  refine ⟨z, ?_, ?_⟩
  · simp only [fpRaise, Fmt.mul, e1, Fmt.add, e2]
  · rw [show j + 2 = (j + 1) + 1 from rfl, pow_succ (1 - u) (j + 1), pow_succ (1 + u) (j + 1)]
    exact within_mul hw3 hz (pow_nonneg (by linarith) _) (by linarith)

theorem accum_within {F : Fmt} {u tiny huge : Rat} (hF : Spec.Accurate F u tiny huge) (hu : 0 ≤ u) (hu1 : u ≤ 1 / 2)
    (ht1 : tiny ≤ 1) (pos : Bool) (ds : List Nat) : ∀ (m j : Nat) (q : Rat),
    Spec.Within ((1 - u) ^ j) ((1 + u) ^ j) (sgn pos * m) q → ((j + 2 * ds.length : Nat) : Rat) * u ≤ 1 / 2 →
    ((ds.foldl (fun a d => a * 10 + d) m : Nat) : Rat) * (1 + u) ^ (j + 2 * ds.length) ≤ huge →
    ∃ q', accum F pos (.fin q) ds = .fin q' ∧
      Spec.Within ((1 - u) ^ (j + 2 * ds.length)) ((1 + u) ^ (j + 2 * ds.length))
        (sgn pos * ((ds.foldl (fun a d => a * 10 + d) m : Nat) : Rat)) q' := by
  induction ds with
  | nil => intro m j q h _ _; exact ⟨q, rfl, h⟩
  | cons d ds ih =>
    intro m j q h hj hh
    rw [List.foldl_cons] at hh ⊢
    have hlen : j + 2 * (d :: ds).length = j + 2 + 2 * ds.length := by simp; omega
    rw [hlen] at hh hj ⊢
    have hm1 : m = 0 ∨ 1 ≤ (1 - u) ^ j * m * 5 := by
      by_cases h0 : m = 0
      · exact Or.inl h0
      · right
        have hb := one_add_mul_le_pow (a := -u) (by linarith) j
        have hju : (j : Rat) * u ≤ 1 / 2 := by
          refine le_trans (mul_le_mul_of_nonneg_right ?_ hu) hj
          exact_mod_cast (by omega : j ≤ j + 2 + 2 * ds.length)
        have h1 : (1 : Rat) ≤ m := by exact_mod_cast Nat.one_le_iff_ne_zero.mpr h0
        have h2 : (1 / 2 : Rat) ≤ (1 - u) ^ j := by
          have : (1 : Rat) + -u = 1 - u := by ring
          rw [this] at hb
          linarith
        have h3 : (1 / 2 : Rat) * 1 ≤ (1 - u) ^ j * m := mul_le_mul h2 h1 (by norm_num) (by linarith)
        linarith
    have hle : m * 10 + d ≤ ds.foldl (fun a d => a * 10 + d) (m * 10 + d) := foldl_ge ds _
    obtain ⟨q', e, hw⟩ := raise_within hF hu hu1 ht1 pos m d j q h hm1 (by
      refine le_trans (mul_le_mul ?_ ?_ (pow_nonneg (by linarith) _) (by positivity)) hh
      · exact_mod_cast hle
      · exact pow_le_pow_right₀ (by linarith) (by omega))
    show ∃ q', accum F pos (fpRaise F pos (.fin q) d) ds = .fin q' ∧ _
    rw [e]
    exact ih (m * 10 + d) (j + 2) q' hw hj hh

theorem divider_within {F : Fmt} {u tiny huge : Rat} (hF : Spec.Accurate F u tiny huge) (hu : 0 ≤ u) (hu1 : u ≤ 1 / 2)
    (ht1 : tiny ≤ 1) (k : Nat) (hh : (10 : Rat) ^ k * (1 + u) ^ k ≤ huge) :
    ∃ q, fpDivider F k = .fin q ∧ Spec.Within ((1 - u) ^ k) ((1 + u) ^ k) (10 ^ k) q := by
  induction k with
  | zero => exact ⟨1, rfl, 1, by simp, by simp, by simp⟩
  | succ k ih =>
    have hmono : (10 : Rat) ^ k * (1 + u) ^ k ≤ 10 ^ (k + 1) * (1 + u) ^ (k + 1) :=
      mul_le_mul (pow_le_pow_right₀ (by norm_num) (by omega)) (pow_le_pow_right₀ (by linarith) (by omega))
        (pow_nonneg (by linarith) _) (by positivity)
    obtain ⟨q, e, t, a, b, rfl⟩ := ih (le_trans hmono hh)
    have ht0 : 0 ≤ t := le_trans (pow_nonneg (by linarith) _) a
    have habs : |t * 10 ^ k * 10| = t * 10 ^ (k + 1) := by
      rw [abs_of_nonneg (by positivity)]; ring
    have h5 : (1 : Rat) ≤ t * 10 ^ (k + 1) := by
      have h1 : (1 - u) ^ k * 10 ^ k ≤ t * 10 ^ k := mul_le_mul_of_nonneg_right a (by positivity)
      have h2 : (1 : Rat) ≤ ((1 - u) * 10) ^ k := one_le_pow₀ (by linarith)
      rw [mul_pow] at h2
      have : t * 10 ^ (k + 1) = t * 10 ^ k * 10 := by ring
      linarith
    obtain ⟨y, e2, hy⟩ := round_within hF hu (x := t * 10 ^ k * 10) (by right; rw [habs]; linarith) (by
      rw [habs]
      have h1 : t * 10 ^ (k + 1) ≤ (1 + u) ^ k * 10 ^ (k + 1) := mul_le_mul_of_nonneg_right b (by positivity)
      have h2 : (1 + u) ^ k * 10 ^ (k + 1) ≤ (1 + u) ^ (k + 1) * 10 ^ (k + 1) :=
        mul_le_mul_of_nonneg_right (pow_le_pow_right₀ (by linarith) (by omega)) (by positivity)
      linarith)
    refine ⟨y, ?_, ?_⟩
    · rw [fpDivider, e]; simp only [Fmt.mul, e2]
    · rw [pow_succ (1 - u), pow_succ (1 + u)]
      refine within_mul (y := t * 10 ^ k * 10) ⟨t, a, b, by ring⟩ hy (pow_nonneg (by linarith) _) (by linarith)

/-- C81 for numbers of any length: with `n` digits, `k ≤ 254` of them behind the point, the number stored is that denoted
times a factor between `(1 - u) ^ (2 n + 1) / (1 + u) ^ k` and `(1 + u) ^ (2 n + 1) / (1 - u) ^ k`, where `u` is the largest
relative error of one rounding (`2 ^ -53` for `double`, `2 ^ -24` for `float`); the stream stands behind the number.  This as
long as the digits without the point and the power of ten stay in the range of the format (`float_long_nan` shows what
happens otherwise) and the result is not among the subnormal numbers.  (The conversion demanded by the standard is off by a
factor between `1 - u` and `1 + u`, however long the number.) -/
theorem float_error_partial (F : Fmt) (u tiny huge : Rat) (hF : Spec.Accurate F u tiny huge) (hu : 0 ≤ u) (hu1 : u ≤ 1 / 2)
    (ht1 : tiny ≤ 1) (c : ISCfg) (s : IS) (h : s.Ok c) (hg : s.ios.good = true) (white rest : List Ch) (d : Spec.Decimal)
    (hr : s.rest = white ++ (d.text ++ rest)) (hw : ∀ x ∈ white, Spec.White x) (hd : d.Wf) (hne : d.whole ++ d.places ≠ [])
    (hs : Spec.Stops rest) (hk : d.places.length ≤ 254)
    (hn : ((2 * (d.whole ++ d.places).length : Nat) : Rat) * u ≤ 1 / 2)
    (hm : (d.mantissa : Rat) * (1 + u) ^ (2 * (d.whole ++ d.places).length) ≤ huge)
    (h10 : (10 : Rat) ^ d.places.length * (1 + u) ^ d.places.length ≤ huge)
    (hsub : d.mantissa = 0 ∨ tiny ≤ |d.value| * ((1 - u) ^ (2 * (d.whole ++ d.places).length) / (1 + u) ^ d.places.length)) :
    ∃ s' y, s.extractFloat F c = some (s', .fin y) ∧
      Spec.Within ((1 - u) ^ (2 * (d.whole ++ d.places).length + 1) / (1 + u) ^ d.places.length)
        ((1 + u) ^ (2 * (d.whole ++ d.places).length + 1) / (1 - u) ^ d.places.length) d.value y ∧
      Spec.Consumed c s (white.length + d.text.length) (if rest = [] then eofbit else 0) s' := by
  obtain ⟨t1, t2⟩ := text_not_white d hd hne rest
  obtain ⟨s', e, hc⟩ := extractFloat_step F c s h hg white _ hr hw t2 t1
  rw [fpLoop_decimal F d hd rest hs (decimal_ne d hne)] at e hc
  have hn0 : (0 : Rat) < 1 - u := by linarith
  have hp0 : (0 : Rat) < 1 + u := by linarith
  obtain ⟨q, eq, hq⟩ := accum_within hF hu hu1 ht1 (!d.neg) (d.whole ++ d.places) 0 0 0 ⟨1, by simp, by simp, by simp⟩
    (by simpa using hn) (by simpa [Spec.Decimal.mantissa, Charconv.Spec.value] using hm)
  have hfold : List.foldl (fun a d => a * 10 + d) 0 (d.whole ++ d.places) = d.mantissa := rfl
  rw [hfold, Nat.zero_add] at hq
  set n := 2 * (d.whole ++ d.places).length with hnd
  set k := d.places.length with hkd
  have hval : d.value = sgn (!d.neg) * (d.mantissa : Rat) / 10 ^ k := by
    unfold Spec.Decimal.value; rw [← hkd]; cases d.neg <;> simp [sgn]
  rw [eq] at e
  have hcons : Spec.Consumed c s (white.length + d.text.length) (if rest = [] then eofbit else 0) s' := by
    by_cases hre : rest = [] <;> simpa [hre] using hc
  -- the quotient, rounded or not
  have key : ∃ y, fpFinal F ⟨behind !d.neg, if d.frac.isSome then placeAfter 1 k else 0, false, .fin q⟩ = .fin y ∧
      Spec.Within ((1 - u) ^ (n + 1) / (1 + u) ^ k) ((1 + u) ^ (n + 1) / (1 - u) ^ k) d.value y := by
    cases hfr : d.frac with
    | none =>
      have hk0 : k = 0 := by rw [hkd]; simp [Spec.Decimal.places, hfr]
      refine ⟨q, by simp [fpFinal], ?_⟩
      obtain ⟨t, a, b, rfl⟩ := hq
      refine ⟨t, ?_, ?_, by rw [hval, hk0]; simp⟩
      · rw [hk0, pow_zero, div_one]
        refine le_trans ?_ a
        exact pow_le_pow_of_le_one hn0.le (by linarith) (by omega)
      · rw [hk0, pow_zero, div_one]
        refine le_trans b ?_
        exact pow_le_pow_right₀ (by linarith) (by omega)
    | some f =>
      obtain ⟨r, er, tr, ar, br, hrr⟩ := divider_within hF hu hu1 ht1 k h10
      have htr : 0 < tr := lt_of_lt_of_le (pow_pos hn0 _) ar
      obtain ⟨t, a, b, rfl⟩ := hq
      have ht0 : 0 < t := lt_of_lt_of_le (pow_pos hn0 _) a
      have hquot : t * (sgn (!d.neg) * (d.mantissa : Rat)) / r = t / tr * d.value := by
        rw [hrr, hval]; field_simp
      have hlow : (1 - u) ^ n / (1 + u) ^ k ≤ t / tr := div_le_div₀ ht0.le a htr br
      have hhigh : t / tr ≤ (1 + u) ^ n / (1 - u) ^ k := div_le_div₀ (pow_nonneg hp0.le _) b (pow_pos hn0 _) ar
      have hr1 : (1 : Rat) ≤ r := by
        rw [hrr]
        have h1 : (1 - u) ^ k * 10 ^ k ≤ tr * 10 ^ k := mul_le_mul_of_nonneg_right ar (by positivity)
        have h2 : (1 : Rat) ≤ ((1 - u) * 10) ^ k := one_le_pow₀ (by linarith)
        rw [mul_pow] at h2
        linarith
      have habs : |t * (sgn (!d.neg) * (d.mantissa : Rat)) / r| = t * d.mantissa / r := by
        rw [show t * (sgn (!d.neg) * (d.mantissa : Rat)) / r = sgn (!d.neg) * (t * d.mantissa / r) by ring, abs_sgn,
          abs_of_nonneg (by positivity)]
      obtain ⟨y, ey, hy⟩ := round_within hF hu (x := t * (sgn (!d.neg) * (d.mantissa : Rat)) / r) (by
        rcases hsub with h0 | h0
        · left; rw [h0]; simp
        · right
          rw [hquot, abs_mul, abs_of_pos (div_pos ht0 htr)]
          refine le_trans h0 ?_
          rw [mul_comm]
          exact mul_le_mul_of_nonneg_right hlow (abs_nonneg _)) (by
        rw [habs]
        refine le_trans (div_le_self (by positivity) hr1) ?_
        refine le_trans ?_ hm
        rw [mul_comm]
        exact mul_le_mul_of_nonneg_left b (by positivity))
      refine ⟨y, ?_, ?_⟩
      · simp only [fpFinal, Option.isSome_some, if_true]
        rw [placeAfter_few hk, if_pos (by omega), show 1 + k - 1 = k by omega, er]
        exact ey
      · have : Spec.Within ((1 - u) ^ n / (1 + u) ^ k) ((1 + u) ^ n / (1 - u) ^ k) d.value
            (t * (sgn (!d.neg) * (d.mantissa : Rat)) / r) := ⟨t / tr, hlow, hhigh, hquot⟩
        have := within_mul this hy (div_nonneg (pow_nonneg hn0.le _) (pow_nonneg hp0.le _)) hn0.le
        have e1 : (1 - u) ^ n / (1 + u) ^ k * (1 - u) = (1 - u) ^ (n + 1) / (1 + u) ^ k := by rw [pow_succ]; ring
        have e2 : (1 + u) ^ n / (1 - u) ^ k * (1 + u) = (1 + u) ^ (n + 1) / (1 - u) ^ k := by rw [pow_succ]; ring
        rwa [e1, e2] at this
  obtain ⟨y, ey, hy⟩ := key
  rw [ey] at e
  exact ⟨s', y, e, hy, hcons⟩

/-- powers of factors around 1 -/
theorem pow_bounds {u : Rat} (hu : 0 ≤ u) (a b : Nat) (h : ((a + b : Nat) : Rat) * u ≤ 1 / 2) (hu1 : u ≤ 1 / 2) :
    1 - ((a + b : Nat) : Rat) * u ≤ (1 - u) ^ a / (1 + u) ^ b ∧ (1 + u) ^ a / (1 - u) ^ b ≤ 1 + 2 * (((a + b : Nat) : Rat) * u) := by
  have hn0 : (0 : Rat) < 1 - u := by linarith
  have hp0 : (0 : Rat) < 1 + u := by linarith
  have hprod : (1 - u) * (1 + u) ≤ 1 := by nlinarith
  have hb := one_add_mul_le_pow (a := -u) (by linarith) (a + b)
  have e : (1 : Rat) + -u = 1 - u := by ring
  rw [e] at hb
  have hb' : 1 - ((a + b : Nat) : Rat) * u ≤ (1 - u) ^ (a + b) := by linarith
  have hinv : ∀ j : Nat, (1 - u) ^ j * (1 + u) ^ j ≤ 1 := by
    intro j
    rw [← mul_pow]
    exact pow_le_one₀ (mul_nonneg hn0.le hp0.le) hprod
  constructor
  · refine le_trans hb' ?_
    rw [le_div_iff₀ (pow_pos hp0 _), pow_add, mul_assoc]
    have := mul_le_mul_of_nonneg_left (hinv b) (pow_nonneg hn0.le a)
    linarith
  · have h1 : (1 + u) ^ a / (1 - u) ^ b ≤ 1 / (1 - u) ^ (a + b) := by
      rw [div_le_div_iff₀ (pow_pos hn0 _) (pow_pos hn0 _), pow_add, one_mul]
      have := mul_le_mul_of_nonneg_right (hinv a) (pow_nonneg hn0.le b)
      linarith
    refine le_trans h1 ?_
    have hpos : (0 : Rat) < 1 - ((a + b : Nat) : Rat) * u := by linarith
    refine le_trans (one_div_le_one_div_of_le hpos hb') ?_
    rw [div_le_iff₀ hpos]
    have hxu : 0 ≤ ((a + b : Nat) : Rat) * u := by positivity
    nlinarith

theorem within_error {lo hi x y e : Rat} (h : Spec.Within lo hi x y) (h1 : 1 - e ≤ lo) (h2 : hi ≤ 1 + e) : |y - x| ≤ e * |x| := by
  obtain ⟨t, a, b, rfl⟩ := h
  rw [show t * x - x = (t - 1) * x by ring, abs_mul]
  refine mul_le_mul_of_nonneg_right ?_ (abs_nonneg _)
  rw [abs_le]
  constructor <;> linarith

/-- C81 for `double` and numbers of up to 250 digits: what is stored is off by at most `1502 / 2 ^ 53` of the number. -/
theorem double_error_partial (c : ISCfg) (s : IS) (h : s.Ok c) (hg : s.ios.good = true) (white rest : List Ch) (d : Spec.Decimal)
    (hr : s.rest = white ++ (d.text ++ rest)) (hw : ∀ x ∈ white, Spec.White x) (hd : d.Wf) (hs : Spec.Stops rest)
    (h1 : 1 ≤ (d.whole ++ d.places).length) (h250 : (d.whole ++ d.places).length ≤ 250) :
    ∃ s' y, s.extractFloat (ieee 53 1024 1074) c = some (s', .fin y) ∧ |y - d.value| ≤ 1502 / 2 ^ 53 * |d.value| ∧
      Spec.Consumed c s (white.length + d.text.length) (if rest = [] then eofbit else 0) s' := by
  have hkn : d.places.length ≤ (d.whole ++ d.places).length := by simp
  have hmn := value_lt _ hd
  have hm : (d.mantissa : Rat) ≤ 10 ^ 250 := by
    have : d.mantissa ≤ 10 ^ 250 := by
      refine le_trans (le_of_lt hmn) (Nat.pow_le_pow_right (by omega) h250)
    exact_mod_cast this
  set n := (d.whole ++ d.places).length with hnd
  set k := d.places.length with hkd
  have hu : (0 : Rat) ≤ 1 / 2 ^ 53 := by positivity
  have hN : ((2 * n + 1 + k : Nat) : Rat) ≤ 751 := by exact_mod_cast (by omega : 2 * n + 1 + k ≤ 751)
  have hNu : ((2 * n + 1 + k : Nat) : Rat) * (1 / 2 ^ 53) ≤ 751 * (1 / 2 ^ 53) := mul_le_mul_of_nonneg_right hN hu
  have h751 : (751 : Rat) * (1 / 2 ^ 53) ≤ 1 / 2 := by norm_num
  have htwo : ((1 : Rat) + 1 / 2 ^ 53) ^ (2 * n) ≤ 2 := by
    have hb := (pow_bounds hu (2 * n) 0 (by
      refine le_trans (mul_le_mul_of_nonneg_right ?_ hu) (le_trans hNu h751)
      exact_mod_cast (by omega : 2 * n + 0 ≤ 2 * n + 1 + k)) (by norm_num)).2
    rw [pow_zero, div_one] at hb
    have : ((2 * n + 0 : Nat) : Rat) * (1 / 2 ^ 53) ≤ 751 * (1 / 2 ^ 53) := by
      refine le_trans (mul_le_mul_of_nonneg_right ?_ hu) hNu
      exact_mod_cast (by omega : 2 * n + 0 ≤ 2 * n + 1 + k)
    have : (751 : Rat) * (1 / 2 ^ 53) ≤ 1 / 2 := by norm_num
    linarith
  have hk2 : ((1 : Rat) + 1 / 2 ^ 53) ^ k ≤ 2 := le_trans (pow_le_pow_right₀ (by norm_num) (by omega)) htwo
  have hbig0 : (10 : Rat) ^ 250 * 2 ≤ 2 ^ 1022 := by
    have : (10 : Nat) ^ 250 * 2 ≤ 2 ^ 1022 := by decide +kernel
    exact_mod_cast this
  have hbig : (10 : Rat) ^ 250 * 2 ≤ 2 ^ (1024 - 1) := le_trans hbig0 (pow_le_pow_right₀ (by norm_num) (by omega))
  have htiny : (2 : Rat) ^ (((53 : Nat) : Int) - 1 - ((1074 : Nat) : Int)) = 1 / 2 ^ 1022 := by
    rw [show ((53 : Nat) : Int) - 1 - ((1074 : Nat) : Int) = -((1022 : Nat) : Int) by omega, zpow_neg, zpow_natCast, one_div]
  have h10k : (10 : Rat) ^ k ≤ 10 ^ 250 := pow_le_pow_right₀ (by norm_num) (by omega)
  have hb := pow_bounds hu (2 * n + 1) k (le_trans hNu h751) (by norm_num)
  obtain ⟨s', y, e, hy, hc⟩ := float_error_partial (ieee 53 1024 1074) (1 / 2 ^ 53) _ _ (ieee_accurate 53 1024 1074 (by omega) (by omega))
    hu (by norm_num) (by rw [htiny]; exact div_le_one_of_le₀ (one_le_pow₀ (by norm_num)) (by positivity)) c s h hg white rest d hr hw hd (by
      intro e; rw [e] at hnd; simp at hnd; omega) hs (by omega) (by
      refine le_trans (mul_le_mul_of_nonneg_right ?_ hu) (le_trans hNu h751)
      exact_mod_cast (by omega : 2 * n ≤ 2 * n + 1 + k)) (by
      refine le_trans ?_ hbig
      exact mul_le_mul hm htwo (by positivity) (by positivity)) (by
      refine le_trans ?_ hbig
      exact mul_le_mul h10k hk2 (by positivity) (by positivity)) (by
      by_cases h0 : d.mantissa = 0
      · exact Or.inl h0
      · right
        have hlow := (pow_bounds hu (2 * n) k (by
          refine le_trans (mul_le_mul_of_nonneg_right ?_ hu) (le_trans hNu h751)
          exact_mod_cast (by omega : 2 * n + k ≤ 2 * n + 1 + k)) (by norm_num)).1
        have hx : ((2 * n + k : Nat) : Rat) * (1 / 2 ^ 53) ≤ 1 / 2 := by
          refine le_trans (mul_le_mul_of_nonneg_right ?_ hu) (le_trans hNu h751)
          exact_mod_cast (by omega : 2 * n + k ≤ 2 * n + 1 + k)
        have hval : (1 : Rat) / 10 ^ 250 ≤ |d.value| := by
          have habs : |d.value| = d.mantissa / 10 ^ k := by
            unfold Spec.Decimal.value
            rw [← hkd, abs_div, abs_of_pos (by positivity : (0 : Rat) < 10 ^ k), abs_mul]
            cases d.neg <;> simp
          rw [habs]
          refine div_le_div₀ (by positivity) ?_ (by positivity) h10k
          exact_mod_cast Nat.one_le_iff_ne_zero.mpr h0
        have hfinal : (2 : Rat) ^ (((53 : Nat) : Int) - 1 - ((1074 : Nat) : Int)) ≤ 1 / 10 ^ 250 * (1 / 2) := by
          rw [htiny, one_div_mul_one_div]
          exact one_div_le_one_div_of_le (by positivity) hbig0
        refine le_trans hfinal ?_
        exact mul_le_mul hval (by linarith) (by norm_num) (abs_nonneg _))
  refine ⟨s', y, e, ?_, hc⟩
  have hpos : 0 ≤ ((2 * n + 1 + k : Nat) : Rat) * (1 / 2 ^ 53) := by positivity
  have herr := within_error (e := 2 * (((2 * n + 1 + k : Nat) : Rat) * (1 / 2 ^ 53))) hy (by linarith [hb.1]) hb.2
  refine le_trans herr (mul_le_mul_of_nonneg_right ?_ (abs_nonneg _))
  have : (1502 : Rat) / 2 ^ 53 = 2 * (751 * (1 / 2 ^ 53)) := by norm_num
  rw [this]
  linarith

/-- the hypotheses of `double_error_partial` are met by a text of 24 digits -/
example : ∃ (d : Spec.Decimal) (rest : List Ch), d.Wf ∧ Spec.Stops rest ∧ (d.whole ++ d.places).length = 24 ∧
    (2 : Rat) ^ 53 < d.mantissa := by
  refine ⟨⟨true, [0, 0, 1, 2, 3, 4, 5, 6, 7, 8, 9, 0], some [9, 8, 7, 6, 5, 4, 3, 2, 1, 0, 1, 2]⟩, [0x2C], ?_, ?_, by decide, ?_⟩
  · unfold Spec.Decimal.Wf; decide
  · intro x r e; cases e; decide
  · norm_num [Spec.Decimal.mantissa, Spec.Decimal.places, Charconv.Spec.value]

end Verif.Streams
