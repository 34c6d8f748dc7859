import Mathlib.Data.Int.Log
import Mathlib.Algebra.Order.Round
import Mathlib.Data.Rat.Floor
import Mathlib.Tactic.Positivity
import Mathlib.Tactic.Linarith
import Mathlib.Tactic.FieldSimp
import Mathlib.Tactic.Ring

/-!
# Floating-point formats (for C81)

What the model of floating-point extraction takes from the hardware: the values of a binary format, and the rounding of
exact results to them.  The signs of zeros and of infinities are not modelled.
-/
namespace Verif.Streams

/-- a floating-point value; the signs of zero and of infinity are not kept -/
inductive Fl where
  | fin (q : Rat)
  | inf
  | nan

/-- a format is the rounding of an exact result -/
structure Fmt where
  round : Rat → Fl

/-- `v * k` for a number `k` that is not zero; the operations of the types `float` and `double` used by
internal/locale/iterated/num_get.h:98-102, 179-181 -/
def Fmt.mul (F : Fmt) (v : Fl) (k : Rat) : Fl :=
  match v with
  | .fin q => F.round (q * k)
  | o => o

/-- `v + n` -/
def Fmt.add (F : Fmt) (v : Fl) (n : Rat) : Fl :=
  match v with
  | .fin q => F.round (q + n)
  | o => o

/-- `a / b`, `b` not zero -/
def Fmt.div (F : Fmt) (a b : Fl) : Fl :=
  match a, b with
  | .nan, _ => .nan
  | _, .nan => .nan
  | .fin p, .fin q => F.round (p / q)
  | .inf, .fin _ => .inf
  | .fin _, .inf => .fin 0
  | .inf, .inf => .nan

/-- What is used of a binary format with `p` significant bits whose finite numbers lie below `2^emax`: integers of up to
`p` bits times a power of two are represented exactly, numbers from `2^emax` on are infinite, and rounding does not
cross a power of two. -/
structure Spec.Binary (F : Fmt) (p emax : Nat) : Prop where
  exact : ∀ (n : Int) (e : Nat), |n| ≤ 2 ^ p → |(n : Rat) * 2 ^ e| < 2 ^ emax → F.round (n * 2 ^ e) = .fin (n * 2 ^ e)
  large : ∀ x : Rat, (2 : Rat) ^ emax ≤ |x| → F.round x = .inf
  above : ∀ (x : Rat) (e : Nat), (2 : Rat) ^ e ≤ x → F.round x = .inf ∨ ∃ y, F.round x = .fin y ∧ (2 : Rat) ^ e ≤ y
  below : ∀ (x : Rat) (e : Nat), x ≤ -(2 : Rat) ^ e → F.round x = .inf ∨ ∃ y, F.round x = .fin y ∧ y ≤ -(2 : Rat) ^ e

/-- the exponent of the last bit of the numbers around `x` -/
def ulpExp (p emin : Nat) (x : Rat) : Int := max (Int.log 2 |x| - (p - 1 : Int)) (-(emin : Int))

/-- the nearest number of the format, before looking for overflow -/
def nearest (p emin : Nat) (x : Rat) : Rat := (round (x / 2 ^ ulpExp p emin x) : Int) * 2 ^ ulpExp p emin x

/-- IEEE 754 binary formats with `p` significant bits, finite numbers below `2^emax` and least number `2^-emin`, rounding
to nearest (ties upwards): `float` is `ieee 24 128 149`, `double` is `ieee 53 1024 1074` -/
def ieee (p emax emin : Nat) : Fmt where
  round x := if (2 : Rat) ^ emax ≤ |x| ∨ (2 : Rat) ^ emax ≤ |nearest p emin x| then .inf else .fin (nearest p emin x)

theorem nearest_grid {p emin : Nat} {x : Rat} (m : Int) (h : x = m * 2 ^ ulpExp p emin x) : nearest p emin x = x := by
  have h0 : (2 : Rat) ^ ulpExp p emin x ≠ 0 := zpow_ne_zero _ (by norm_num)
  have : x / 2 ^ ulpExp p emin x = m := by rw [div_eq_iff h0]; exact h
  unfold nearest
  rw [this, round_intCast]
  exact h.symm

/-- a power of two below `|x|` is on the grid of `x` -/
theorem pow_grid {p emin e : Nat} (hp : 1 ≤ p) {x : Rat} (h : (2 : Rat) ^ e ≤ |x|) :
    ∃ m : Int, (2 : Rat) ^ e ≤ m * 2 ^ ulpExp p emin x ∧ (m * 2 ^ ulpExp p emin x : Rat) ≤ |x| := by
  have hx : (0 : Rat) < |x| := lt_of_lt_of_le (by positivity) h
  by_cases hc : ulpExp p emin x ≤ e
  · refine ⟨2 ^ ((e : Int) - ulpExp p emin x).toNat, ?_, ?_⟩
    all_goals
      have : ((2 ^ ((e : Int) - ulpExp p emin x).toNat : Int) : Rat) * 2 ^ ulpExp p emin x = 2 ^ e := by
        push_cast
        rw [← zpow_natCast, ← zpow_add₀ (by norm_num), Int.toNat_of_nonneg (by omega)]
        rw [show (e : Int) - ulpExp p emin x + ulpExp p emin x = e by omega, zpow_natCast]
      rw [this]
    exact h
  · have hu : ulpExp p emin x = Int.log 2 |x| - (p - 1 : Int) := by
      unfold ulpExp at hc ⊢
      rcases le_total (Int.log 2 |x| - (p - 1 : Int)) (-(emin : Int)) with h1 | h1
      · rw [max_eq_right h1] at hc; omega
      · exact max_eq_left h1
    refine ⟨2 ^ (p - 1), ?_, ?_⟩
    all_goals
      have : ((2 ^ (p - 1) : Int) : Rat) * 2 ^ ulpExp p emin x = 2 ^ Int.log 2 |x| := by
        push_cast
        rw [← zpow_natCast, ← zpow_add₀ (by norm_num), hu]
        congr 1
        omega
      rw [this]
    · have := Int.zpow_le_iff_le_log (b := 2) (by norm_num) hx (x := (e : Int))
      rw [← zpow_natCast]
      apply zpow_le_zpow_right₀ (by norm_num)
      rw [← this]
      simpa using h
    · exact_mod_cast Int.zpow_log_le_self (b := 2) (by norm_num) hx

/-- No number on the grid around `x` is nearer to `x` than the one it is rounded to. -/
theorem nearest_is_nearest (p emin : Nat) (x : Rat) (m : Int) :
    |x - nearest p emin x| ≤ |x - m * 2 ^ ulpExp p emin x| := by
  have h0 : (0 : Rat) < 2 ^ ulpExp p emin x := zpow_pos (by norm_num) _
  have key : ∀ k : Int, |x - k * 2 ^ ulpExp p emin x| = |x / 2 ^ ulpExp p emin x - k| * 2 ^ ulpExp p emin x := by
    intro k
    rw [← abs_of_pos h0, ← abs_mul, abs_of_pos h0, sub_mul, div_mul_cancel₀ _ h0.ne']
  unfold nearest
  rw [key, key]
  exact mul_le_mul_of_nonneg_right (round_le _ _) h0.le

theorem roundq_mono {x y : Rat} (h : x ≤ y) : round x ≤ round y := by
  rw [round_eq, round_eq]
  exact Int.floor_mono (by linarith)

theorem nearest_mono_grid {p emin : Nat} {x : Rat} (m : Int) :
    ((m * 2 ^ ulpExp p emin x : Rat) ≤ x → (m * 2 ^ ulpExp p emin x : Rat) ≤ nearest p emin x) ∧
    (x ≤ (m * 2 ^ ulpExp p emin x : Rat) → nearest p emin x ≤ (m * 2 ^ ulpExp p emin x : Rat)) := by
  have h0 : (0 : Rat) < 2 ^ ulpExp p emin x := zpow_pos (by norm_num) _
  constructor
  · intro h
    have : m ≤ round (x / 2 ^ ulpExp p emin x) := by
      rw [← le_div_iff₀ h0] at h
      have := roundq_mono h
      rwa [round_intCast] at this
    unfold nearest
    have : (m : Rat) ≤ (round (x / 2 ^ ulpExp p emin x) : Int) := by exact_mod_cast this
    exact mul_le_mul_of_nonneg_right this h0.le
  · intro h
    have : round (x / 2 ^ ulpExp p emin x) ≤ m := by
      rw [← div_le_iff₀ h0] at h
      have := roundq_mono h
      rwa [round_intCast] at this
    unfold nearest
    have : ((round (x / 2 ^ ulpExp p emin x) : Int) : Rat) ≤ m := by exact_mod_cast this
    exact mul_le_mul_of_nonneg_right this h0.le

/-- IEEE 754 binary formats are binary formats in the sense of the specification. -/
theorem ieee_binary (p emax emin : Nat) (hp : 1 ≤ p) : Spec.Binary (ieee p emax emin) p emax where
  exact := by
    intro n e hn hlt
    have hgrid : nearest p emin ((n : Rat) * 2 ^ e) = n * 2 ^ e := by
      by_cases h0 : n = 0
      · subst h0; simp [nearest]
      have habs : |(n : Rat) * 2 ^ e| = (|n| : Int) * 2 ^ e := by
        rw [abs_mul, abs_of_pos (by positivity : (0 : Rat) < 2 ^ e)]; push_cast; rfl
      have hpos : (0 : Rat) < |(n : Rat) * 2 ^ e| := by
        rw [abs_pos]; exact mul_ne_zero (by exact_mod_cast h0) (by positivity)
      -- the grid is at most as coarse as `2 ^ e`, or the number is a power of two
      by_cases hc : ulpExp p emin ((n : Rat) * 2 ^ e) ≤ e
      · apply nearest_grid (n * 2 ^ ((e : Int) - ulpExp p emin ((n : Rat) * 2 ^ e)).toNat)
        push_cast
        rw [mul_assoc, ← zpow_natCast (2 : Rat) (Int.toNat _), ← zpow_add₀ (by norm_num), Int.toNat_of_nonneg (by omega)]
        rw [show (e : Int) - ulpExp p emin ((n : Rat) * 2 ^ e) + ulpExp p emin ((n : Rat) * 2 ^ e) = e by omega, zpow_natCast]
      · have hu : ulpExp p emin ((n : Rat) * 2 ^ e) = Int.log 2 |(n : Rat) * 2 ^ e| - (p - 1 : Int) := by
          unfold ulpExp at hc ⊢
          rcases le_total (Int.log 2 |(n : Rat) * 2 ^ e| - (p - 1 : Int)) (-(emin : Int)) with h1 | h1
          · rw [max_eq_right h1] at hc; omega
          · exact max_eq_left h1
        have hlog : (p : Int) + e ≤ Int.log 2 |(n : Rat) * 2 ^ e| := by omega
        have hge : (2 : Rat) ^ (p + e) ≤ |(n : Rat) * 2 ^ e| := by
          have h1 := (Int.zpow_le_iff_le_log (b := 2) (by norm_num) hpos (x := (p : Int) + e)).mpr hlog
          have : ((2 : Rat) ^ (p + e)) = ((2 : Nat) : Rat) ^ ((p : Int) + e) := by
            rw [← Int.natCast_add, zpow_natCast]; norm_num
          rw [this]; exact h1
        have hnn : |n| = 2 ^ p := by
          rw [habs, pow_add] at hge
          have := le_of_mul_le_mul_right hge (by positivity)
          have : (2 : Int) ^ p ≤ |n| := by exact_mod_cast this
          omega
        have hl : Int.log 2 |(n : Rat) * 2 ^ e| = (p : Int) + e := by
          rw [habs, hnn]
          have : (((2 ^ p : Int) : Rat) * 2 ^ e) = ((2 : Nat) : Rat) ^ ((p : Int) + e) := by
            rw [← Int.natCast_add, zpow_natCast, pow_add]; push_cast; rfl
          rw [this]; exact Int.log_zpow (by norm_num) _
        have hu2 : ulpExp p emin ((n : Rat) * 2 ^ e) = e + 1 := by omega
        rcases abs_choice n with hs | hs
        · apply nearest_grid (2 ^ (p - 1))
          rw [hu2]
          have : (n : Rat) = 2 ^ p := by rw [hs] at hnn; exact_mod_cast hnn
          rw [this]
          push_cast
          rw [← zpow_natCast (2 : Rat) (p - 1), ← zpow_natCast, ← zpow_natCast, ← zpow_add₀ (by norm_num), ← zpow_add₀ (by norm_num)]
          congr 1; omega
        · apply nearest_grid (-2 ^ (p - 1))
          rw [hu2]
          have : (n : Rat) = -2 ^ p := by
            rw [hs] at hnn
            have : n = -2 ^ p := by omega
            exact_mod_cast this
          rw [this]
          push_cast
          rw [neg_mul, neg_mul]
          rw [← zpow_natCast (2 : Rat) (p - 1), ← zpow_natCast, ← zpow_natCast, ← zpow_add₀ (by norm_num), ← zpow_add₀ (by norm_num)]
          congr 2; omega
    simp only [ieee, hgrid]
    rw [if_neg (by push Not; exact ⟨hlt, hlt⟩)]
  large := by
    intro x h
    simp only [ieee]
    rw [if_pos (Or.inl h)]
  above := by
    intro x e h
    simp only [ieee]
    split
    · exact Or.inl rfl
    · right
      refine ⟨_, rfl, ?_⟩
      have hx : 0 ≤ x := le_trans (by positivity) h
      obtain ⟨m, h1, h2⟩ := pow_grid (p := p) (emin := emin) (e := e) hp (x := x) (by rwa [abs_of_nonneg hx])
      rw [abs_of_nonneg hx] at h2
      exact le_trans h1 ((nearest_mono_grid m).1 h2)
  below := by
    intro x e h
    simp only [ieee]
    split
    · exact Or.inl rfl
    · right
      refine ⟨_, rfl, ?_⟩
      have hp2 : (0 : Rat) < 2 ^ e := by positivity
      have hx : x ≤ 0 := by linarith
      obtain ⟨m, h1, h2⟩ := pow_grid (p := p) (emin := emin) (e := e) hp (x := x) (by rw [abs_of_nonpos hx]; linarith)
      rw [abs_of_nonpos hx] at h2
      have := (nearest_mono_grid (p := p) (emin := emin) (x := x) (-m)).2 (by push_cast; linarith)
      push_cast at this
      linarith

end Verif.Streams
