import Verif.Chrono.Duration

/-!
# C42: splitting a duration into hours, minutes, seconds and sub-seconds
-/
namespace Verif.Chrono

theorem arith_eq {r : Rep} {x : Int} (hb : 0 < r.bits) (hx : r.inRange x) : r.arith x = some x := by
  unfold Rep.arith
  split
  · rfl
  · rw [cast_eq hb hx]

theorem inRange_mono {r : Rep} {a x : Int} (h : r.inRange a) (h0 : 0 ≤ x) (hx : x ≤ a) : r.inRange x := by
  unfold Rep.inRange at h ⊢
  split
  · rw [if_pos ‹_›] at h; omega
  · rw [if_neg ‹_›] at h; omega

theorem promoted_u8 {r : Rep} (h : 8 ≤ r.digits) : promotedType r u8 = r := by
  unfold promotedType
  have h1 : r.digits ≥ u8.digits := h
  have h2 : ¬ r.digits < u8.digits := by omega
  simp only [if_pos h1, if_neg h2]
  simp [u8]

theorem promoted_self (r : Rep) : promotedType r r = r := by
  unfold promotedType
  simp only [ge_iff_le, Nat.le_refl, if_true, Nat.lt_irrefl, if_false]
  cases h : r.signed <;> simp [h]

theorem commonPeriod_coarse {D K : Int} (hD : 0 < D) (hK : 0 < K) : commonPeriod ⟨1, D⟩ ⟨K, 1⟩ = ⟨1, D⟩ := by
  have h1 : gcd 1 K = 1 := by
    have hp := gcd_pos 1 K (by omega) (by omega) (Or.inl (by omega))
    exact Int.le_antisymm (Int.le_of_dvd (by omega) (gcd_spec 1 K).1) hp
  have h2 : gcd D 1 = 1 := by
    have hp := gcd_pos D 1 (by omega) (by omega) (Or.inl (by omega))
    exact Int.le_antisymm (Int.le_of_dvd (by omega) (gcd_spec D 1).2.1) hp
  simp only [commonPeriod, lcm, h1, h2, Int.mul_one, Int.tdiv_one]

theorem to_coarse {rep r' : Rep} {D K A : Int} (hD : 0 < D) (hK : 0 < K) (hA : 0 ≤ A) (hI : i64.inRange A)
    (hb : 0 < rep.bits) (hr : rep.inRange A) :
    (Dur.mk rep ⟨1, D⟩ A).convert r' ⟨K, 1⟩ = some ⟨r', ⟨K, 1⟩, r'.cast (A / (K * D))⟩ := by
  have e := divide_multiple_inv (p := ⟨K, 1⟩) (q := ⟨1, D⟩) ⟨hK, Int.zero_lt_one⟩ ⟨Int.zero_lt_one, hD⟩ (k := K * D)
    (by simp)
  have := convert_eq ⟨rep, ⟨1, D⟩, A⟩ r' ⟨K, 1⟩ hr hb (fun _ => .inr hA) (by rw [e]; exact Int.zero_lt_one)
    (by rw [e]; simpa using hI)
  rw [this, e]
  simp only [Int.mul_one, Int.tdiv_eq_ediv_of_nonneg hA]

theorem sub_coarse {rep r' : Rep} {D K A h : Int} (hD : 0 < D) (hK : 0 < K) (hb : 0 < rep.bits)
    (hc : commonRep rep r' = rep) (hA : rep.inRange A) (hI : i64.inRange A) (h0 : 0 ≤ h) (hh : h * (K * D) ≤ A)
    (hA0 : 0 ≤ A) (hb' : 0 < r'.bits) (hr' : r'.inRange h) :
    (Dur.mk rep ⟨1, D⟩ A).sub ⟨r', ⟨K, 1⟩, h⟩ = some ⟨rep, ⟨1, D⟩, A - h * (K * D)⟩ := by
  have hx : 0 ≤ h * (K * D) := Int.mul_nonneg h0 (by have := Int.mul_pos hK hD; omega)
  unfold Dur.sub toCommon
  simp only [hc, commonPeriod_coarse hD hK]
  rw [convert_finer ⟨rep, ⟨1, D⟩, A⟩ rep ⟨1, D⟩ ⟨Int.zero_lt_one, hD⟩ ⟨Int.zero_lt_one, hD⟩ hb hA hb
      (fun _ => .inr hA0) 1 (by simp) (by simpa using hI) (by simpa using hA),
    convert_finer ⟨r', ⟨K, 1⟩, h⟩ rep ⟨1, D⟩ ⟨hK, Int.zero_lt_one⟩ ⟨Int.zero_lt_one, hD⟩ hb hr' hb'
      (fun _ => .inr h0) (K * D) (by simp)
      (inRange_mono hI hx hh) (inRange_mono hA hx hh)]
  simp only [Int.mul_one]
  rw [arith_eq hb (inRange_mono hA (by omega) (by omega))]
  rfl

/-- The durations `hh_mm_ss` is used with: period `1/D` seconds, a representation of at least 8 value bits, and a
representable count other than the most negative. -/
structure Splittable (v : Dur) (D : Int) : Prop where
  period : v.period = ⟨1, D⟩
  pos : 0 < D
  digits : 8 ≤ v.rep.digits
  inRep : v.rep.inRange v.count
  inI64 : i64.inRange v.count.natAbs
  notMin : v.rep.signed = true → v.count ≠ -(2 ^ (v.rep.bits - 1))

theorem Splittable.bits {v : Dur} {D : Int} (h : Splittable v D) : 0 < v.rep.bits := by
  have := h.digits; unfold Rep.digits at this; split at this <;> omega

theorem Splittable.absRange {v : Dur} {D : Int} (h : Splittable v D) : v.rep.inRange v.count.natAbs := by
  have h1 := h.inRep
  have h2 := h.notMin
  unfold Rep.inRange at h1 ⊢
  split
  · rw [if_pos ‹_›] at h1
    have := h2 ‹_›
    omega
  · rw [if_neg ‹_›] at h1; omega

theorem Splittable.abs {v : Dur} {D : Int} (h : Splittable v D) :
    v.abs = some ⟨v.rep, ⟨1, D⟩, v.count.natAbs⟩ := by
  rw [abs_spec v h.bits h.inRep h.notMin, h.period]

theorem u8_cast (x : Int) : u8.cast x = x % 256 := rfl

theorem u8_range (x : Int) : u8.inRange (x % 256) := by
  show 0 ≤ x % 256 ∧ x % 256 < 2 ^ 8
  omega

/-- what the accessors return for every splittable duration -/
theorem hh_mm_ss_values (v : Dur) (D : Int) (h : Splittable v D) :
    let T := (v.count.natAbs : Int) / D
    hours v = some ⟨u8, ⟨3600, 1⟩, T / 3600 % 256⟩ ∧
    minutes v = some ⟨u8, ⟨60, 1⟩, T / 60 % 60⟩ ∧
    seconds v = some ⟨v.rep, ⟨1, 1⟩, T - 60 * (T / 60 % 256)⟩ ∧
    subseconds v = some ⟨v.rep, ⟨1, D⟩, v.count.natAbs % D⟩ := by
  intro T
  have hD := h.pos
  obtain ⟨A, hA⟩ : ∃ A : Int, A = v.count.natAbs := ⟨_, rfl⟩
  have hA0 : 0 ≤ A := by omega
  have hAr := h.absRange
  have hAi := h.inI64
  have habs := h.abs
  rw [← hA] at hAr hAi habs
  have e : ∀ K : Int, 0 < K → A / (K * D) = T / K := by
    intro K hK
    rw [Int.mul_comm, ← Int.ediv_ediv_of_nonneg (by omega), hA]
  have hT0 : 0 ≤ T := Int.ediv_nonneg (by omega) (by omega)
  have hTA : T * D ≤ A := by rw [hA]; exact Int.ediv_mul_le _ (by omega)
  have hTA' : A < T * D + D := by
    have := Int.lt_ediv_add_one_mul_self A hD
    rw [Int.add_mul, Int.one_mul] at this
    show A < ((v.count.natAbs : Int) / D) * D + D
    rw [← hA]; exact this
  -- a multiple `x` of whole seconds below the total
  have le_of : ∀ x : Int, x ≤ T → x * D ≤ A := by
    intro x hx
    exact Int.le_trans (Int.mul_le_mul_of_nonneg_right hx (by omega)) hTA
  have sub_div : ∀ x : Int, (A - x * D) / D = T - x := by
    intro x
    rw [Int.sub_eq_add_neg, ← Int.neg_mul, Int.add_mul_ediv_right _ _ (by omega), hA]
    rfl
  have hu8 : commonRep v.rep u8 = v.rep := promoted_u8 h.digits
  have hours_eq : hours v = some ⟨u8, ⟨3600, 1⟩, T / 3600 % 256⟩ := by
    unfold hours
    simp only [habs]
    rw [to_coarse hD (by decide) hA0 hAi h.bits hAr, e _ (by decide), u8_cast]
  refine ⟨hours_eq, ?_, ?_, ?_⟩
  · unfold minutes
    rw [hours_eq]
    simp only [habs]
    have hx : T / 3600 % 256 * 3600 ≤ T := by omega
    have hle : T / 3600 % 256 * (3600 * D) ≤ A := by rw [← Int.mul_assoc]; exact le_of _ hx
    have h0 : 0 ≤ T / 3600 % 256 * (3600 * D) :=
      Int.mul_nonneg (by omega) (Int.mul_nonneg (by omega) (by omega))
    rw [sub_coarse hD (by decide) h.bits hu8 hAr hAi (by omega) hle hA0 (by decide) (u8_range _)]
    simp only []
    rw [to_coarse hD (by decide) (by omega) (inRange_mono hAi (by omega) (by omega)) h.bits
      (inRange_mono hAr (by omega) (by omega)), u8_cast]
    rw [Int.mul_comm 60 D, ← Int.ediv_ediv_of_nonneg (by omega), ← Int.mul_assoc, sub_div]
    congr 2
    omega
  · unfold seconds
    simp only [habs]
    rw [to_coarse hD (by decide) hA0 hAi h.bits hAr, e _ (by decide), u8_cast]
    have hx : T / 60 % 256 * 60 ≤ T := by omega
    have hle : T / 60 % 256 * (60 * D) ≤ A := by rw [← Int.mul_assoc]; exact le_of _ hx
    have h0 : 0 ≤ T / 60 % 256 * (60 * D) :=
      Int.mul_nonneg (by omega) (Int.mul_nonneg (by omega) (by omega))
    simp only []
    rw [sub_coarse hD (by decide) h.bits hu8 hAr hAi (by omega) hle hA0 (by decide) (u8_range _)]
    simp only []
    rw [to_coarse hD (by decide) (by omega) (inRange_mono hAi (by omega) (by omega)) h.bits
      (inRange_mono hAr (by omega) (by omega)), Int.one_mul,
      ← Int.mul_assoc, sub_div, Int.mul_comm 60, cast_eq h.bits]
    apply inRange_mono hAr (by omega)
    have : T ≤ A := by
      have : T * 1 ≤ T * D := Int.mul_le_mul_of_nonneg_left (by omega) hT0
      omega
    omega
  · unfold subseconds
    simp only [habs]
    rw [to_coarse hD (by decide) hA0 hAi h.bits hAr, e _ (by decide), Int.ediv_one]
    have hTle : T ≤ A := by
      have : T * 1 ≤ T * D := Int.mul_le_mul_of_nonneg_left (by omega) hT0
      omega
    rw [cast_eq h.bits (inRange_mono hAr hT0 hTle)]
    simp only []
    have hle : T * (1 * D) ≤ A := by rw [Int.one_mul]; exact hTA
    have h0 : 0 ≤ T * (1 * D) := by rw [Int.one_mul]; exact Int.mul_nonneg hT0 (by omega)
    rw [sub_coarse hD (by decide) h.bits (promoted_self _) hAr hAi hT0 hle hA0 h.bits
      (inRange_mono hAr hT0 hTle)]
    have em : (v.count.natAbs : Int) % D = A - T * (1 * D) := by
      rw [Int.emod_def, hA, Int.one_mul, Int.mul_comm D]
    simp only [h.period]
    rw [convert_finer ⟨v.rep, ⟨1, D⟩, A - T * (1 * D)⟩ v.rep ⟨1, D⟩ ⟨Int.zero_lt_one, hD⟩ ⟨Int.zero_lt_one, hD⟩ h.bits
      (inRange_mono hAr (show 0 ≤ A - T * (1 * D) by omega) (show A - T * (1 * D) ≤ A by omega)) h.bits
      (fun _ => .inr (show 0 ≤ A - T * (1 * D) by omega)) 1 (by simp)
      (by rw [Int.mul_one]; exact inRange_mono hAi (show 0 ≤ A - T * (1 * D) by omega) (show A - T * (1 * D) ≤ A by omega))
      (by rw [Int.mul_one]; exact inRange_mono hAr (show 0 ≤ A - T * (1 * D) by omega) (show A - T * (1 * D) ≤ A by omega))]
    simp only [Int.mul_one, em]

/-- C42, for durations shorter than 256 minutes: the four parts are in their canonical ranges, they add up to the
magnitude of the duration, and the sign is reported separately.

Missing: durations of 256 minutes and more, where the code is wrong (`hh_mm_ss_wrong`). -/
theorem hh_mm_ss_partial (v : Dur) (D : Int) (h : Splittable v D)
    (hlt : (v.count.natAbs : Int) < 256 * 60 * D) :
    ∃ hh mm ss sub : Int,
      hours v = some ⟨u8, ⟨3600, 1⟩, hh⟩ ∧ minutes v = some ⟨u8, ⟨60, 1⟩, mm⟩ ∧
      seconds v = some ⟨v.rep, ⟨1, 1⟩, ss⟩ ∧ subseconds v = some ⟨v.rep, ⟨1, D⟩, sub⟩ ∧
      0 ≤ hh ∧ 0 ≤ mm ∧ mm < 60 ∧ 0 ≤ ss ∧ ss < 60 ∧ 0 ≤ sub ∧ sub < D ∧
      ((hh * 60 + mm) * 60 + ss) * D + sub = v.count.natAbs ∧
      (isNegative v = true ↔ v.count < 0) := by
  obtain ⟨h1, h2, h3, h4⟩ := hh_mm_ss_values v D h
  have hD := h.pos
  refine ⟨_, _, _, _, h1, h2, h3, h4, ?_⟩
  have hm0 := Int.emod_nonneg (v.count.natAbs : Int) (show D ≠ 0 by omega)
  have hm1 := Int.emod_lt_of_pos (v.count.natAbs : Int) hD
  have hed := Int.mul_ediv_add_emod (v.count.natAbs : Int) D
  have hTlt : (v.count.natAbs : Int) / D < 256 * 60 := Int.ediv_lt_of_lt_mul hD hlt
  have hT0 : 0 ≤ (v.count.natAbs : Int) / D := Int.ediv_nonneg (by omega) (by omega)
  generalize (v.count.natAbs : Int) / D = T at *
  refine ⟨by omega, by omega, by omega, by omega, by omega, hm0, hm1, ?_, ?_⟩
  · rw [show (T / 3600 % 256 * 60 + T / 60 % 60) * 60 + (T - 60 * (T / 60 % 256)) = T by omega, Int.mul_comm T D]
    exact hed
  · unfold isNegative
    split
    · simp
    · rename_i hs
      have := h.inRep
      unfold Rep.inRange at this
      rw [if_neg hs] at this
      simp; omega

/-- 3:25:45.678, negated. -/
example : Splittable ⟨i64, ⟨1, 1000⟩, -12345678⟩ 1000 := by
  constructor <;> decide +kernel
example : hours ⟨i64, ⟨1, 1000⟩, -12345678⟩ = some ⟨u8, ⟨3600, 1⟩, 3⟩ ∧
    minutes ⟨i64, ⟨1, 1000⟩, -12345678⟩ = some ⟨u8, ⟨60, 1⟩, 25⟩ ∧
    seconds ⟨i64, ⟨1, 1000⟩, -12345678⟩ = some ⟨i64, ⟨1, 1⟩, 45⟩ ∧
    subseconds ⟨i64, ⟨1, 1000⟩, -12345678⟩ = some ⟨i64, ⟨1, 1000⟩, 678⟩ := by decide +kernel

/-- The code disagrees with C42 from 256 minutes on: `seconds()` subtracts a minute count that was truncated to
8 bits, so *every* duration of at least 256 minutes reports at least 15 360 seconds. -/
theorem hh_mm_ss_wrong (v : Dur) (D : Int) (h : Splittable v D) (hge : 256 * 60 * D ≤ v.count.natAbs) :
    ∃ s, seconds v = some ⟨v.rep, ⟨1, 1⟩, s⟩ ∧ 15360 ≤ s := by
  obtain ⟨-, -, h3, -⟩ := hh_mm_ss_values v D h
  refine ⟨_, h3, ?_⟩
  have hD := h.pos
  have : 256 * 60 ≤ (v.count.natAbs : Int) / D := Int.le_ediv_of_mul_le hD hge
  omega

/-- 5 hours: `seconds()` gives 15360. -/
example : Splittable ⟨i64, ⟨1, 1000⟩, 18000000⟩ 1000 ∧
    seconds ⟨i64, ⟨1, 1000⟩, 18000000⟩ = some ⟨i64, ⟨1, 1⟩, 15360⟩ := by
  refine ⟨?_, by decide +kernel⟩
  constructor <;> decide +kernel

/-- Hours, minutes and sub-seconds stay right for every duration below 256 hours. -/
theorem hours_minutes_subseconds (v : Dur) (D : Int) (h : Splittable v D)
    (hlt : (v.count.natAbs : Int) < 256 * 3600 * D) :
    ∃ hh mm sub s : Int,
      hours v = some ⟨u8, ⟨3600, 1⟩, hh⟩ ∧ minutes v = some ⟨u8, ⟨60, 1⟩, mm⟩ ∧
      subseconds v = some ⟨v.rep, ⟨1, D⟩, sub⟩ ∧
      0 ≤ mm ∧ mm < 60 ∧ 0 ≤ s ∧ s < 60 ∧ 0 ≤ sub ∧ sub < D ∧
      ((hh * 60 + mm) * 60 + s) * D + sub = v.count.natAbs := by
  obtain ⟨h1, h2, -, h4⟩ := hh_mm_ss_values v D h
  have hD := h.pos
  refine ⟨_, _, _, (v.count.natAbs : Int) / D % 60, h1, h2, h4, ?_⟩
  have hm0 := Int.emod_nonneg (v.count.natAbs : Int) (show D ≠ 0 by omega)
  have hm1 := Int.emod_lt_of_pos (v.count.natAbs : Int) hD
  have hed := Int.mul_ediv_add_emod (v.count.natAbs : Int) D
  have hTlt : (v.count.natAbs : Int) / D < 256 * 3600 := Int.ediv_lt_of_lt_mul hD hlt
  have hT0 : 0 ≤ (v.count.natAbs : Int) / D := Int.ediv_nonneg (by omega) (by omega)
  generalize (v.count.natAbs : Int) / D = T at *
  refine ⟨by omega, by omega, by omega, by omega, hm0, hm1, ?_⟩
  rw [show (T / 3600 % 256 * 60 + T / 60 % 60) * 60 + T % 60 = T by omega, Int.mul_comm T D]
  exact hed

end Verif.Chrono
