import Verif.Chrono.Props

/-!
# C41: duration conversion, comparison and addition
-/
namespace Verif.Chrono

/-! ## Arithmetic facts -/

theorem tdiv_cross {a b a' b' : Int} (hb : 0 < b) (hb' : 0 < b') (h : a * b' = a' * b) :
    a.tdiv b = a'.tdiv b' := by
  rw [← Int.mul_tdiv_mul_of_pos_left a b hb', h, Int.mul_comm b b', Int.mul_tdiv_mul_of_pos_left a' b' hb]

theorem cast_eq {r : Rep} {x : Int} (hb : 0 < r.bits) (h : r.inRange x) : r.cast x = x := by
  unfold Rep.inRange at h
  unfold Rep.cast
  split
  · rw [if_pos ‹_›] at h
    obtain ⟨n, hn⟩ : ∃ n, r.bits = n + 1 := ⟨r.bits - 1, by omega⟩
    rw [hn] at h ⊢
    simp only [Nat.add_sub_cancel] at h
    have e : (2 : Nat) ^ (n + 1) = 2 * 2 ^ n := by rw [Nat.pow_succ]; omega
    have e' : ((2 ^ n : Nat) : Int) = 2 ^ n := by push_cast; rfl
    apply Int.bmod_eq_of_le
    · rw [e]; omega
    · rw [e]; omega
  · rw [if_neg ‹_›] at h
    exact Int.emod_eq_of_lt h.1 h.2

/-- a period of positive length -/
def Ratio.Pos (r : Ratio) : Prop := 0 < r.num ∧ 0 < r.den

theorem divide_pos {p q : Ratio} (hp : p.Pos) (hq : q.Pos) :
    (ratioDivide p q).Pos ∧ (ratioDivide p q).num * (p.den * q.num) = (p.num * q.den) * (ratioDivide p q).den := by
  obtain ⟨h1, h2, _⟩ := ratio_divide_spec p q (by have := hp.2; omega) (by have := hq.1; omega)
  have h3 := (ratio_den_pos p q hp.2 hq.2 (by have := hp.1; omega) (by have := hq.1; omega)).2.2.2 hq.1
  refine ⟨⟨?_, h3⟩, h2⟩
  have hA : 0 < (p.num * q.den) * (ratioDivide p q).den := Int.mul_pos (Int.mul_pos hp.1 hq.2) h3
  rw [← h2] at hA
  exact Int.pos_of_mul_pos_left hA (by have := Int.mul_pos hp.2 hq.1; omega)

/-- when the source period is a whole number `k` of target periods, the conversion factor is `k / 1`. -/
theorem divide_multiple {p q : Ratio} (hp : p.Pos) (hq : q.Pos) {k : Int}
    (hk : p.num * q.den = k * (p.den * q.num)) : ratioDivide p q = ⟨k, 1⟩ := by
  obtain ⟨⟨hn, hd⟩, h2⟩ := divide_pos hp hq
  obtain ⟨_, _, h3⟩ := ratio_divide_spec p q (by have := hp.2; omega) (by have := hq.1; omega)
  have hB := Int.mul_pos hp.2 hq.1
  have h4 : (ratioDivide p q).num = k * (ratioDivide p q).den := by
    have : (ratioDivide p q).num * (p.den * q.num) = (k * (ratioDivide p q).den) * (p.den * q.num) := by
      rw [h2, hk, Int.mul_right_comm]
    exact Int.eq_of_mul_eq_mul_right (by omega) this
  rw [h4] at h3
  have h5 : (ratioDivide p q).den = 1 := by
    simp [Int.gcd, Int.natAbs_mul] at h3
    omega
  cases hr : ratioDivide p q with
  | mk n d => rw [hr] at h4 h5; simp only at h4 h5; subst h5; simp at h4; subst h4; rfl

/-- and in the other direction `1 / k`. -/
theorem divide_multiple_inv {p q : Ratio} (hp : p.Pos) (hq : q.Pos) {k : Int}
    (hk : p.num * q.den = k * (p.den * q.num)) : ratioDivide q p = ⟨1, k⟩ := by
  obtain ⟨⟨hn, hd⟩, h2⟩ := divide_pos hq hp
  obtain ⟨_, _, h3⟩ := ratio_divide_spec q p (by have := hq.2; omega) (by have := hp.1; omega)
  have hB := Int.mul_pos hp.2 hq.1
  have h4 : (ratioDivide q p).den = k * (ratioDivide q p).num := by
    have : (ratioDivide q p).den * (p.den * q.num) = (k * (ratioDivide q p).num) * (p.den * q.num) := by
      rw [Int.mul_right_comm, ← hk, Int.mul_comm _ (p.den * q.num), Int.mul_comm p.den q.num, ← h2,
        Int.mul_comm (ratioDivide q p).num, Int.mul_comm q.den]
    exact Int.eq_of_mul_eq_mul_right (by omega) this
  rw [h4] at h3
  have h5 : (ratioDivide q p).num = 1 := by
    simp [Int.gcd, Int.natAbs_mul] at h3
    omega
  cases hr : ratioDivide q p with
  | mk n d => rw [hr] at h4 h5; simp only at h4 h5; subst h5; simp at h4; subst h4; rfl

/-! ## Conversion -/

theorem pow_le {a b : Nat} (h : a ≤ b) : (2 : Int) ^ a ≤ 2 ^ b := by
  have : (2 : Nat) ^ a ≤ 2 ^ b := Nat.pow_le_pow_right (by omega) h
  exact_mod_cast this

/-- widening keeps a value representable -/
theorem inRange_widen {r s : Rep} {x : Int} (hx : s.inRange x)
    (h : (r.signed = s.signed ∧ s.bits ≤ r.bits) ∨ (r.signed = true ∧ s.signed = false ∧ s.bits < r.bits) ∨
      (r.signed = false ∧ s.signed = true ∧ 0 ≤ x ∧ s.bits ≤ r.bits)) : r.inRange x := by
  unfold Rep.inRange at *
  rcases h with ⟨h1, h2⟩ | ⟨h1, h2, h3⟩ | ⟨h1, h2, h3, h4⟩
  · rw [h1]
    split
    · rw [if_pos ‹_›] at hx
      have := pow_le (show s.bits - 1 ≤ r.bits - 1 by omega)
      omega
    · rw [if_neg ‹_›] at hx
      have := pow_le h2
      omega
  · rw [if_pos h1]
    rw [if_neg (by simp [h2])] at hx
    have := pow_le (show s.bits ≤ r.bits - 1 by omega)
    omega
  · rw [if_neg (by simp [h1])]
    rw [if_pos h2] at hx
    have := pow_le (show s.bits - 1 ≤ r.bits by omega)
    omega

/-- The common type holds the operand, unless a negative count meets an unsigned target. -/
theorem condType_inRange {r s : Rep} {x : Int} (hx : s.inRange x)
    (hs : s.signed = true → r.signed = true ∨ 0 ≤ x) : (condType r s).inRange x := by
  unfold condType
  split
  · subst_vars; exact hx
  · have hq : Rep.inRange (if s.bits < 32 then ⟨32, true⟩ else s) x ∧
        ((if s.bits < 32 then (⟨32, true⟩ : Rep) else s).signed = true → r.signed = true ∨ 0 ≤ x ) := by
      split
      · cases hsg : s.signed
        · exact ⟨inRange_widen hx (.inr (.inl ⟨rfl, hsg, by simpa using by omega⟩)), fun _ => by
            unfold Rep.inRange at hx; simp [hsg] at hx; exact .inr hx.1⟩
        · exact ⟨inRange_widen hx (.inl ⟨hsg.symm, by simpa using by omega⟩), fun _ => hs hsg⟩
      · exact ⟨hx, hs⟩
    unfold usualArith
    generalize (if s.bits < 32 then (⟨32, true⟩ : Rep) else s) = q at hq ⊢
    have hp : r.signed = true → (if r.bits < 32 then (⟨32, true⟩ : Rep) else r).signed = true := by
      intro h; split <;> simp [h]
    generalize (if r.bits < 32 then (⟨32, true⟩ : Rep) else r) = p at hp ⊢
    obtain ⟨hq1, hq2⟩ := hq
    simp only
    split
    · split
      · exact inRange_widen hq1 (.inl ⟨‹_›, ‹_›⟩)
      · exact hq1
    · split
      · split
        · exact hq1
        · refine inRange_widen hq1 (.inr (.inl ⟨‹_›, ?_, by omega⟩))
          cases hqs : q.signed <;> simp_all
      · split
        · cases hqs : q.signed
          · simp_all
          · rcases hq2 hqs with h | h
            · simp_all
            · exact inRange_widen hq1 (.inr (.inr ⟨by simp_all, hqs, h, ‹_›⟩))
        · exact hq1

theorem condType_bits {r s : Rep} (h : 0 < s.bits) : 0 < (condType r s).bits := by
  unfold condType
  split
  · subst_vars; exact h
  · unfold usualArith
    simp only
    repeat' split
    all_goals simp_all <;> omega

/-- A count that is representable in its own type and in the common type is converted by the rational factor. -/
theorem scale_eq (d : Dur) (rep : Rep) (q : Ratio) (hd : d.rep.inRange d.count) (hdb : 0 < d.rep.bits)
    (hs : d.rep.signed = true → rep.signed = true ∨ 0 ≤ d.count) (hn : 0 < (ratioDivide d.period q).num)
    (hI : i64.inRange (d.count * (ratioDivide d.period q).num)) :
    d.scale rep q = some ((d.count * (ratioDivide d.period q).num).tdiv (ratioDivide d.period q).den) := by
  have h1 := condType_inRange (r := rep) hd hs
  have h2 := cast_eq (condType_bits hdb) h1
  unfold Dur.scale
  simp only [h2]
  split
  · rename_i h
    rw [h] at h1
    unfold Rep.inRange at h1
    simp at h1
    have h3 : 0 ≤ d.count * (ratioDivide d.period q).num := Int.mul_nonneg h1.1 (by omega)
    rw [Int.emod_eq_of_lt h3 (by simp [i64, Rep.inRange] at hI; omega), Int.tdiv_eq_ediv_of_nonneg h3]
  · rfl

theorem convert_eq (d : Dur) (rep : Rep) (q : Ratio) (hd : d.rep.inRange d.count) (hdb : 0 < d.rep.bits)
    (hs : d.rep.signed = true → rep.signed = true ∨ 0 ≤ d.count) (hn : 0 < (ratioDivide d.period q).num)
    (hI : i64.inRange (d.count * (ratioDivide d.period q).num)) :
    d.convert rep q = some ⟨rep, q, rep.cast ((d.count * (ratioDivide d.period q).num).tdiv
      (ratioDivide d.period q).den)⟩ := by
  unfold Dur.convert
  rw [scale_eq d rep q hd hdb hs hn hI]
  rfl

/-- C41: converting truncates toward zero.  The result `r` has the sign of the original count, and `|r|` target ticks
are at most the original time while `|r| + 1` are more; provided the 64-bit intermediate and the result fit. -/
theorem convert_truncates (d : Dur) (rep : Rep) (q : Ratio) (hp : d.period.Pos) (hq : q.Pos) (hb : 0 < rep.bits)
    (hd : d.rep.inRange d.count) (hdb : 0 < d.rep.bits) (hs : d.rep.signed = true → rep.signed = true ∨ 0 ≤ d.count)
    (hI : i64.inRange (d.count * (ratioDivide d.period q).num))
    (hR : rep.inRange ((d.count * (d.period.num * q.den)).tdiv (d.period.den * q.num))) :
    ∃ r : Int, d.convert rep q = some ⟨rep, q, r⟩ ∧
      (r.natAbs : Int) * (d.period.den * q.num) ≤ d.count.natAbs * (d.period.num * q.den) ∧
      (d.count.natAbs : Int) * (d.period.num * q.den) < (r.natAbs + 1) * (d.period.den * q.num) ∧
      (0 ≤ d.count → 0 ≤ r) ∧ (d.count ≤ 0 → r ≤ 0) := by
  obtain ⟨⟨hn, hdp⟩, h2⟩ := divide_pos hp hq
  have hB := Int.mul_pos hp.2 hq.1
  have hA := Int.mul_pos hp.1 hq.2
  have e : (d.count * (ratioDivide d.period q).num).tdiv (ratioDivide d.period q).den =
      (d.count * (d.period.num * q.den)).tdiv (d.period.den * q.num) := by
    apply tdiv_cross hdp hB
    rw [Int.mul_assoc, h2, ← Int.mul_assoc d.count]
  refine ⟨(d.count * (d.period.num * q.den)).tdiv (d.period.den * q.num), ?_, ?_, ?_, ?_, ?_⟩
  · rw [convert_eq d rep q hd hdb hs hn hI, e, cast_eq hb hR]
  · rw [Int.natAbs_tdiv, Int.natAbs_mul]
    have h1 : (d.period.den * q.num) = ((d.period.den * q.num).natAbs : Int) := by omega
    have h1' : (d.period.num * q.den) = ((d.period.num * q.den).natAbs : Int) := by omega
    conv => lhs; arg 2; rw [h1]
    conv => rhs; arg 2; rw [h1']
    exact_mod_cast Nat.div_mul_le_self _ _
  · rw [Int.natAbs_tdiv, Int.natAbs_mul]
    have h1 : (d.period.den * q.num) = ((d.period.den * q.num).natAbs : Int) := by omega
    have h1' : (d.period.num * q.den) = ((d.period.num * q.den).natAbs : Int) := by omega
    conv => rhs; arg 2; rw [h1]
    conv => lhs; arg 2; rw [h1']
    have := Nat.lt_div_mul_add (a := d.count.natAbs * (d.period.num * q.den).natAbs)
      (b := (d.period.den * q.num).natAbs) (by omega)
    rw [Int.add_mul, Int.one_mul]
    exact_mod_cast this
  · intro h; exact Int.tdiv_nonneg (Int.mul_nonneg h (by omega)) (by omega)
  · intro h
    have := Int.tdiv_nonneg (a := (-d.count) * (d.period.num * q.den)) (b := d.period.den * q.num)
      (Int.mul_nonneg (by omega) (by omega)) (by omega)
    rw [Int.neg_mul, Int.neg_tdiv] at this
    omega

/-- **Violation.**  A negative count converted to an unsigned representation of the same width is reinterpreted
*before* it is divided: minus `c` ticks of 1/K second become (2^32 - c) / K seconds, although less than a second
truncates to the representable 0. -/
theorem convert_negative_unsigned (c K : Int) (hc : 0 < c) (hc' : c < 2 ^ 31) (hK : 0 < K) :
    (Dur.mk ⟨32, true⟩ ⟨1, K⟩ (-c)).convert ⟨32, false⟩ ⟨1, 1⟩ = some ⟨⟨32, false⟩, ⟨1, 1⟩, (2 ^ 32 - c) / K⟩ := by
  have e : ratioDivide ⟨1, K⟩ ⟨1, 1⟩ = ⟨1, K⟩ :=
    divide_multiple_inv (p := ⟨1, 1⟩) (q := ⟨1, K⟩) ⟨by decide, by decide⟩ ⟨Int.zero_lt_one, hK⟩ (k := K) (by simp)
  have hx : (⟨32, false⟩ : Rep).cast (-c) = 2 ^ 32 - c := by
    show -c % 2 ^ 32 = _
    omega
  unfold Dur.convert Dur.scale
  simp only [e, show condType ⟨32, false⟩ ⟨32, true⟩ = ⟨32, false⟩ from rfl, hx, Int.mul_one]
  rw [if_neg (by decide), if_pos (by simp [i64, Rep.inRange]; omega)]
  have h0 : 0 ≤ (2 ^ 32 - c) / K := Int.ediv_nonneg (by omega) (by omega)
  have h1 : (2 ^ 32 - c) / K ≤ 2 ^ 32 - c := Int.ediv_le_self _ (by omega)
  rw [Option.map_some, Int.tdiv_eq_ediv_of_nonneg (by omega), cast_eq (by decide) (by
    show 0 ≤ (2 ^ 32 - c) / K ∧ (2 ^ 32 - c) / K < 2 ^ 32
    omega)]

/-- minus one millisecond as unsigned seconds -/
example : (Dur.mk ⟨32, true⟩ ⟨1, 1000⟩ (-1)).convert ⟨32, false⟩ ⟨1, 1⟩ = some ⟨⟨32, false⟩, ⟨1, 1⟩, 4294967⟩ := by
  decide +kernel

/-- −1999 ms is −1 s: truncation, not floor. -/
example : (Dur.mk i64 ⟨1, 1000⟩ (-1999)).convert i64 ⟨1, 1⟩ = some ⟨i64, ⟨1, 1⟩, -1⟩ := by decide +kernel

/-- **Violation.**  Unsigned 64-bit counts are multiplied modulo 2^64 *before* they are divided: whenever the product
does not fit, the result is short by a multiple of 2^64 divided by the denominator, also when the result itself would
fit. -/
theorem convert_unsigned_wraps (c : Int) (p q : Ratio) (hp : p.Pos) (hq : q.Pos) (hc : 0 ≤ c) (hc' : c < 2 ^ 64)
    (h : 2 ^ 64 ≤ c * (ratioDivide p q).num) :
    ∃ r : Int, (Dur.mk ⟨64, false⟩ p c).convert ⟨64, false⟩ q = some ⟨⟨64, false⟩, q, r⟩ ∧
      r = (c * (ratioDivide p q).num) % 2 ^ 64 / (ratioDivide p q).den ∧
      r * (ratioDivide p q).den < c * (ratioDivide p q).num - (c * (ratioDivide p q).num) / 2 ^ 64 * 2 ^ 64 + 1 := by
  obtain ⟨⟨hn, hd⟩, -⟩ := divide_pos hp hq
  generalize hx : c * (ratioDivide p q).num = x at h
  have hm : 0 ≤ x % 2 ^ 64 ∧ x % 2 ^ 64 < 2 ^ 64 := ⟨Int.emod_nonneg _ (by decide), Int.emod_lt_of_pos _ (by decide)⟩
  have h1 : 0 ≤ x % 2 ^ 64 / (ratioDivide p q).den := Int.ediv_nonneg hm.1 (by omega)
  have h2 : x % 2 ^ 64 / (ratioDivide p q).den ≤ x % 2 ^ 64 := Int.ediv_le_self _ hm.1
  refine ⟨_, ?_, rfl, ?_⟩
  · have hcc : (⟨64, false⟩ : Rep).cast c = c := cast_eq (by decide) (by unfold Rep.inRange; simpa using ⟨hc, hc'⟩)
    unfold Dur.convert Dur.scale
    simp only [show condType ⟨64, false⟩ ⟨64, false⟩ = ⟨64, false⟩ from rfl, hcc, hx, if_true, Option.map_some]
    rw [cast_eq (by decide) (by
      unfold Rep.inRange
      simp only [Bool.false_eq_true, if_false]
      exact ⟨h1, Int.lt_of_le_of_lt h2 hm.2⟩)]
  · have := Int.ediv_mul_le (x % 2 ^ 64) (b := (ratioDivide p q).den) (by omega)
    omega

/-- 2^63 ticks of 3/2 seconds are 2^62 seconds, not 3 * 2^62 -/
example : (Dur.mk ⟨64, false⟩ ⟨3, 2⟩ (2 ^ 63)).convert ⟨64, false⟩ ⟨1, 1⟩ = some ⟨⟨64, false⟩, ⟨1, 1⟩, 2 ^ 62⟩ := by
  decide +kernel

/-- C41: conversion to a period that divides the original one is exact. -/
theorem convert_finer (d : Dur) (rep : Rep) (q : Ratio) (hp : d.period.Pos) (hq : q.Pos) (hb : 0 < rep.bits)
    (hd : d.rep.inRange d.count) (hdb : 0 < d.rep.bits) (hs : d.rep.signed = true → rep.signed = true ∨ 0 ≤ d.count)
    (k : Int) (hk : d.period.num * q.den = k * (d.period.den * q.num))
    (hI : i64.inRange (d.count * k)) (hR : rep.inRange (d.count * k)) :
    d.convert rep q = some ⟨rep, q, d.count * k⟩ := by
  have hn := (divide_pos hp hq).1.1
  have e := divide_multiple hp hq hk
  have := convert_eq d rep q hd hdb hs hn (by rw [e]; exact hI)
  rw [this, e, Int.tdiv_one, cast_eq hb hR]

/-- C41: converting to a finer period and back is the identity. -/
theorem convert_round_trip (d : Dur) (rep : Rep) (q : Ratio) (hp : d.period.Pos) (hq : q.Pos) (hb : 0 < rep.bits)
    (hb' : 0 < d.rep.bits) (hs : d.rep.signed = true → rep.signed = true ∨ 0 ≤ d.count)
    (k : Int) (hk : d.period.num * q.den = k * (d.period.den * q.num))
    (hI : i64.inRange (d.count * k)) (hR : rep.inRange (d.count * k)) (hd : d.rep.inRange d.count) :
    ∃ f, d.convert rep q = some f ∧ f.convert d.rep d.period = some d := by
  refine ⟨_, convert_finer d rep q hp hq hb hd hb' hs k hk hI hR, ?_⟩
  have hkpos : 0 < k := by
    have hA := Int.mul_pos hp.1 hq.2
    rw [hk] at hA
    exact Int.pos_of_mul_pos_left hA (by have := Int.mul_pos hp.2 hq.1; omega)
  have e := divide_multiple_inv hp hq hk
  have hsgn : rep.signed = true → d.rep.signed = true ∨ 0 ≤ d.count * k := by
    intro _
    cases h : d.rep.signed
    · unfold Rep.inRange at hd
      simp [h] at hd
      exact .inr (Int.mul_nonneg hd.1 (by omega))
    · exact .inl rfl
  have := convert_eq ⟨rep, q, d.count * k⟩ d.rep d.period hR hb hsgn (by rw [e]; exact Int.zero_lt_one)
    (by rw [e]; simpa using hI)
  rw [this, e]
  simp only [Int.mul_one, Int.mul_tdiv_cancel _ (show k ≠ 0 by omega), cast_eq hb' hd]

example : ((Dur.mk ⟨32, true⟩ ⟨60, 1⟩ 7).convert i64 ⟨1, 1000⟩).bind (·.convert ⟨32, true⟩ ⟨60, 1⟩) =
    some (Dur.mk ⟨32, true⟩ ⟨60, 1⟩ 7) := by decide +kernel

/-! ## The common type -/

/-- The exact number of ticks of period `q` in `d` (used with periods where it is whole). -/
def exactTicks (d : Dur) (q : Ratio) : Int := d.count * (d.period.num * q.den) / (d.period.den * q.num)

/-- Both counts are values of their own types and fit the representation of the common type. -/
def Fits (a b : Dur) : Prop :=
  let r := commonRep a.rep b.rep
  let q := commonPeriod a.period b.period
  0 < r.bits ∧ 0 < a.rep.bits ∧ 0 < b.rep.bits ∧ a.rep.inRange a.count ∧ b.rep.inRange b.count ∧ r.inRange (exactTicks a q) ∧ r.inRange (exactTicks b q) ∧
    i64.inRange (exactTicks a q) ∧ i64.inRange (exactTicks b q)

instance (a b : Dur) : Decidable (Fits a b) := by unfold Fits; infer_instance

theorem common_pos {p q : Ratio} (hp : p.Pos) (hq : q.Pos) : (commonPeriod p q).Pos :=
  ⟨gcd_pos _ _ (by have := hp.1; omega) (by have := hq.1; omega) (Or.inl (by have := hp.1; omega)),
    lcm_pos _ _ hp.2 hq.2⟩

theorem common_multiple_left {p q : Ratio} (hp : p.Pos) (hq : q.Pos) :
    ∃ k, p.num * (commonPeriod p q).den = k * (p.den * (commonPeriod p q).num) := by
  obtain ⟨x, hx⟩ := (gcd_spec p.num q.num).1
  obtain ⟨y, hy⟩ := (lcm_spec p.den q.den (by have := hp.2; omega) (by have := hq.2; omega)).1
  refine ⟨x * y, ?_⟩
  show p.num * lcm p.den q.den = x * y * (p.den * gcd p.num q.num)
  rw [hy]
  conv => lhs; rw [hx]
  simp only [Int.mul_assoc, Int.mul_left_comm, Int.mul_comm]

theorem common_multiple_right {p q : Ratio} (hp : p.Pos) (hq : q.Pos) :
    ∃ k, q.num * (commonPeriod p q).den = k * (q.den * (commonPeriod p q).num) := by
  obtain ⟨x, hx⟩ := (gcd_spec p.num q.num).2.1
  obtain ⟨y, hy⟩ := (lcm_spec p.den q.den (by have := hp.2; omega) (by have := hq.2; omega)).2.1
  refine ⟨x * y, ?_⟩
  show q.num * lcm p.den q.den = x * y * (q.den * gcd p.num q.num)
  rw [hy]
  conv => lhs; rw [hx]
  simp only [Int.mul_assoc, Int.mul_left_comm, Int.mul_comm]

theorem exactTicks_eq {d : Dur} {q : Ratio} (hp : d.period.Pos) (hq : q.Pos) {k : Int}
    (hk : d.period.num * q.den = k * (d.period.den * q.num)) : exactTicks d q = d.count * k := by
  unfold exactTicks
  rw [hk, ← Int.mul_assoc]
  exact Int.mul_ediv_cancel _ (by have := Int.mul_pos hp.2 hq.1; omega)

/-- `exactTicks` really is the exact time: ticks × q = count × period, as fractions. -/
theorem exactTicks_common {a b : Dur} (ha : a.period.Pos) (hb : b.period.Pos) :
    let q := commonPeriod a.period b.period
    exactTicks a q * (a.period.den * q.num) = a.count * (a.period.num * q.den) ∧
    exactTicks b q * (b.period.den * q.num) = b.count * (b.period.num * q.den) := by
  intro q
  have hq := common_pos ha hb
  obtain ⟨k, hk⟩ := common_multiple_left ha hb
  obtain ⟨k', hk'⟩ := common_multiple_right ha hb
  constructor
  · rw [exactTicks_eq ha hq hk, Int.mul_assoc, ← hk]
  · rw [exactTicks_eq hb hq hk', Int.mul_assoc, ← hk']

theorem commonRep_signed {r s : Rep} :
    (r.signed = true → (commonRep r s).signed = true) ∧ (s.signed = true → (commonRep r s).signed = true) := by
  unfold commonRep promotedType Rep.promote Rep.makeSigned
  rcases r with ⟨rb, rs⟩
  rcases s with ⟨sb, ss⟩
  by_cases h : (Rep.digits ⟨rb, rs⟩) < (Rep.digits ⟨sb, ss⟩)
  · have h' : ¬ (Rep.digits ⟨sb, ss⟩) ≤ (Rep.digits ⟨rb, rs⟩) := by omega
    cases rs <;> cases ss <;> simp [h, h'] <;> split <;> simp
  · have h' : (Rep.digits ⟨sb, ss⟩) ≤ (Rep.digits ⟨rb, rs⟩) := by omega
    cases rs <;> cases ss <;> simp [h, h'] <;> split <;> simp

theorem toCommon_eq {a b : Dur} (ha : a.period.Pos) (hb : b.period.Pos) (hf : Fits a b) :
    toCommon a b = some (⟨commonRep a.rep b.rep, commonPeriod a.period b.period,
        exactTicks a (commonPeriod a.period b.period)⟩,
      ⟨commonRep a.rep b.rep, commonPeriod a.period b.period,
        exactTicks b (commonPeriod a.period b.period)⟩) := by
  have hq := common_pos ha hb
  obtain ⟨k, hk⟩ := common_multiple_left ha hb
  obtain ⟨k', hk'⟩ := common_multiple_right ha hb
  obtain ⟨h0, g1, g2, g3, g4, h1, h2, h3, h4⟩ := hf
  rw [exactTicks_eq ha hq hk] at h1 h3
  rw [exactTicks_eq hb hq hk'] at h2 h4
  unfold toCommon
  simp only [convert_finer a _ _ ha hq h0 g3 g1 (fun h => .inl (commonRep_signed.1 h)) k hk h3 h1,
    convert_finer b _ _ hb hq h0 g4 g2 (fun h => .inl (commonRep_signed.2 h)) k' hk' h4 h2,
    exactTicks_eq ha hq hk, exactTicks_eq hb hq hk']

/-- the time of `a` in units of `1 / (a.den * b.den)`, so that times of `a` and `b` are compared exactly -/
def crossTime (a b : Dur) : Int := a.count * a.period.num * b.period.den

theorem ticks_cross {a b : Dur} (ha : a.period.Pos) (hb : b.period.Pos) :
    let q := commonPeriod a.period b.period
    ∃ m n : Int, 0 < m ∧ 0 < n ∧ exactTicks a q * m = crossTime a b * n ∧ exactTicks b q * m = crossTime b a * n := by
  intro q
  have hq := common_pos ha hb
  obtain ⟨e1, e2⟩ := exactTicks_common ha hb
  refine ⟨q.num * (a.period.den * b.period.den), q.den, Int.mul_pos hq.1 (Int.mul_pos ha.2 hb.2), hq.2, ?_, ?_⟩
  · unfold crossTime
    rw [show exactTicks a q * (q.num * (a.period.den * b.period.den)) =
      (exactTicks a q * (a.period.den * q.num)) * b.period.den by
        simp only [Int.mul_assoc, Int.mul_left_comm, Int.mul_comm]]
    rw [e1]
    simp only [q, Int.mul_assoc, Int.mul_left_comm, Int.mul_comm]
  · unfold crossTime
    rw [show exactTicks b q * (q.num * (a.period.den * b.period.den)) =
      (exactTicks b q * (b.period.den * q.num)) * a.period.den by
        simp only [Int.mul_assoc, Int.mul_left_comm, Int.mul_comm]]
    rw [e2]
    simp only [q, Int.mul_assoc, Int.mul_left_comm, Int.mul_comm]

theorem lt_scaled {x y m : Int} (hm : 0 < m) : x * m < y * m ↔ x < y :=
  ⟨fun h => Int.lt_of_mul_lt_mul_right h (by omega), fun h => Int.mul_lt_mul_of_pos_right h hm⟩

theorem eq_scaled {x y m : Int} (hm : 0 < m) : x * m = y * m ↔ x = y :=
  ⟨fun h => Int.eq_of_mul_eq_mul_right (by omega) h, fun h => by rw [h]⟩

/-- C41: all six comparisons of durations of different periods and representations agree with comparing the exact
times `a.count * a.period` and `b.count * b.period` (cross-multiplied), whenever both fit the common type. -/
theorem compare_exact (a b : Dur) (ha : a.period.Pos) (hb : b.period.Pos) (hf : Fits a b) :
    a.lt b = some (decide (crossTime a b < crossTime b a)) ∧
    a.gt b = some (decide (crossTime b a < crossTime a b)) ∧
    a.le b = some (decide (crossTime a b ≤ crossTime b a)) ∧
    a.ge b = some (decide (crossTime b a ≤ crossTime a b)) ∧
    a.eq b = some (decide (crossTime a b = crossTime b a)) ∧
    a.ne b = some (decide (crossTime a b ≠ crossTime b a)) := by
  obtain ⟨m, n, hm, hn, e1, e2⟩ := ticks_cross ha hb
  have key : exactTicks a (commonPeriod a.period b.period) < exactTicks b (commonPeriod a.period b.period) ↔
      crossTime a b < crossTime b a := by
    rw [← lt_scaled hm, e1, e2, lt_scaled hn]
  have key2 : exactTicks b (commonPeriod a.period b.period) < exactTicks a (commonPeriod a.period b.period) ↔
      crossTime b a < crossTime a b := by
    rw [← lt_scaled hm, e1, e2, lt_scaled hn]
  have key3 : exactTicks a (commonPeriod a.period b.period) = exactTicks b (commonPeriod a.period b.period) ↔
      crossTime a b = crossTime b a := by
    rw [← eq_scaled hm, e1, e2, eq_scaled hn]
  unfold Dur.le Dur.ge Dur.lt Dur.gt Dur.eq Dur.ne
  rw [toCommon_eq ha hb hf]
  simp only [Option.map_some, gt_iff_lt, key, key2, key3, ne_eq, true_and, Option.some.injEq]
  refine ⟨?_, ?_⟩
  · rw [Bool.eq_iff_iff]; simp
  · rw [Bool.eq_iff_iff]; simp

/-- 90 minutes against 2 hours, 5 400 001 ms against 90 minutes. -/
example : (Dur.mk ⟨32, true⟩ ⟨60, 1⟩ 90).lt ⟨⟨32, true⟩, ⟨3600, 1⟩, 2⟩ = some true ∧
    (Dur.mk i64 ⟨1, 1000⟩ 5400001).gt ⟨⟨32, true⟩, ⟨60, 1⟩, 90⟩ = some true ∧
    Fits (Dur.mk i64 ⟨1, 1000⟩ 5400001) ⟨⟨32, true⟩, ⟨60, 1⟩, 90⟩ := by decide +kernel

/-- C41: addition and subtraction are exact: the result `c` has the common period `q`, and
`c * q = a.count * a.period ± b.count * b.period` (cross-multiplied). -/
theorem add_sub_exact (a b : Dur) (ha : a.period.Pos) (hb : b.period.Pos) (hf : Fits a b) :
    let q := commonPeriod a.period b.period
    let r := commonRep a.rep b.rep
    (r.inRange (exactTicks a q + exactTicks b q) →
      ∃ c, a.add b = some ⟨r, q, c⟩ ∧
        c * (q.num * (a.period.den * b.period.den)) = (crossTime a b + crossTime b a) * q.den) ∧
    (r.inRange (exactTicks a q - exactTicks b q) →
      ∃ c, a.sub b = some ⟨r, q, c⟩ ∧
        c * (q.num * (a.period.den * b.period.den)) = (crossTime a b - crossTime b a) * q.den) := by
  intro q r
  have hq := common_pos ha hb
  obtain ⟨e1, e2⟩ := exactTicks_common ha hb
  have f1 : exactTicks a q * (q.num * (a.period.den * b.period.den)) = crossTime a b * q.den := by
    unfold crossTime
    rw [show exactTicks a q * (q.num * (a.period.den * b.period.den)) =
      (exactTicks a q * (a.period.den * q.num)) * b.period.den by
        simp only [Int.mul_assoc, Int.mul_left_comm, Int.mul_comm]]
    rw [e1]
    simp only [q, Int.mul_assoc, Int.mul_left_comm, Int.mul_comm]
  have f2 : exactTicks b q * (q.num * (a.period.den * b.period.den)) = crossTime b a * q.den := by
    unfold crossTime
    rw [show exactTicks b q * (q.num * (a.period.den * b.period.den)) =
      (exactTicks b q * (b.period.den * q.num)) * a.period.den by
        simp only [Int.mul_assoc, Int.mul_left_comm, Int.mul_comm]]
    rw [e2]
    simp only [q, Int.mul_assoc, Int.mul_left_comm, Int.mul_comm]
  have harith : ∀ x, r.inRange x → r.arith x = some x := by
    intro x hx
    unfold Rep.arith
    split
    · rfl
    · rw [cast_eq hf.1 hx]
  constructor
  · intro hR
    refine ⟨exactTicks a q + exactTicks b q, ?_, by rw [Int.add_mul, f1, f2, Int.add_mul]⟩
    unfold Dur.add
    rw [toCommon_eq ha hb hf]
    simp only [harith _ hR, Option.map_some, q, r]
  · intro hR
    refine ⟨exactTicks a q - exactTicks b q, ?_, by rw [Int.sub_mul, f1, f2, Int.sub_mul]⟩
    unfold Dur.sub
    rw [toCommon_eq ha hb hf]
    simp only [harith _ hR, Option.map_some, q, r]

/-- The range hypothesis is needed: when the representation is a signed type of at least `int` width, a sum or difference
outside it has undefined behaviour; a narrower or unsigned one wraps. -/
theorem add_sub_overflow (a b : Dur) (ha : a.period.Pos) (hb : b.period.Pos) (hf : Fits a b) :
    let q := commonPeriod a.period b.period
    let r := commonRep a.rep b.rep
    let x := exactTicks a q
    let y := exactTicks b q
    (r.signed = true → 32 ≤ r.bits →
      (¬ r.inRange (x + y) → a.add b = none) ∧ (¬ r.inRange (x - y) → a.sub b = none)) ∧
    (r.signed = false ∨ r.bits < 32 →
      a.add b = some ⟨r, q, r.cast (x + y)⟩ ∧ a.sub b = some ⟨r, q, r.cast (x - y)⟩) := by
  intro q r x y
  refine ⟨fun hs hb32 => ⟨fun hn => ?_, fun hn => ?_⟩, fun hs => ?_⟩
  · unfold Dur.add
    rw [toCommon_eq ha hb hf]
    simp only [Rep.arith]
    rw [if_pos ⟨hs, hb32⟩, if_neg hn]; rfl
  · unfold Dur.sub
    rw [toCommon_eq ha hb hf]
    simp only [Rep.arith]
    rw [if_pos ⟨hs, hb32⟩, if_neg hn]; rfl
  · have hn : ¬ ((commonRep a.rep b.rep).signed = true ∧ 32 ≤ (commonRep a.rep b.rep).bits) := by
      rintro ⟨h1, h2⟩
      rcases hs with h | h
      · rw [h1] at h; cases h
      · exact absurd h2 (Nat.not_le.mpr h)
    constructor
    · unfold Dur.add
      rw [toCommon_eq ha hb hf]
      simp only [Rep.arith]
      rw [if_neg hn]; rfl
    · unfold Dur.sub
      rw [toCommon_eq ha hb hf]
      simp only [Rep.arith]
      rw [if_neg hn]; rfl

example : (Dur.mk ⟨32, true⟩ ⟨1, 1⟩ 2147483647).add ⟨⟨32, true⟩, ⟨1, 1⟩, 1⟩ = none ∧
    (Dur.mk ⟨16, true⟩ ⟨1, 1⟩ 32767).add ⟨⟨16, true⟩, ⟨1, 1⟩, 1⟩ = some ⟨⟨16, true⟩, ⟨1, 1⟩, -32768⟩ ∧
    (Dur.mk ⟨32, false⟩ ⟨1, 1⟩ 0).sub ⟨⟨32, false⟩, ⟨1, 1⟩, 1⟩ = some ⟨⟨32, false⟩, ⟨1, 1⟩, 4294967295⟩ := by
  decide +kernel

/-- 1/3 s + 1/4 s ticks: periods 1/3 and 1/4 have the common period 1/12. -/
example : (Dur.mk i64 ⟨1, 3⟩ 1).add ⟨i64, ⟨1, 4⟩, 1⟩ = some ⟨i64, ⟨1, 12⟩, 7⟩ := by decide +kernel

/-- **Violation.** Outside that range the comparison is wrong even though both durations are perfectly representable in their
own types: the common type keeps the narrow representation, so for counts of `w` bits the number of ticks is compared only
after it was wrapped to `w` bits.  Whenever it does wrap, and to something below the other count, the longer duration
compares *less*. -/
theorem compare_narrow_wrong (w : Nat) (m k c c' : Int) (hw : 0 < w) (hw' : w < 64) (hm : 0 < m) (hk : 0 < k) (hc : 0 ≤ c)
    (hcw : c < 2 ^ w) (hc' : 0 ≤ c') (hcw' : c' < 2 ^ w) (hfit : c * k < 2 ^ 63) :
    let a : Dur := ⟨⟨w, false⟩, ⟨k * m, 1⟩, c⟩
    let b : Dur := ⟨⟨w, false⟩, ⟨m, 1⟩, c'⟩
    a.lt b = some (decide (c * k % 2 ^ w < c')) ∧ (crossTime a b < crossTime b a ↔ c * k < c') := by
  intro a b
  have hkm : 0 < k * m := Int.mul_pos hk hm
  have hpa : a.period.Pos := ⟨hkm, Int.zero_lt_one⟩
  have hpb : b.period.Pos := ⟨hm, Int.zero_lt_one⟩
  have hg : gcd (k * m) m = m := by
    rw [gcd, dif_neg (by omega), Int.mul_tmod_left, gcd, dif_pos rfl]
  have hcp : commonPeriod a.period b.period = ⟨m, 1⟩ := by
    show (⟨gcd (k * m) m, lcm 1 1⟩ : Ratio) = _
    rw [hg]
    have : lcm 1 1 = 1 := by decide +kernel
    rw [this]
  have hcr : commonRep a.rep b.rep = ⟨w, false⟩ := by
    show promotedType ⟨w, false⟩ ⟨w, false⟩ = _
    simp [promotedType]
  have r1 : ratioDivide a.period ⟨m, 1⟩ = ⟨k, 1⟩ :=
    divide_multiple hpa hpb (k := k) (by show k * m * 1 = k * (1 * m); rw [Int.mul_one, Int.one_mul])
  have r2 : ratioDivide b.period ⟨m, 1⟩ = ⟨1, 1⟩ :=
    divide_multiple hpb hpb (k := 1) (by show m * 1 = 1 * (1 * m); rw [Int.mul_one, Int.one_mul, Int.one_mul])
  have hra : a.rep.inRange a.count := by
    show (if false = true then _ else 0 ≤ c ∧ c < 2 ^ w)
    rw [if_neg (by simp)]; exact ⟨hc, hcw⟩
  have hrb : b.rep.inRange b.count := by
    show (if false = true then _ else 0 ≤ c' ∧ c' < 2 ^ w)
    rw [if_neg (by simp)]; exact ⟨hc', hcw'⟩
  have hck : 0 ≤ c * k := Int.mul_nonneg hc (by omega)
  have e63 : (2 : Int) ^ 63 = 9223372036854775808 := by decide
  have hw63 : (2 : Int) ^ w ≤ 2 ^ 63 := pow_le (by omega)
  have hIa : i64.inRange (a.count * (ratioDivide a.period ⟨m, 1⟩).num) := by
    rw [r1]
    show (if true = true then -(2 ^ 63) ≤ c * k ∧ c * k < 2 ^ 63 else _)
    rw [if_pos rfl]; omega
  have hIb : i64.inRange (b.count * (ratioDivide b.period ⟨m, 1⟩).num) := by
    rw [r2]
    show (if true = true then -(2 ^ 63) ≤ c' * 1 ∧ c' * 1 < 2 ^ 63 else _)
    rw [if_pos rfl]; omega
  have ca := convert_eq a ⟨w, false⟩ ⟨m, 1⟩ hra hw (by intro h; cases h) (by rw [r1]; exact hk) hIa
  have cb := convert_eq b ⟨w, false⟩ ⟨m, 1⟩ hrb hw (by intro h; cases h) (by rw [r2]; decide) hIb
  constructor
  · unfold Dur.lt toCommon
    simp only [hcp, hcr, ca, cb, r1, r2, Int.tdiv_one, Int.mul_one, Option.map_some, Option.some.injEq, decide_eq_decide]
    show c * k % 2 ^ w < c' % 2 ^ w ↔ _
    rw [Int.emod_eq_of_lt hc' hcw']
  · show c * (k * m) * 1 < c' * m * 1 ↔ _
    rw [Int.mul_one, Int.mul_one, ← Int.mul_assoc]
    exact lt_scaled hm

/-- five hours compare *less* than fifty minutes when both counts are 8 bits wide -/
example :
    (Dur.mk u8 ⟨3600, 1⟩ 5).lt ⟨u8, ⟨60, 1⟩, 50⟩ = some true ∧
    ¬ Fits (Dur.mk u8 ⟨3600, 1⟩ 5) ⟨u8, ⟨60, 1⟩, 50⟩ ∧
    crossTime ⟨u8, ⟨60, 1⟩, 50⟩ ⟨u8, ⟨3600, 1⟩, 5⟩ < crossTime ⟨u8, ⟨3600, 1⟩, 5⟩ ⟨u8, ⟨60, 1⟩, 50⟩ := by
  decide +kernel

/-! ## abs -/

/-- `chrono::abs` gives the magnitude for every representable count other than the most negative one. -/
theorem abs_spec (d : Dur) (hb : 0 < d.rep.bits) (hd : d.rep.inRange d.count)
    (hmin : d.rep.signed = true → d.count ≠ -(2 ^ (d.rep.bits - 1))) :
    d.abs = some { d with count := d.count.natAbs } := by
  unfold Dur.abs
  cases hs : d.rep.signed with
  | false =>
    have : 0 ≤ d.count := by unfold Rep.inRange at hd; simp [hs] at hd; omega
    simp only [Bool.false_eq_true, if_false]
    cases d; simp_all; omega
  | true =>
    simp only [if_true]
    by_cases h : d.count ≥ 0
    · rw [if_pos h]; cases d; simp_all; omega
    · rw [if_neg h]
      have hm := hmin hs
      have hr : d.rep.inRange (-d.count) := by
        unfold Rep.inRange at hd ⊢
        simp only [hs, if_true] at hd ⊢
        omega
      have : d.rep.arith (-d.count) = some (-d.count) := by
        unfold Rep.arith
        split
        · rfl
        · rw [cast_eq hb hr]
      rw [this]
      simp only [Option.map_some]
      congr 2; omega

example : (Dur.mk ⟨16, true⟩ ⟨1, 1⟩ (-32767)).abs = some ⟨⟨16, true⟩, ⟨1, 1⟩, 32767⟩ := by decide +kernel

end Verif.Chrono
