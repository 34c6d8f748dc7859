import Verif.Chrono.HhMmSs

/-!
# C54: time_point

A time point is the duration since its clock's epoch.
-/
namespace Verif.Chrono

/-! ## The model -/

/-- `duration::operator+=`, duration.h:78-82 -/
def Dur.plusAssign (t d : Dur) : Option Dur :=
  (t.rep.arith (t.count + d.count)).map fun c => { t with count := c }

/-- `duration::operator-=`, duration.h:85-89 -/
def Dur.minusAssign (t d : Dur) : Option Dur :=
  (t.rep.arith (t.count - d.count)).map fun c => { t with count := c }

/-- `time_point::operator+=` and `operator+`, time_point.h:88-92, 101-106.  The parameter has the time point's own
duration type, so any other duration is converted to it first (duration.h:59-62). -/
def tpAdd (t d : Dur) : Option Dur :=
  match d.convert t.rep t.period with
  | some d' => t.plusAssign d'
  | none => none

/-- `time_point::operator-=` and `operator-(duration)`, time_point.h:94-98, 109-114 -/
def tpSub (t d : Dur) : Option Dur :=
  match d.convert t.rep t.period with
  | some d' => t.minusAssign d'
  | none => none

/-- `operator-(time_point, time_point)`, operators.hpp:107-113 -/
def tpDiff (s t : Dur) : Option Dur := s.sub t
/-- `operator<`, operators.hpp:116-121 -/
def tpLt (s t : Dur) : Option Bool := s.lt t
/-- `operator>`, operators.hpp:124-129 -/
def tpGt (s t : Dur) : Option Bool := s.gt t
/-- `operator>=`, operators.hpp:131-136 -/
def tpGe (s t : Dur) : Option Bool := s.ge t
/-- `operator==`, operators.hpp:139-144 -/
def tpEq (s t : Dur) : Option Bool := s.eq t
/-- `operator!=`, operators.hpp:146-151 -/
def tpNe (s t : Dur) : Option Bool := s.ne t

/-! ## Histories -/

/-- a step of a history: a signed number of durations -/
inductive TpOp where
  | add (d : Dur)
  | sub (d : Dur)

/-- run a history of `+=` and `-=` -/
def tpRun : Dur → List TpOp → Option Dur
  | t, [] => some t
  | t, .add d :: ops => (tpAdd t d).bind (tpRun · ops)
  | t, .sub d :: ops => (tpSub t d).bind (tpRun · ops)

/-- Specification: a whole number of ticks of the time point's period, cross-multiplied: the operation moves the
time by `n` ticks, and the operand is representable in the time point's own duration type. -/
def Spec.Moves (t : Dur) (op : TpOp) (n : Int) : Prop :=
  match op with
  | .add d => d.count * (d.period.num * t.period.den) = n * (d.period.den * t.period.num) ∧ t.rep.inRange n
  | .sub d => d.count * (d.period.num * t.period.den) = -n * (d.period.den * t.period.num) ∧ t.rep.inRange (-n)

def TpOp.dur : TpOp → Dur
  | .add d => d
  | .sub d => d

/-- The operand is a value of its type whose conversion does not overflow; a negative one goes to a signed type. -/
structure Spec.Operand (t d : Dur) : Prop where
  pos : d.period.Pos
  bits : 0 < d.rep.bits
  inRep : d.rep.inRange d.count
  sign : d.rep.signed = true → t.rep.signed = true ∨ 0 ≤ d.count
  fits : i64.inRange (d.count * (ratioDivide d.period t.period).num)

/-- a whole number of target ticks converts exactly -/
theorem convert_whole (t d : Dur) (n : Int) (ht : t.period.Pos) (htb : 0 < t.rep.bits) (ho : Spec.Operand t d)
    (hn : d.count * (d.period.num * t.period.den) = n * (d.period.den * t.period.num)) (hr : t.rep.inRange n) :
    d.convert t.rep t.period = some ⟨t.rep, t.period, n⟩ := by
  obtain ⟨⟨g1, g2⟩, g3⟩ := divide_pos ho.pos ht
  have hB := Int.mul_pos ho.pos.2 ht.1
  have e : (d.count * (ratioDivide d.period t.period).num).tdiv (ratioDivide d.period t.period).den = n := by
    have : d.count * (ratioDivide d.period t.period).num = n * (ratioDivide d.period t.period).den := by
      apply Int.eq_of_mul_eq_mul_right (a := d.period.den * t.period.num) (by omega)
      rw [Int.mul_assoc, g3, ← Int.mul_assoc d.count, hn]
      simp only [Int.mul_assoc, Int.mul_left_comm, Int.mul_comm]
    rw [this, Int.mul_tdiv_cancel _ (by omega)]
  rw [convert_eq d t.rep t.period ho.inRep ho.bits ho.sign g1 ho.fits, e, cast_eq htb hr]

/-- **C54 over histories.**  After any sequence of additions and subtractions of durations, each a whole number
`ns i` of the time point's ticks, the time since the epoch has moved by exactly the sum, as long as every prefix is
representable. -/
theorem time_point_history_partial (t : Dur) (ops : List TpOp) (ns : List Int) (ht : t.period.Pos)
    (htb : 0 < t.rep.bits) (hlen : ns.length = ops.length)
    (hops : ∀ (i : Nat) op n, ops[i]? = some op → ns[i]? = some n →
      Spec.Operand t op.dur ∧ Spec.Moves t op n)
    (hfit : ∀ k, k ≤ ns.length → t.rep.inRange (t.count + (ns.take k).sum)) :
    tpRun t ops = some { t with count := t.count + ns.sum } := by
  induction ops generalizing t ns with
  | nil =>
    have : ns = [] := List.length_eq_zero_iff.mp hlen
    subst this
    simp [tpRun]
  | cons op ops ih =>
    obtain ⟨n, ns', rfl⟩ : ∃ n ns', ns = n :: ns' := by
      cases ns with
      | nil => simp at hlen
      | cons n ns' => exact ⟨n, ns', rfl⟩
    obtain ⟨h1, h2⟩ := hops 0 op n rfl rfl
    have hstep : (match op with | .add d => tpAdd t d | .sub d => tpSub t d) =
        some { t with count := t.count + n } := by
      have hsum : t.rep.inRange (t.count + n) := by simpa using hfit 1 (by simp)
      cases op with
      | add d =>
        simp only [tpAdd]
        rw [convert_whole t d n ht htb h1 h2.1 h2.2]
        simp only [Dur.plusAssign, arith_eq htb hsum, Option.map_some]
      | sub d =>
        simp only [tpSub]
        rw [convert_whole t d (-n) ht htb h1 h2.1 h2.2]
        simp only [Dur.minusAssign]
        rw [show t.count - -n = t.count + n by omega, arith_eq htb hsum, Option.map_some]
    have hrec := ih { t with count := t.count + n } ns' ht htb (by simpa using hlen)
      (fun i o m a b => by
        obtain ⟨k1, k2⟩ := hops (i + 1) o m (by simpa using a) (by simpa using b)
        refine ⟨⟨k1.pos, k1.bits, k1.inRep, k1.sign, k1.fits⟩, ?_⟩
        cases o <;> exact k2)
      (fun k hk => by
        have := hfit (k + 1) (by simp; omega)
        simpa [Int.add_assoc] using this)
    have hgo : tpRun t (op :: ops) = tpRun { t with count := t.count + n } ops := by
      cases op <;> simp only [tpRun] <;> simp only at hstep <;> rw [hstep] <;> rfl
    rw [hgo, hrec]
    simp [Int.add_assoc]

/-- 100 s, plus 2 minutes, minus 3000 ms, is 217 s. -/
example : tpRun ⟨i64, ⟨1, 1⟩, 100⟩ [.add ⟨⟨32, true⟩, ⟨60, 1⟩, 2⟩, .sub ⟨i64, ⟨1, 1000⟩, 3000⟩] =
    some ⟨i64, ⟨1, 1⟩, 217⟩ := by decide +kernel

/-- the hypotheses, concretely: an unsigned time point moved back by two minutes -/
example : Spec.Operand ⟨⟨32, false⟩, ⟨1, 1⟩, 200⟩ ⟨u8, ⟨60, 1⟩, 2⟩ ∧
    Spec.Moves ⟨⟨32, false⟩, ⟨1, 1⟩, 200⟩ (.sub ⟨u8, ⟨60, 1⟩, 2⟩) (-120) ∧
    tpRun ⟨⟨32, false⟩, ⟨1, 1⟩, 200⟩ [.sub ⟨u8, ⟨60, 1⟩, 2⟩] = some ⟨⟨32, false⟩, ⟨1, 1⟩, 80⟩ :=
  ⟨⟨⟨by decide, by decide⟩, by decide, by decide, by decide, by decide +kernel⟩, ⟨by decide, by decide⟩,
    by decide +kernel⟩

/-- C54: adding then subtracting the same duration is the identity, and the difference of the two time points is
the duration added. -/
theorem time_point_add_sub (t : Dur) (n : Int) (ht : t.period.Pos) (htb : 0 < t.rep.bits)
    (h1 : t.rep.inRange t.count) (h2 : t.rep.inRange n) (h3 : t.rep.inRange (t.count + n))
    (hI : i64.inRange t.count) (hI2 : i64.inRange n) (hI3 : i64.inRange (t.count + n)) :
    ∃ u, tpAdd t { t with count := n } = some u ∧ tpSub u { t with count := n } = some t ∧
      tpDiff u t = some { t with count := n } := by
  have hcv : ∀ x, t.rep.inRange x → i64.inRange x →
      (Dur.mk t.rep t.period x).convert t.rep t.period = some ⟨t.rep, t.period, x⟩ := by
    intro x hx hx'
    have := convert_finer ⟨t.rep, t.period, x⟩ t.rep t.period ht ht htb hx htb (fun h => .inl h) 1
      (by simp [Int.mul_comm]) (by simpa using hx') (by simpa using hx)
    simpa using this
  refine ⟨{ t with count := t.count + n }, ?_, ?_, ?_⟩
  · simp only [tpAdd, hcv n h2 hI2, Dur.plusAssign, arith_eq htb h3, Option.map_some]
  · simp only [tpSub, hcv n h2 hI2, Dur.minusAssign]
    rw [show t.count + n - n = t.count by omega, arith_eq htb h1, Option.map_some]
  · have hg : ∀ a : Int, 0 < a → gcd a a = a := by
      intro a ha
      have h := gcd_spec a a
      exact Int.le_antisymm (Int.le_of_dvd ha h.1) (Int.le_of_dvd (gcd_pos a a (by omega) (by omega) (.inl (by omega)))
        (h.2.2 a ⟨1, by simp⟩ ⟨1, by simp⟩))
    have hper : commonPeriod t.period t.period = t.period := by
      unfold commonPeriod lcm
      rw [hg _ ht.1, hg _ ht.2, Int.mul_tdiv_cancel _ (by have := ht.2; omega)]
    unfold tpDiff Dur.sub toCommon
    simp only [commonRep, promoted_self, hper, hcv _ h1 hI, hcv _ h3 hI3]
    rw [show t.count + n - t.count = n by omega, arith_eq htb h2, Option.map_some]

example : (tpAdd ⟨⟨32, true⟩, ⟨1, 1000⟩, 5⟩ ⟨⟨32, true⟩, ⟨1, 1000⟩, -7⟩) = some ⟨⟨32, true⟩, ⟨1, 1000⟩, -2⟩ := by
  decide +kernel

/-- C54: the comparisons of time points (of one clock, any duration types) agree with the exact times. -/
theorem time_point_compare (s t : Dur) (hs : s.period.Pos) (ht : t.period.Pos) (hf : Fits s t) :
    tpLt s t = some (decide (crossTime s t < crossTime t s)) ∧
    tpGt s t = some (decide (crossTime t s < crossTime s t)) ∧
    tpGe s t = some (decide (crossTime t s ≤ crossTime s t)) ∧
    tpEq s t = some (decide (crossTime s t = crossTime t s)) ∧
    tpNe s t = some (decide (crossTime s t ≠ crossTime t s)) := by
  obtain ⟨a, b, _, d, e, f⟩ := compare_exact s t hs ht hf
  exact ⟨a, b, d, e, f⟩

/-- C54: the difference of two time points is exact. -/
theorem time_point_diff (s t : Dur) (hs : s.period.Pos) (ht : t.period.Pos) (hf : Fits s t)
    (hr : (commonRep s.rep t.rep).inRange (exactTicks s (commonPeriod s.period t.period) -
      exactTicks t (commonPeriod s.period t.period))) :
    ∃ c, tpDiff s t = some ⟨commonRep s.rep t.rep, commonPeriod s.period t.period, c⟩ ∧
      c * ((commonPeriod s.period t.period).num * (s.period.den * t.period.den)) =
        (crossTime s t - crossTime t s) * (commonPeriod s.period t.period).den :=
  (add_sub_exact s t hs ht hf).2 hr

example : Fits ⟨i64, ⟨1, 1000⟩, 2500⟩ ⟨⟨32, true⟩, ⟨1, 1⟩, 2⟩ ∧
    tpDiff ⟨i64, ⟨1, 1000⟩, 2500⟩ ⟨⟨32, true⟩, ⟨1, 1⟩, 2⟩ = some ⟨i64, ⟨1, 1000⟩, 500⟩ := by decide +kernel

/-- **Violation.**  Adding a finer duration to a time point silently truncates it: `c` ticks of 1/K second, less than
a second, leave a time point in seconds where it was. -/
theorem time_point_add_truncates (t : Dur) (rep : Rep) (c K : Int) (hper : t.period = ⟨1, 1⟩) (htb : 0 < t.rep.bits)
    (hb : 0 < rep.bits) (h1 : t.rep.inRange t.count) (h0 : 0 ≤ c) (hc : c < K) (hr : rep.inRange c)
    (hI : i64.inRange c) : tpAdd t ⟨rep, ⟨1, K⟩, c⟩ = some t := by
  obtain ⟨r, p, n⟩ := t
  simp only at hper htb h1
  subst hper
  have hz : r.inRange 0 := by
    unfold Rep.inRange
    split
    · have := pow_le (show 0 ≤ r.bits - 1 by omega); omega
    · have := pow_le (show 0 ≤ r.bits by omega); omega
  have := to_coarse (rep := rep) (r' := r) (D := K) (K := 1) (A := c) (by omega) (by omega) h0 hI hb hr
  simp only [tpAdd, this, Int.one_mul, Int.ediv_eq_zero_of_lt h0 hc, cast_eq htb hz, Dur.plusAssign, Int.add_zero,
    arith_eq htb h1, Option.map_some]

/-- 10 s plus 999 ms, ten times over, is still 10 s. -/
example : tpRun ⟨i64, ⟨1, 1⟩, 10⟩ (List.replicate 10 (.add ⟨i64, ⟨1, 1000⟩, 999⟩)) = some ⟨i64, ⟨1, 1⟩, 10⟩ := by
  decide +kernel

end Verif.Chrono
