import Verif.Chrono.Promoted
import Verif.Chrono.TimePoint

/-!
# C88: clocks whose counter wraps

The ports' clocks read a free-running hardware or kernel counter of a fixed width.  The environment is the true number
`t` of ticks since the counter started; the counter shows `t` reduced to the width of the clock's representation.
-/
namespace Verif.Chrono.Clocks

open Verif.Chrono

/-! ## The model -/

/-- the nested types `rep` and `period` of a clock -/
structure Clock where
  rep : Rep
  period : Ratio
  deriving DecidableEq, Repr

/-- `arduino_clock`, port/arduino/chrono.h:9-30: `unsigned long` milliseconds (`ulBits` bits) -/
def arduinoClock (ulBits : Nat) : Clock := ⟨⟨ulBits, false⟩, ⟨1, 1000⟩⟩

/-- `freertos_clock`, port/freertos/chrono.h:30-48: `TickType_t` (`tickBits` bits) ticks of 1/`configTICK_RATE_HZ` s -/
def freertosClock (tickBits : Nat) (hz : Int) : Clock := ⟨⟨tickBits, false⟩, ⟨1, hz⟩⟩

/-- `pico_clock`, port/rpi/pico/chrono.h:27-45, and `esp_rtc_clock`, port/esp-idf/chrono.h:13-21, 36-44: 64-bit microseconds -/
def microClock : Clock := ⟨⟨64, false⟩, ⟨1, 1000000⟩⟩

/-- `now()`, port/arduino/chrono.h:26-29 (`millis()`), port/freertos/chrono.h:44-47 (`xTaskGetTickCount()`): the
counter after `t` ticks, as a time point. -/
def now (k : Clock) (t : Nat) : Dur := ⟨k.rep, k.period, k.rep.cast t⟩

/-- the caller's `Clock::now() - start`, operators.hpp:107-113, with `start` read at tick `a` and `now` at tick `b` -/
def elapsed (k : Clock) (a b : Nat) : Option Dur := tpDiff (now k b) (now k a)

/-- the caller's loop `while(!(Clock::now() - start >= d));`: `ts` are the ticks at which it polls.  The answer is the
tick at which the loop is left, if it is. -/
def waitElapsed (k : Clock) (a : Nat) (d : Dur) : List Nat → Option (Option Nat)
  | [] => some none
  | b :: bs =>
    match (elapsed k a b).bind (·.ge d) with
    | none => none
    | some true => some (some b)
    | some false => waitElapsed k a d bs

/-- the caller's loop `while(!(Clock::now() >= deadline));` -/
def waitUntil (k : Clock) (deadline : Dur) : List Nat → Option (Option Nat)
  | [] => some none
  | b :: bs =>
    match tpGe (now k b) deadline with
    | none => none
    | some true => some (some b)
    | some false => waitUntil k deadline bs

/-- the same with `deadline = start + d`, time_point.h:101-106 -/
def waitDeadline (k : Clock) (a : Nat) (d : Dur) (ts : List Nat) : Option (Option Nat) :=
  match tpAdd (now k a) d with
  | none => none
  | some dl => waitUntil k dl ts

/-! ## Specification -/

/-- the clocks of the ports: an unsigned counter of at most 64 bits and a positive period -/
structure Spec.Proper (k : Clock) : Prop where
  unsigned : k.rep.signed = false
  bits : 0 < k.rep.bits
  max : k.rep.bits ≤ 64
  pos : k.period.Pos

/-- the polls go on from tick `a` without a pause longer than `gap` ticks -/
def Spec.Polls (a gap : Nat) : List Nat → Prop
  | [] => True
  | b :: bs => a ≤ b ∧ b ≤ a + gap ∧ Spec.Polls b gap bs

/-- `n` ticks of the clock -/
def Spec.ticks (k : Clock) (n : Nat) : Dur := ⟨k.rep, k.period, n⟩

theorem arduino_proper (b : Nat) (h : 0 < b) (h' : b ≤ 64) : Spec.Proper (arduinoClock b) :=
  ⟨rfl, h, h', ⟨Int.one_pos, by show (0 : Int) < 1000; decide⟩⟩
theorem freertos_proper (b : Nat) (hz : Int) (h : 0 < b) (h' : b ≤ 64) (hh : 0 < hz) : Spec.Proper (freertosClock b hz) :=
  ⟨rfl, h, h', ⟨Int.one_pos, hh⟩⟩
theorem micro_proper : Spec.Proper microClock := ⟨rfl, by decide, by decide, ⟨by decide, by decide⟩⟩

/-! ## Lemmas -/

theorem unsigned_range {r : Rep} (h : r.signed = false) (x : Int) : r.inRange x ↔ 0 ≤ x ∧ x < 2 ^ r.bits := by
  unfold Rep.inRange; rw [h]; simp

theorem unsigned_cast {r : Rep} (h : r.signed = false) (x : Int) : r.cast x = x % 2 ^ r.bits := by
  unfold Rep.cast; rw [h]; simp

theorem two_pow_cast (b : Nat) : ((2 ^ b : Nat) : Int) = 2 ^ b := by simp

theorem two_pow_pos' (b : Nat) : (0 : Int) < 2 ^ b := by
  rw [← two_pow_cast]; exact_mod_cast Nat.two_pow_pos b

theorem now_count {k : Clock} (hk : Spec.Proper k) (t : Nat) : (now k t).count = ((t % 2 ^ k.rep.bits : Nat) : Int) := by
  show k.rep.cast t = _
  rw [unsigned_cast hk.unsigned]; push_cast; rfl

theorem divide_self {p : Ratio} (h : p.Pos) : ratioDivide p p = ⟨1, 1⟩ :=
  divide_multiple h h (by rw [Int.one_mul, Int.mul_comm])

/-- converting to the type it already has changes nothing, also for 64-bit unsigned counts -/
theorem convert_self {k : Clock} (hk : Spec.Proper k) (x : Int) (h : k.rep.inRange x) :
    (Dur.mk k.rep k.period x).convert k.rep k.period = some ⟨k.rep, k.period, x⟩ := by
  have hx := (unsigned_range hk.unsigned x).1 h
  have hc : k.rep.cast x = x := cast_eq hk.bits h
  unfold Dur.convert Dur.scale
  simp only [divide_self hk.pos, condType, if_true, hc, Int.mul_one, Int.tdiv_one, Int.ediv_one]
  by_cases h64 : k.rep = ⟨64, false⟩
  · rw [if_pos h64]
    have e : k.rep.bits = 64 := by rw [h64]
    rw [e] at hx
    rw [Int.emod_eq_of_lt hx.1 hx.2]
    simp [hc]
  · rw [if_neg h64]
    have hb : k.rep.bits ≤ 63 := by
      have := hk.max
      by_cases e : k.rep.bits = 64
      · exfalso
        apply h64
        have := hk.unsigned
        cases hr : k.rep with
        | mk bb ss => rw [hr] at e this; simp_all
      · omega
    have hp : (2 : Int) ^ k.rep.bits ≤ 2 ^ 63 := pow_le hb
    rw [if_pos (show i64.inRange x from by
      show (if (true : Bool) = true then -(2 ^ (64 - 1)) ≤ x ∧ x < 2 ^ (64 - 1) else _)
      rw [if_pos rfl]; constructor <;> omega)]
    simp [hc]

theorem gcd_self {a : Int} (h : 0 < a) : gcd a a = a := by
  have := gcd_natAbs a a
  have := gcd_pos a a (by omega) (by omega) (by omega)
  simp at *
  omega

theorem commonPeriod_self {p : Ratio} (h : p.Pos) : commonPeriod p p = p := by
  unfold commonPeriod lcm
  rw [gcd_self h.1, gcd_self h.2, Int.mul_tdiv_cancel _ (by have := h.2; omega)]

theorem toCommon_self {k : Clock} (hk : Spec.Proper k) (x y : Int) (hx : k.rep.inRange x) (hy : k.rep.inRange y) :
    toCommon ⟨k.rep, k.period, x⟩ ⟨k.rep, k.period, y⟩ = some (⟨k.rep, k.period, x⟩, ⟨k.rep, k.period, y⟩) := by
  have hr : commonRep k.rep k.rep = k.rep := by
    unfold commonRep; rw [promoted_same _ _ rfl]; simp
  unfold toCommon
  simp only [hr, commonPeriod_self hk.pos, convert_self hk x hx, convert_self hk y hy]

theorem now_range {k : Clock} (hk : Spec.Proper k) (t : Nat) : k.rep.inRange (k.rep.cast t) := by
  rw [unsigned_range hk.unsigned, unsigned_cast hk.unsigned]
  exact ⟨Int.emod_nonneg _ (by have := two_pow_pos' k.rep.bits; omega), Int.emod_lt_of_pos _ (two_pow_pos' _)⟩

theorem arith_unsigned {r : Rep} (h : r.signed = false) (x : Int) : r.arith x = some (x % 2 ^ r.bits) := by
  unfold Rep.arith; rw [h]; simp [unsigned_cast h]

theorem ticks_range {k : Clock} (hk : Spec.Proper k) {n : Nat} (h : n < 2 ^ k.rep.bits) : k.rep.inRange n := by
  rw [unsigned_range hk.unsigned, ← two_pow_cast]
  exact ⟨by omega, by exact_mod_cast h⟩

/-! ## Elapsed time -/

/-- **C88.**  The difference of two readings of a clock is the number of ticks between them, for every pair of readings
less than a whole turn of the counter apart, whether or not the counter wrapped between them. -/
theorem elapsed_exact (k : Clock) (hk : Spec.Proper k) (a b : Nat) (hab : a ≤ b) (hd : b - a < 2 ^ k.rep.bits) :
    elapsed k a b = some (Spec.ticks k (b - a)) := by
  have hs : elapsed k a b = (k.rep.arith (k.rep.cast b - k.rep.cast a)).map fun c => ⟨k.rep, k.period, c⟩ := by
    show Dur.sub _ _ = _
    unfold Dur.sub
    show (match toCommon (now k b) (now k a) with | _ => _) = _
    rw [show toCommon (now k b) (now k a) = _ from toCommon_self hk _ _ (now_range hk b) (now_range hk a)]
  rw [hs, arith_unsigned hk.unsigned, unsigned_cast hk.unsigned, unsigned_cast hk.unsigned]
  have : ((b : Int) % 2 ^ k.rep.bits - (a : Int) % 2 ^ k.rep.bits) % 2 ^ k.rep.bits = ((b - a : Nat) : Int) := by
    rw [← Int.sub_emod, ← Int.ofNat_sub hab, ← two_pow_cast]
    exact_mod_cast Nat.mod_eq_of_lt hd
  rw [this]
  rfl

-- 20 ticks across the wrap of the 32-bit millisecond counter, and of a 16-bit tick counter
example : elapsed (arduinoClock 32) 4294967290 4294967310 = some ⟨⟨32, false⟩, ⟨1, 1000⟩, 20⟩ ∧
    elapsed (freertosClock 16 100) 65530 65550 = some ⟨⟨16, false⟩, ⟨1, 100⟩, 20⟩ ∧
    (now (arduinoClock 32) 4294967310).count = 14 := by decide +kernel

/-- C88: readings a whole turn or more apart differ by the number of ticks less the whole turns. -/
theorem elapsed_turns (k : Clock) (hk : Spec.Proper k) (a b : Nat) (hab : a ≤ b) :
    elapsed k a b = some (Spec.ticks k ((b - a) % 2 ^ k.rep.bits)) := by
  have hp := Nat.two_pow_pos k.rep.bits
  have hm : k.rep.cast ((b : Nat) : Int) = k.rep.cast ((a + (b - a) % 2 ^ k.rep.bits : Nat) : Int) := by
    rw [unsigned_cast hk.unsigned, unsigned_cast hk.unsigned, ← two_pow_cast]
    have : b % 2 ^ k.rep.bits = (a + (b - a) % 2 ^ k.rep.bits) % 2 ^ k.rep.bits := by
      rw [Nat.add_mod_mod]; congr 1; omega
    exact_mod_cast this
  have e := elapsed_exact k hk a (a + (b - a) % 2 ^ k.rep.bits) (by omega)
    (by rw [Nat.add_sub_cancel_left]; exact Nat.mod_lt _ hp)
  rw [Nat.add_sub_cancel_left] at e
  rw [← e]
  unfold elapsed now
  rw [hm]

/-! ## Order of readings -/

/-- C88: a later reading compares less than an earlier one exactly when the counter shows less. -/
theorem reading_lt (k : Clock) (hk : Spec.Proper k) (a b : Nat) :
    tpLt (now k a) (now k b) = some (decide (a % 2 ^ k.rep.bits < b % 2 ^ k.rep.bits)) := by
  show Option.map _ (toCommon (now k a) (now k b)) = _
  rw [show toCommon (now k a) (now k b) = _ from toCommon_self hk _ _ (now_range hk a) (now_range hk b)]
  have h1 := now_count hk a
  have h2 := now_count hk b
  simp only [now] at h1 h2
  simp only [Option.map_some, h1, h2]
  norm_cast

/-- C88 (the part that holds): until the counter wraps, later readings never compare less than earlier ones. -/
theorem steady_partial (k : Clock) (hk : Spec.Proper k) (a b : Nat) (hab : a ≤ b) (hb : b < 2 ^ k.rep.bits) :
    tpLt (now k b) (now k a) = some false := by
  rw [reading_lt k hk, Nat.mod_eq_of_lt hb, Nat.mod_eq_of_lt (by omega)]
  simp; omega

/-- **Violation.**  The clocks declare `is_steady = true` (port/arduino/chrono.h:24, port/freertos/chrono.h:42), but
when the counter wraps `now()` goes back: every reading within a turn after `a` and past the wrap is less than the
reading at `a`. -/
theorem not_steady (k : Clock) (hk : Spec.Proper k) (a b : Nat) (ha : a < 2 ^ k.rep.bits) (hb : 2 ^ k.rep.bits ≤ b)
    (hba : b < 2 ^ k.rep.bits + a) : tpLt (now k b) (now k a) = some true := by
  rw [reading_lt k hk, Nat.mod_eq_of_lt ha]
  have : b % 2 ^ k.rep.bits = b - 2 ^ k.rep.bits := by
    rw [Nat.mod_eq_sub_mod hb, Nat.mod_eq_of_lt (by omega)]
  rw [this]
  simp; omega

example : tpLt (now (arduinoClock 32) 4294967296) (now (arduinoClock 32) 4294967295) = some true := by decide +kernel

/-! ## Waiting -/

theorem ge_ticks {k : Clock} (hk : Spec.Proper k) {m n : Nat} (hm : m < 2 ^ k.rep.bits) (hn : n < 2 ^ k.rep.bits) :
    (Spec.ticks k m).ge (Spec.ticks k n) = some (decide (n ≤ m)) := by
  show Option.map _ (Option.map _ (toCommon (Spec.ticks k m) (Spec.ticks k n))) = _
  rw [show toCommon (Spec.ticks k m) (Spec.ticks k n) = _ from
    toCommon_self hk _ _ (ticks_range hk hm) (ticks_range hk hn)]
  simp only [Option.map_some, Option.some.injEq]
  rw [Bool.eq_iff_iff]
  simp

/-- **C88.**  A loop that waits until the elapsed time is at least `n` ticks is left at the first poll that comes at
least `n` ticks after the start and not before, whenever it starts and however often the counter wraps, as long as two
polls are never more than a turn less `n` ticks apart. -/
theorem wait_elapsed (k : Clock) (hk : Spec.Proper k) (a n : Nat) (hn : n < 2 ^ k.rep.bits) (ts : List Nat)
    (hts : Spec.Polls a (2 ^ k.rep.bits - 1 - n) ts) :
    waitElapsed k a (Spec.ticks k n) ts = some (ts.find? fun b => decide (a + n ≤ b)) := by
  have key : ∀ (ts : List Nat) (p : Nat), a ≤ p → p ≤ a + n → Spec.Polls p (2 ^ k.rep.bits - 1 - n) ts →
      waitElapsed k a (Spec.ticks k n) ts = some (ts.find? fun b => decide (a + n ≤ b)) := by
    intro ts
    induction ts with
    | nil => intro p _ _ _; rfl
    | cons b bs ih =>
      intro p hap hpn hp
      obtain ⟨h1, h2, h3⟩ := hp
      unfold waitElapsed
      rw [elapsed_exact k hk a b (by omega) (by omega)]
      simp only [Option.bind_some]
      rw [ge_ticks hk (by omega) hn]
      by_cases hd : n ≤ b - a
      · rw [decide_eq_true hd]
        simp only
        rw [List.find?_cons_of_pos (by simp; omega)]
      · rw [decide_eq_false hd]
        simp only
        rw [List.find?_cons_of_neg (by simp; omega)]
        exact ih b (by omega) (by omega) h3
  exact key ts a (by omega) (by omega) hts

example : Spec.Polls 4294967290 (2 ^ 32 - 1 - 20) [4294967291, 4294967300, 4294967312] ∧
    waitElapsed (arduinoClock 32) 4294967290 (Spec.ticks (arduinoClock 32) 20) [4294967291, 4294967300, 4294967312] =
      some (some 4294967312) := by
  refine ⟨by simp [Spec.Polls], by decide +kernel⟩

theorem add_ticks {k : Clock} (hk : Spec.Proper k) (a : Nat) {n : Nat} (hn : n < 2 ^ k.rep.bits) :
    tpAdd (now k a) (Spec.ticks k n) = some (Spec.ticks k ((a + n) % 2 ^ k.rep.bits)) := by
  show (match (Spec.ticks k n).convert k.rep k.period with | some d' => (now k a).plusAssign d' | none => none) = _
  rw [show (Spec.ticks k n).convert k.rep k.period = _ from convert_self hk n (ticks_range hk hn)]
  show Option.map _ (k.rep.arith (k.rep.cast a + n)) = _
  rw [arith_unsigned hk.unsigned, unsigned_cast hk.unsigned]
  have : ((a : Int) % 2 ^ k.rep.bits + n) % 2 ^ k.rep.bits = (((a + n) % 2 ^ k.rep.bits : Nat) : Int) := by
    rw [Int.emod_add_emod]
    push_cast
    rfl
  rw [this]
  rfl

theorem wait_until {k : Clock} (hk : Spec.Proper k) {m : Nat} (hm : m < 2 ^ k.rep.bits) (ts : List Nat) :
    waitUntil k (Spec.ticks k m) ts = some (ts.find? fun b => decide (m ≤ b % 2 ^ k.rep.bits)) := by
  induction ts with
  | nil => rfl
  | cons b bs ih =>
    have e : now k b = Spec.ticks k (b % 2 ^ k.rep.bits) := by
      have := now_count hk b
      unfold now Spec.ticks at *
      simp only at this
      rw [this]
    unfold waitUntil tpGe
    rw [e, ge_ticks hk (Nat.mod_lt _ (Nat.two_pow_pos _)) hm]
    by_cases hd : m ≤ b % 2 ^ k.rep.bits
    · rw [decide_eq_true hd]
      simp only
      rw [List.find?_cons_of_pos (by simp [hd])]
    · rw [decide_eq_false hd]
      simp only
      rw [List.find?_cons_of_neg (by simp [hd]), ih]

/-- C88 (the part that holds): a loop that waits for the time point `start + d` is left at the first poll at or after
it, when the counter does not wrap before the wait is over. -/
theorem wait_deadline_partial (k : Clock) (hk : Spec.Proper k) (a n : Nat) (ts : List Nat)
    (han : a + n < 2 ^ k.rep.bits) (hts : ∀ b ∈ ts, b < 2 ^ k.rep.bits) :
    waitDeadline k a (Spec.ticks k n) ts = some (ts.find? fun b => decide (a + n ≤ b)) := by
  unfold waitDeadline
  rw [add_ticks hk a (by omega)]
  simp only
  rw [wait_until hk (Nat.mod_lt _ (Nat.two_pow_pos _)), Nat.mod_eq_of_lt han]
  congr 1
  induction ts with
  | nil => rfl
  | cons b bs ih =>
    have hb := hts b (by simp)
    rw [List.find?_cons, List.find?_cons, Nat.mod_eq_of_lt hb, ih fun c hc => hts c (by simp [hc])]

example : waitDeadline (freertosClock 16 100) 10 (Spec.ticks (freertosClock 16 100) 5) [11, 14, 17, 20] = some (some 17) := by
  decide +kernel

/-- **Violation.**  When the deadline `start + d` lies past the wrap, the loop is left at its very first poll, if that
comes before the wrap: the wait is over before it began. -/
theorem wait_deadline_ends_at_once (k : Clock) (hk : Spec.Proper k) (a n b : Nat) (ts : List Nat)
    (hn : n < 2 ^ k.rep.bits) (hw : 2 ^ k.rep.bits ≤ a + n) (hab : a ≤ b) (hb : b < 2 ^ k.rep.bits) :
    waitDeadline k a (Spec.ticks k n) (b :: ts) = some (some b) := by
  unfold waitDeadline
  rw [add_ticks hk a hn]
  simp only
  rw [wait_until hk (Nat.mod_lt _ (Nat.two_pow_pos _))]
  have : (a + n) % 2 ^ k.rep.bits = a + n - 2 ^ k.rep.bits := by
    rw [Nat.mod_eq_sub_mod hw, Nat.mod_eq_of_lt (by omega)]
  rw [List.find?_cons_of_pos (by rw [this, Nat.mod_eq_of_lt hb]; simp; omega)]

-- 10 seconds, started 5 seconds before the millisecond counter wraps, are over at once
example : waitDeadline (arduinoClock 32) 4294962296 (Spec.ticks (arduinoClock 32) 10000) [4294962296, 4294972296] =
    some (some 4294962296) := by decide +kernel

/-- **Violation.**  A loop waiting for a deadline within the last ticks before the wrap that does not poll between the
deadline and the wrap waits on for almost a whole turn: no poll of the next turn that reads less than the deadline ends
it. -/
theorem wait_deadline_misses (k : Clock) (hk : Spec.Proper k) (a n : Nat) (ts : List Nat) (han : a + n < 2 ^ k.rep.bits)
    (hts : ∀ b ∈ ts, b < a + n ∨ (2 ^ k.rep.bits ≤ b ∧ b < 2 ^ k.rep.bits + (a + n))) :
    waitDeadline k a (Spec.ticks k n) ts = some none := by
  unfold waitDeadline
  rw [add_ticks hk a (by omega)]
  simp only
  rw [wait_until hk (Nat.mod_lt _ (Nat.two_pow_pos _)), Nat.mod_eq_of_lt han]
  congr 1
  rw [List.find?_eq_none]
  intro b hb
  simp only [decide_eq_true_eq]
  rcases hts b hb with h | ⟨h1, h2⟩
  · rw [Nat.mod_eq_of_lt (by omega)]; omega
  · rw [Nat.mod_eq_sub_mod h1, Nat.mod_eq_of_lt (by omega)]; omega

example : waitDeadline (freertosClock 16 100) 65500 (Spec.ticks (freertosClock 16 100) 35) [65534, 65536, 100000, 131070] =
    some none := by decide +kernel

end Verif.Chrono.Clocks
