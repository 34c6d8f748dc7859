import Verif.Chrono.Clocks
import Mathlib.Data.Rat.Floor
import Mathlib.Tactic.Linarith
import Mathlib.Tactic.FieldSimp
import Mathlib.Tactic.Ring
import Mathlib.Tactic.Positivity

/-!
# C88: sleeping

`this_thread::sleep_for` of the ports converts the duration to the port's clock and hands the tick count to the
platform.  The environment is real time in seconds, a rational number; what the platform does with a count is taken
from its documentation.
-/
namespace Verif.Chrono.Clocks

open Verif.Chrono

/-! ## The model -/

/-- the count handed to the platform: `duration_cast<Clock::duration>(d).count()`, port/arduino/thread.h:14-15,
port/freertos/thread.h:110-111; the implicit conversion to `pico_duration_us`, port/rpi/pico/chrono.h:73-75. -/
def sleepTicks (k : Clock) (d : Dur) : Option Int := (d.convert k.rep k.period).map (·.count)

/-- Arduino's `delay(n)`: returns `n` milliseconds after it was called at time `t`.  (Platform, by documentation.) -/
def delay (t : Rat) (n : Int) : Rat := t + n / 1000

/-- FreeRTOS `vTaskDelay(n)` with ticks every 1/`hz` s, called at time `t`: the task is made ready by the `n`-th tick
interrupt after the call; with 0 it is not delayed.  (Kernel, by documentation; time spent ready but not running is
not counted.) -/
def vTaskDelay (hz : Int) (t : Rat) (n : Int) : Rat := if n = 0 then t else ((⌊t * hz⌋ + n : Int) : Rat) / hz

/-- the pico SDK's `sleep_us(n)` (platform, by documentation) -/
def sleepUs (t : Rat) (n : Int) : Rat := t + n / 1000000

/-- `this_thread::sleep_for`, port/arduino/thread.h:10-18: the time at which the call made at `t` returns -/
def arduinoSleepFor (ulBits : Nat) (t : Rat) (d : Dur) : Option Rat :=
  (sleepTicks (arduinoClock ulBits) d).map (delay t)

/-- `this_thread::sleep_for`, port/freertos/thread.h:106-114 -/
def freertosSleepFor (tickBits : Nat) (hz : Int) (t : Rat) (d : Dur) : Option Rat :=
  (sleepTicks (freertosClock tickBits hz) d).map (vTaskDelay hz t)

/-- `this_core::sleep_for`, port/rpi/pico/chrono.h:73-76 -/
def picoSleepFor (t : Rat) (d : Dur) : Option Rat := (sleepTicks microClock d).map (sleepUs t)

/-- `this_core::sleep_until`, port/rpi/pico/chrono.h:79-85: the SDK's `sleep_until` a number of microseconds after
`nil_time`, the time at which the counter showed 0; it returns at once if that is past. -/
def picoSleepUntil (t : Rat) (tp : Dur) : Option Rat := (sleepTicks microClock tp).map fun n => max t (n / 1000000)

/-! ## Specification -/

/-- the length of a duration, or the time of a time point since the epoch, in seconds -/
def Spec.seconds (d : Dur) : Rat := d.count * d.period.num / d.period.den

/-- the length of a tick in seconds -/
def Spec.tick (k : Clock) : Rat := k.period.num / k.period.den

/-- a duration of zero or more whose conversion does not leave signed 64 bits -/
structure Spec.Sleepable (k : Clock) (d : Dur) : Prop where
  pos : d.period.Pos
  bits : 0 < d.rep.bits
  inRep : d.rep.inRange d.count
  nonneg : 0 ≤ d.count
  fits : i64.inRange (d.count * (ratioDivide d.period k.period).num)

/-! ## What reaches the platform -/

theorem tick_pos {k : Clock} (hk : k.period.Pos) : 0 < Spec.tick k := by
  have h1 : (0 : Rat) < k.period.num := by exact_mod_cast hk.1
  have h2 : (0 : Rat) < k.period.den := by exact_mod_cast hk.2
  exact div_pos h1 h2

theorem floor_int_div (a b : Int) (hb : 0 < b) : ⌊(a : Rat) / b⌋ = a / b := by
  rw [Int.floor_eq_iff]
  have hb' : (0 : Rat) < b := by exact_mod_cast hb
  have h1 := Int.mul_ediv_add_emod a b
  have h2 := Int.emod_nonneg a (show b ≠ 0 by omega)
  have h3 := Int.emod_lt_of_pos a hb
  constructor
  · rw [le_div_iff₀ hb']
    have : (a / b) * b ≤ a := by rw [Int.mul_comm]; omega
    exact_mod_cast this
  · rw [div_lt_iff₀ hb']
    have : a < (a / b + 1) * b := by rw [Int.add_mul, Int.mul_comm (a / b)]; omega
    exact_mod_cast this

/-- **C88.**  For every duration of zero or more the platform is given the number of whole ticks in it, reduced to the
width of the tick counter. -/
theorem sleep_ticks (k : Clock) (hk : Spec.Proper k) (d : Dur) (hd : Spec.Sleepable k d) :
    sleepTicks k d = some (⌊Spec.seconds d / Spec.tick k⌋ % 2 ^ k.rep.bits) := by
  obtain ⟨⟨g1, g2⟩, g3⟩ := divide_pos hd.pos hk.pos
  unfold sleepTicks
  rw [convert_eq d k.rep k.period hd.inRep hd.bits (fun _ => Or.inr hd.nonneg) g1 hd.fits]
  simp only [Option.map_some, Option.some.injEq]
  rw [unsigned_cast hk.unsigned, Int.tdiv_eq_ediv_of_nonneg (Int.mul_nonneg hd.nonneg (by omega))]
  congr 1
  have e : Spec.seconds d / Spec.tick k =
      ((d.count * (ratioDivide d.period k.period).num : Int) : Rat) / ((ratioDivide d.period k.period).den : Int) := by
    have p1 : (0 : Rat) < d.period.den := by exact_mod_cast hd.pos.2
    have p2 : (0 : Rat) < k.period.num := by exact_mod_cast hk.pos.1
    have p3 : (0 : Rat) < k.period.den := by exact_mod_cast hk.pos.2
    have p4 : (0 : Rat) < (ratioDivide d.period k.period).den := by exact_mod_cast g2
    have g3' : ((ratioDivide d.period k.period).num : Rat) * (d.period.den * k.period.num) =
        (d.period.num * k.period.den) * (ratioDivide d.period k.period).den := by exact_mod_cast g3
    unfold Spec.seconds Spec.tick
    push_cast
    rw [div_div_div_eq, div_eq_div_iff (by positivity) (by positivity)]
    rw [mul_assoc, mul_assoc, mul_assoc, ← mul_assoc (d.period.num : Rat), ← g3']
  rw [e, floor_int_div _ _ g2]

example : Spec.Sleepable (arduinoClock 32) ⟨⟨64, true⟩, ⟨1, 1000000⟩, 2500⟩ ∧
    sleepTicks (arduinoClock 32) ⟨⟨64, true⟩, ⟨1, 1000000⟩, 2500⟩ = some 2 := by
  refine ⟨⟨⟨by decide, by decide⟩, by decide, by decide +kernel, by decide, by decide +kernel⟩, by decide +kernel⟩

/-- a duration shorter than a turn of the counter reaches the platform as its number of whole ticks -/
theorem sleep_ticks_short (k : Clock) (hk : Spec.Proper k) (d : Dur) (hd : Spec.Sleepable k d)
    (hs : Spec.seconds d < Spec.tick k * 2 ^ k.rep.bits) : sleepTicks k d = some ⌊Spec.seconds d / Spec.tick k⌋ := by
  rw [sleep_ticks k hk d hd]
  have ht := tick_pos hk.pos
  have h0 : 0 ≤ Spec.seconds d := by
    have p1 : (0 : Rat) < d.period.den := by exact_mod_cast hd.pos.2
    have p2 : (0 : Rat) < d.period.num := by exact_mod_cast hd.pos.1
    have p3 : (0 : Rat) ≤ d.count := by exact_mod_cast hd.nonneg
    unfold Spec.seconds
    positivity
  congr 1
  apply Int.emod_eq_of_lt
  · exact Int.floor_nonneg.2 (div_nonneg h0 ht.le)
  · rw [Int.floor_lt]
    push_cast
    rw [div_lt_iff₀ ht]
    linarith

/-! ## sleep_for on Arduino -/

theorem arduino_tick (b : Nat) : Spec.tick (arduinoClock b) = 1 / 1000 := by
  simp [Spec.tick, arduinoClock]

/-- C88 (the part that holds): on Arduino `sleep_for` of a duration shorter than a turn of the millisecond counter
sleeps for that duration less a fraction of a millisecond. -/
theorem arduino_sleep_partial (b : Nat) (hb : 0 < b) (hb' : b ≤ 64) (t : Rat) (d : Dur)
    (hd : Spec.Sleepable (arduinoClock b) d) (hs : Spec.seconds d < 2 ^ b / 1000) :
    ∃ w, arduinoSleepFor b t d = some w ∧ t + Spec.seconds d - 1 / 1000 < w ∧ w ≤ t + Spec.seconds d ∧
      (w = t + Spec.seconds d ↔ ∃ n : Int, Spec.seconds d = n / 1000) := by
  have hs' : Spec.seconds d < Spec.tick (arduinoClock b) * 2 ^ (arduinoClock b).rep.bits := by
    rw [arduino_tick]; show _ < 1 / 1000 * (2 : Rat) ^ b; linarith
  unfold arduinoSleepFor
  rw [sleep_ticks_short _ (arduino_proper b hb hb') d hd hs', arduino_tick]
  refine ⟨_, rfl, ?_, ?_, ?_⟩
  · have := Int.lt_floor_add_one (Spec.seconds d / (1 / 1000))
    unfold delay
    linarith
  · have := Int.floor_le (Spec.seconds d / (1 / 1000))
    unfold delay
    linarith
  · unfold delay
    constructor
    · intro h
      exact ⟨⌊Spec.seconds d / (1 / 1000)⌋, by linarith⟩
    · rintro ⟨n, hn⟩
      have : Spec.seconds d / (1 / 1000) = (n : Rat) := by rw [hn]; ring
      rw [this, Int.floor_intCast, hn]

example : arduinoSleepFor 32 5 ⟨⟨64, true⟩, ⟨1, 1⟩, 3⟩ = some 8 := by
  have : sleepTicks (arduinoClock 32) ⟨⟨64, true⟩, ⟨1, 1⟩, 3⟩ = some 3000 := by decide +kernel
  unfold arduinoSleepFor delay
  rw [this]
  norm_num

/-- **Violation.**  On Arduino `sleep_for` returns too early for every duration that is not a whole number of
milliseconds; below a millisecond it does not sleep at all.  (The standard's `sleep_for` blocks for at least the
duration.) -/
theorem arduino_sleep_short (b : Nat) (hb : 0 < b) (hb' : b ≤ 64) (t : Rat) (d : Dur)
    (hd : Spec.Sleepable (arduinoClock b) d) (hs : Spec.seconds d < 2 ^ b / 1000) :
    ((∀ n : Int, Spec.seconds d ≠ n / 1000) → ∃ w, arduinoSleepFor b t d = some w ∧ w < t + Spec.seconds d) ∧
    (Spec.seconds d < 1 / 1000 → arduinoSleepFor b t d = some t) := by
  constructor
  · intro hn
    obtain ⟨w, h1, _, h3, h4⟩ := arduino_sleep_partial b hb hb' t d hd hs
    refine ⟨w, h1, lt_of_le_of_ne h3 ?_⟩
    intro h
    obtain ⟨n, h5⟩ := h4.1 h
    exact hn n h5
  · intro h
    have hs' : Spec.seconds d < Spec.tick (arduinoClock b) * 2 ^ (arduinoClock b).rep.bits := by
      rw [arduino_tick]; show _ < 1 / 1000 * (2 : Rat) ^ b; linarith
    have h0 : 0 ≤ Spec.seconds d := by
      have p1 : (0 : Rat) < d.period.den := by exact_mod_cast hd.pos.2
      have p2 : (0 : Rat) < d.period.num := by exact_mod_cast hd.pos.1
      have p3 : (0 : Rat) ≤ d.count := by exact_mod_cast hd.nonneg
      unfold Spec.seconds
      positivity
    unfold arduinoSleepFor
    rw [sleep_ticks_short _ (arduino_proper b hb hb') d hd hs', arduino_tick]
    have : ⌊Spec.seconds d / (1 / 1000)⌋ = 0 := by
      rw [Int.floor_eq_zero_iff]
      constructor
      · exact div_nonneg h0 (by norm_num)
      · rw [div_lt_iff₀ (by norm_num)]; linarith
    rw [this]
    simp [delay]

example : Spec.Sleepable (arduinoClock 32) ⟨⟨64, true⟩, ⟨1, 1000000⟩, 999⟩ ∧
    Spec.seconds ⟨⟨64, true⟩, ⟨1, 1000000⟩, 999⟩ < 1 / 1000 := by
  refine ⟨⟨⟨by decide, by decide⟩, by decide, by decide +kernel, by decide, by decide +kernel⟩, ?_⟩
  norm_num [Spec.seconds]

/-- **Violation.**  Durations longer than a turn of the counter wrap: `sleep_for` of a turn of the millisecond counter
plus `m` milliseconds sleeps `m` milliseconds. -/
theorem arduino_sleep_wraps (b : Nat) (hb : 0 < b) (hb' : b ≤ 32) (t : Rat) (m : Nat) (hm : m < 2 ^ b) :
    arduinoSleepFor b t ⟨⟨64, true⟩, ⟨1, 1000⟩, 2 ^ b + m⟩ = some (t + m / 1000) := by
  have hp : (2 : Int) ^ b ≤ 2 ^ 32 := pow_le hb'
  have hp0 := two_pow_pos' b
  have hm' : (m : Int) < 2 ^ b := by rw [← two_pow_cast]; exact_mod_cast hm
  have hr : i64.inRange (2 ^ b + m) := by
    show (if (true : Bool) = true then -(2 ^ (64 - 1)) ≤ _ ∧ _ < 2 ^ (64 - 1) else _)
    rw [if_pos rfl]
    constructor <;> omega
  have e1 : ratioDivide ⟨1, 1000⟩ (arduinoClock b).period = ⟨1, 1⟩ := divide_self ⟨by decide, by decide⟩
  have hd : Spec.Sleepable (arduinoClock b) ⟨⟨64, true⟩, ⟨1, 1000⟩, 2 ^ b + m⟩ :=
    ⟨⟨by show (0 : Int) < 1; decide, by show (0 : Int) < 1000; decide⟩, by show 0 < 64; decide, hr,
      by show (0 : Int) ≤ 2 ^ b + m; omega, by rw [e1]; simpa using hr⟩
  unfold arduinoSleepFor
  rw [sleep_ticks _ (arduino_proper b hb (by omega)) _ hd, arduino_tick]
  have : Spec.seconds ⟨⟨64, true⟩, ⟨1, 1000⟩, 2 ^ b + m⟩ / (1 / 1000) = ((2 ^ b + m : Int) : Rat) := by
    unfold Spec.seconds
    push_cast
    ring
  rw [this, Int.floor_intCast]
  have e : ((2 : Int) ^ b + m) % 2 ^ (arduinoClock b).rep.bits = m := by
    show ((2 : Int) ^ b + m) % 2 ^ b = m
    rw [Int.add_emod_left, Int.emod_eq_of_lt (by omega) hm']
  rw [e]
  simp [delay]

/-- **Violation.**  A negative duration, for which the standard's `sleep_for` returns at once, sleeps for almost a whole
turn of the counter: minus `c` milliseconds sleep 2^32 - c milliseconds, for 32- and 64-bit millisecond counts. -/
theorem arduino_sleep_negative (t : Rat) (r : Rep) (hr : r = ⟨32, true⟩ ∨ r = ⟨64, true⟩) (c : Int) (hc : 0 < c)
    (hc' : c ≤ 2 ^ 31) :
    arduinoSleepFor 32 t ⟨r, ⟨1, 1000⟩, -c⟩ = some (t + ((2 ^ 32 - c : Int) : Rat) / 1000) := by
  have e1 : ratioDivide ⟨1, 1000⟩ (arduinoClock 32).period = ⟨1, 1⟩ := divide_self ⟨by decide, by decide⟩
  have hm : (-c) % 4294967296 = 4294967296 - c := by omega
  have key : sleepTicks (arduinoClock 32) ⟨r, ⟨1, 1000⟩, -c⟩ = some (2 ^ 32 - c) := by
    unfold sleepTicks Dur.convert Dur.scale
    simp only [e1, Int.mul_one, Int.tdiv_one, Int.ediv_one]
    rcases hr with h | h <;> subst h
    · rw [show condType (arduinoClock 32).rep ⟨32, true⟩ = ⟨32, false⟩ from by decide +kernel]
      rw [if_neg (by decide)]
      rw [show (⟨32, false⟩ : Rep).cast (-c) = 4294967296 - c from by simp [Rep.cast]; omega]
      rw [if_pos (show i64.inRange _ from by simp [i64, Rep.inRange]; omega)]
      simp [arduinoClock, Rep.cast]
      omega
    · rw [show condType (arduinoClock 32).rep ⟨64, true⟩ = ⟨64, true⟩ from by decide +kernel]
      rw [if_neg (by decide)]
      rw [show (⟨64, true⟩ : Rep).cast (-c) = -c from cast_eq (by decide) (by simp [Rep.inRange]; omega)]
      rw [if_pos (show i64.inRange _ from by simp [i64, Rep.inRange]; omega)]
      simp [arduinoClock, Rep.cast]
      omega
  unfold arduinoSleepFor
  rw [key]
  rfl

/-! ## sleep_for on FreeRTOS -/

theorem freertos_tick (b : Nat) (hz : Int) : Spec.tick (freertosClock b hz) = 1 / hz := by
  simp [Spec.tick, freertosClock]

/-- C88 (the part that holds): on FreeRTOS `sleep_for` of a duration shorter than a turn of the tick counter sleeps
less than two ticks too short, and never too long. -/
theorem freertos_sleep_partial (b : Nat) (hb : 0 < b) (hb' : b ≤ 64) (hz : Int) (hh : 0 < hz) (t : Rat) (d : Dur)
    (hd : Spec.Sleepable (freertosClock b hz) d) (hs : Spec.seconds d < 2 ^ b / hz) :
    ∃ w, freertosSleepFor b hz t d = some w ∧ t + Spec.seconds d - 2 / hz < w ∧ w ≤ t + Spec.seconds d ∧
      (w = t + Spec.seconds d ↔
        Spec.seconds d = 0 ∨ ((∃ n : Int, Spec.seconds d = n / hz) ∧ ∃ m : Int, t = m / hz)) := by
  have hz' : (0 : Rat) < hz := by exact_mod_cast hh
  have hs' : Spec.seconds d < Spec.tick (freertosClock b hz) * 2 ^ (freertosClock b hz).rep.bits := by
    rw [freertos_tick]; show _ < 1 / (hz : Rat) * (2 : Rat) ^ b
    rw [one_div_mul_eq_div]; exact hs
  have h0 : 0 ≤ Spec.seconds d := by
    have p1 : (0 : Rat) < d.period.den := by exact_mod_cast hd.pos.2
    have p2 : (0 : Rat) < d.period.num := by exact_mod_cast hd.pos.1
    have p3 : (0 : Rat) ≤ d.count := by exact_mod_cast hd.nonneg
    unfold Spec.seconds
    positivity
  unfold freertosSleepFor
  rw [sleep_ticks_short _ (freertos_proper b hz hb hb' hh) d hd hs', freertos_tick]
  have e : Spec.seconds d / (1 / (hz : Rat)) = Spec.seconds d * hz := by rw [div_div_eq_mul_div, div_one]
  rw [e]
  have f1 := Int.floor_le (Spec.seconds d * hz)
  have f2 := Int.lt_floor_add_one (Spec.seconds d * hz)
  have g1 := Int.floor_le (t * hz)
  have g2 := Int.lt_floor_add_one (t * hz)
  refine ⟨_, rfl, ?_⟩
  unfold vTaskDelay
  by_cases hz0 : ⌊Spec.seconds d * hz⌋ = 0
  · rw [if_pos hz0]
    rw [hz0] at f2
    refine ⟨?_, by linarith, ?_⟩
    · have : Spec.seconds d < 2 / hz := by
        rw [lt_div_iff₀ hz']; push_cast at f2; linarith
      linarith
    · constructor
      · intro h; exact Or.inl (by linarith)
      · rintro (h | ⟨⟨n, hn⟩, _⟩)
        · rw [h]; ring
        · have hn' : Spec.seconds d * hz = n := by rw [hn]; field_simp
          rw [hn', Int.floor_intCast] at hz0
          rw [hn, hz0]; simp
  · rw [if_neg hz0]
    refine ⟨?_, ?_, ?_⟩
    · rw [lt_div_iff₀ hz']
      push_cast
      have : (t + Spec.seconds d - 2 / hz) * hz = t * hz + Spec.seconds d * hz - 2 := by field_simp
      linarith
    · rw [div_le_iff₀ hz']
      push_cast
      linarith
    · rw [div_eq_iff hz'.ne']
      push_cast
      constructor
      · intro h
        right
        constructor
        · exact ⟨⌊Spec.seconds d * hz⌋, by rw [eq_div_iff hz'.ne']; linarith⟩
        · exact ⟨⌊t * hz⌋, by rw [eq_div_iff hz'.ne']; linarith⟩
      · rintro (h | ⟨⟨n, hn⟩, m, hm⟩)
        · exfalso; apply hz0; rw [h]; simp
        · have hn' : Spec.seconds d * hz = n := by rw [hn]; field_simp
          have hm' : t * hz = m := by rw [hm]; field_simp
          have : (t + Spec.seconds d) * hz = t * hz + Spec.seconds d * hz := by ring
          rw [this, hn', hm', Int.floor_intCast, Int.floor_intCast]

/-- **Violation.**  A task that does not call `sleep_for` at the very moment of a tick always sleeps less than it asked
for, also when it asks for a whole number of ticks: `n` ticks asked for at time `t` end at the `n`-th tick from now,
which is less than `n` tick periods away. -/
theorem freertos_sleep_short (b : Nat) (hb : 0 < b) (hb' : b ≤ 64) (hz : Int) (hh : 0 < hz) (t : Rat) (d : Dur)
    (hd : Spec.Sleepable (freertosClock b hz) d) (hs : Spec.seconds d < 2 ^ b / hz) (h0 : Spec.seconds d ≠ 0)
    (ht : ∀ m : Int, t ≠ m / hz) : ∃ w, freertosSleepFor b hz t d = some w ∧ w < t + Spec.seconds d := by
  obtain ⟨w, h1, _, h3, h4⟩ := freertos_sleep_partial b hb hb' hz hh t d hd hs
  refine ⟨w, h1, lt_of_le_of_ne h3 ?_⟩
  intro h
  rcases h4.1 h with h | ⟨_, m, h⟩
  · exact h0 h
  · exact ht m h

-- one tick of 10 ms asked for 9 ms into a tick lasts 1 ms
example : freertosSleepFor 32 100 (1009 / 1000) ⟨⟨64, true⟩, ⟨1, 1000⟩, 10⟩ = some (1010 / 1000) := by
  have : sleepTicks (freertosClock 32 100) ⟨⟨64, true⟩, ⟨1, 1000⟩, 10⟩ = some 1 := by decide +kernel
  have f : ⌊(1009 / 1000 * ((100 : Int) : Rat) : Rat)⌋ = 100 := by rw [Int.floor_eq_iff]; norm_num
  unfold freertosSleepFor
  rw [this]
  simp only [Option.map_some, vTaskDelay]
  rw [if_neg (by decide), f]
  norm_num

example : Spec.Sleepable (freertosClock 32 100) ⟨⟨64, true⟩, ⟨1, 1000⟩, 10⟩ ∧
    Spec.seconds ⟨⟨64, true⟩, ⟨1, 1000⟩, 10⟩ < 2 ^ 32 / ((100 : Int) : Rat) := by
  refine ⟨⟨⟨by decide, by decide⟩, by decide, by decide +kernel, by decide, by decide +kernel⟩, ?_⟩
  norm_num [Spec.seconds]

/-! ## The pico -/

theorem micro_tick : Spec.tick microClock = 1 / 1000000 := by simp [Spec.tick, microClock]

theorem micro_floor (x : Rat) (n : Int) (h : x = n / 1000000) : ⌊x / (1 / 1000000)⌋ = n := by
  have : x / (1 / 1000000) = (n : Rat) := by rw [h]; ring
  rw [this, Int.floor_intCast]

/-- C88: on the pico `sleep_for` sleeps exactly for every duration of a whole number of microseconds, and `sleep_until`
returns exactly at a time point given in whole microseconds, or at once if it is past. -/
theorem pico_sleep (t : Rat) (d : Dur) (hd : Spec.Sleepable microClock d) (n : Int) (hn : Spec.seconds d = n / 1000000)
    (hs : Spec.seconds d < 2 ^ 64 / 1000000) :
    picoSleepFor t d = some (t + Spec.seconds d) ∧ picoSleepUntil t d = some (max t (Spec.seconds d)) := by
  have hs' : Spec.seconds d < Spec.tick microClock * 2 ^ microClock.rep.bits := by
    rw [micro_tick]; show _ < 1 / 1000000 * (2 : Rat) ^ 64; linarith
  unfold picoSleepFor picoSleepUntil
  rw [sleep_ticks_short _ micro_proper d hd hs', micro_tick, micro_floor _ n hn, hn]
  exact ⟨rfl, rfl⟩

example : Spec.Sleepable microClock ⟨⟨32, true⟩, ⟨1, 1000⟩, 15⟩ ∧
    Spec.seconds ⟨⟨32, true⟩, ⟨1, 1000⟩, 15⟩ = ((15000 : Int) : Rat) / 1000000 ∧
    Spec.seconds ⟨⟨32, true⟩, ⟨1, 1000⟩, 15⟩ < 2 ^ 64 / 1000000 := by
  refine ⟨⟨⟨by decide, by decide⟩, by decide, by decide +kernel, by decide, by decide +kernel⟩, ?_, ?_⟩ <;>
    norm_num [Spec.seconds]

end Verif.Chrono.Clocks
