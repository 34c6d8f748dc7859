import Verif.Streams.FloatError
import Verif.Streams.OutIter

/-!
# C84: printing quantities and floating-point numbers

Modelled from `src/estd/internal/units/ostream.h:12-130` (insertion of a `double`, `write`, `write_abbrev`, `put_unit`),
`src/estd/internal/units/si.h:24-101` (the names of the prefixes), `bytes.h:44-68` and `percent.h:34-40` (the names of the
units).  The stream is that of C38, the arithmetic of `double` that of C81.  A count of type `float` does not compile
(src/estd/ostream.h:58-64 is the better match and asserts), so counts are integers or `double`s.
-/
namespace Verif.Streams.Units
open Verif Verif.DynArray Verif.Streams

/-! ## Model -/

/-- conversion of a finite number to an integer type: towards zero -/
def truncQ (q : Rat) : Int := if 0 ≤ q then ⌊q⌋ else ⌈q⌉

/-- `(int64_t)v`, units/ostream.h:17-18: undefined when the integer part is out of range, or there is none -/
def toInt64 : Fl → Res Int
  | .fin q => if -2 ^ 63 ≤ truncQ q ∧ truncQ q < 2 ^ 63 then .ok (truncQ q) else .ub
  | .inf => .ub
  | .nan => .ub

/-- `v_dec`, units/ostream.h:18-20 -/
def places (F : Fmt) (v : Fl) : Res Int :=
  (toInt64 (F.mul v 100)).bind fun y => .ok (if y.tmod 100 < 0 then -(y.tmod 100) else y.tmod 100)

variable {σ : Type}

/-- what `operator<<(double)` inserts once both numbers are there, units/ostream.h:23-26 -/
def doubleItems (n d : Int) : List Item :=
  [.setbase 10, .int true 64 n, .chr 0x2e] ++ (if d < 10 then [.chr 0x30] else []) ++ [.int true 64 d]

/-- `operator<<(double)`, units/ostream.h:12-29 -/
def outDouble (F : Fmt) (t : Traits) (c : IosCfg) (K : OutImpl σ) (os : OS σ) (v : Fl) : Res (OS σ) :=
  (toInt64 v).bind fun n => (places F v).bind fun d => os.insertAll t c K (doubleItems n d)

/-- the characters of a text -/
def chars (s : String) : List Ch := s.toList.map fun ch => BitVec.ofNat 8 ch.toNat

/-- the tag of a unit, with what `traits<Tag>` says: `bytes` (bytes.h:44-49), `percent` (percent.h:34-40) or a user's -/
inductive Tag where
  | bytes
  | percent
  | user (name short : List Ch)

/-- `traits<Tag>::name()` and `abbrev()` -/
def Tag.traits : Tag → List Ch × List Ch
  | .bytes => (chars "bytes", chars "B")
  | .percent => (chars "percent", chars "%")
  | .user n a => (n, a)

/-- `si::traits<Period, Tag>`, si.h:24-101 and bytes.h:55-68, for a period `num/den` in lowest terms; `none`: there is no
specialisation, the program does not compile.  `giga` (si.h:39-44) is specialised for `Tag = void` alone, which is the tag
of no unit. -/
def siTraits (num den : Nat) (tag : Tag) : Option (List Ch × List Ch) :=
  if (num, den) = (1000, 1) then some (chars "kilo", chars "k")
  else if (num, den) = (1000000, 1) then some (chars "mega", chars "M")
  else if (num, den) = (1000000000000, 1) then some (chars "tera", chars "T")
  else if (num, den) = (1, 10) then some (chars "deci", chars "d")
  else if (num, den) = (10, 1) then some (chars "deca", chars "da")
  else if (num, den) = (1, 100) then some (chars "centi", chars "c")
  else if (num, den) = (1, 1000) then some (chars "milli", chars "m")
  else if (num, den) = (1, 1000000) then some (chars "micro", chars "u")
  else if (num, den) = (1, 1000000000) then some (chars "nano", chars "n")
  else match tag with
    | .bytes =>
      if (num, den) = (1024, 1) then some (chars "kilo", chars "k")
      else if (num, den) = (1024 * 1024, 1) then some (chars "mega", chars "M")
      else if (num, den) = (1024 * 1024 * 1024, 1) then some (chars "giga", chars "G")
      else none
    | _ => none

/-- `write_suffix`, units/ostream.h:31-45: the texts inserted -/
def suffix (num den : Nat) (tag : Tag) : Option (List Item) :=
  if (num, den) = (1, 1) then some [.str tag.traits.1]
  else (siTraits num den tag).map fun p => [.str p.1, .str tag.traits.1]

/-- `write_suffix_abbrev`, units/ostream.h:47-61 -/
def suffixAbbrev (num den : Nat) (tag : Tag) : Option (List Item) :=
  if (num, den) = (1, 1) then some [.str tag.traits.2]
  else (siTraits num den tag).map fun p => [.str p.2, .str tag.traits.2]

/-- the value of `unit.count()` -/
inductive Count where
  | int (signed : Bool) (bits : Nat) (v : Int)
  | dbl (v : Fl)

/-- `out << unit.count()` -/
def outCount (F : Fmt) (t : Traits) (c : IosCfg) (K : OutImpl σ) (os : OS σ) : Count → Res (OS σ)
  | .int signed bits v => os.outInt t c K signed bits v
  | .dbl v => outDouble F t c K os v

/-- `out << put_unit(unit, abbrev)`: ostream.h:107-112, units/ostream.h:63-78, 93-100, 124-130.  The outer `none` is a
program that does not compile. -/
def putUnit (F : Fmt) (t : Traits) (c : IosCfg) (K : OutImpl σ) (os : OS σ) (num den : Nat) (tag : Tag) (cnt : Count)
    (short : Bool) : Option (Res (OS σ)) :=
  if short then
    (suffixAbbrev num den tag).map fun sfx => (outCount F t c K os cnt).bind fun os => os.insertAll t c K sfx
  else
    (suffix num den tag).map fun sfx =>
      (outCount F t c K os cnt).bind fun os => os.insertAll t c K ([.chr 0x20] ++ sfx)

/-! ## Specification -/

/-- the character of a decimal digit -/
def Spec.digit (d : Nat) : Ch := BitVec.ofNat 8 (48 + d)

/-- `text` is the numeral of `h` hundredths: sign, whole part, point, two digits -/
def Spec.Hundredths (h : Int) (text : List Ch) : Prop :=
  ∃ whole, Streams.Spec.Shows 10 false (h.natAbs / 100 : Nat) whole ∧
    text = (if h < 0 then [0x2d] else []) ++ whole ++ [0x2e, Spec.digit (h.natAbs / 10 % 10), Spec.digit (h.natAbs % 10)]

/-- a number of the binary format with `p` significant bits and least number `2^-emin` -/
def Spec.InFormat (p emin : Nat) (q : Rat) : Prop :=
  ∃ (m e : Int), q = m * 2 ^ e ∧ |m| < 2 ^ p ∧ -(emin : Int) ≤ e

/-- the SI prefixes from nano to tera, with the exponents of ten they stand for -/
def Spec.si : List (Int × String × String) :=
  [(12, "tera", "T"), (9, "giga", "G"), (6, "mega", "M"), (3, "kilo", "k"), (1, "deca", "da"), (-1, "deci", "d"),
   (-2, "centi", "c"), (-3, "milli", "m"), (-6, "micro", "u"), (-9, "nano", "n")]

/-- the name and the symbol of a unit -/
inductive Spec.Named : Tag → List Ch → List Ch → Prop where
  | bytes : Spec.Named .bytes (chars "bytes") (chars "B")
  | percent : Spec.Named .percent (chars "percent") (chars "%")
  | user (name symbol : List Ch) : Spec.Named (.user name symbol) name symbol

/-! ## Arithmetic -/

theorem nearest_near (p emin : Nat) (x : Rat) : |x - nearest p emin x| ≤ 2 ^ ulpExp p emin x / 2 := by
  have h0 : (0 : Rat) < 2 ^ ulpExp p emin x := zpow_pos (by norm_num) _
  have h1 := abs_sub_round (x / 2 ^ ulpExp p emin x)
  have h2 : x - nearest p emin x = (x / 2 ^ ulpExp p emin x - round (x / 2 ^ ulpExp p emin x)) * 2 ^ ulpExp p emin x := by
    unfold nearest
    rw [sub_mul, div_mul_cancel₀ _ h0.ne']
  rw [h2, abs_mul, abs_of_pos h0]
  calc _ ≤ (1 / 2 : Rat) * 2 ^ ulpExp p emin x := mul_le_mul_of_nonneg_right h1 h0.le
    _ = _ := by ring

/-- below `2^p` integers are on the grid, so rounding does not cross them -/
theorem nearest_int {p emin : Nat} (hp : 1 ≤ p) {x : Rat} (hx : |x| < 2 ^ p) (k : Int) :
    ((k : Rat) ≤ x → (k : Rat) ≤ nearest p emin x) ∧ (x ≤ (k : Rat) → nearest p emin x ≤ (k : Rat)) := by
  have hu : ulpExp p emin x ≤ 0 := by
    unfold ulpExp
    apply max_le _ (by omega)
    by_cases h0 : x = 0
    · subst h0
      simp
      omega
    have hpos : (0 : Rat) < |x| := abs_pos.mpr h0
    have := (Int.lt_zpow_iff_log_lt (b := 2) (by norm_num) hpos (x := (p : Int))).mp (by
      rw [zpow_natCast]; exact_mod_cast hx)
    omega
  have hk : (k : Rat) = ((k * 2 ^ (-ulpExp p emin x).toNat : Int) : Rat) * 2 ^ ulpExp p emin x := by
    push_cast
    rw [mul_assoc, ← zpow_natCast, ← zpow_add₀ (by norm_num), Int.toNat_of_nonneg (by omega)]
    simp
  have := nearest_mono_grid (p := p) (emin := emin) (x := x) (k * 2 ^ (-ulpExp p emin x).toNat)
  rw [← hk] at this
  exact this

/-- the product with 100 of a number of the format is not rounded across 100 times an integer -/
theorem hundred_int {p emin : Nat} (hp : 1 ≤ p) {q : Rat} (hq : Spec.InFormat p emin q) (hx : |q * 100| < 2 ^ p) (n : Int) :
    (q < n → nearest p emin (q * 100) < n * 100) ∧ ((n : Rat) < q → (n * 100 : Rat) < nearest p emin (q * 100)) := by
  obtain ⟨m, e, rfl, hm, he⟩ := hq
  by_cases h0 : m = 0
  · subst h0
    have h1 : nearest p emin (((0 : Int) : Rat) * 2 ^ e * 100) = 0 := by simp [nearest]
    rw [h1]
    simp only [Int.cast_zero, zero_mul]
    constructor <;> intro h <;> linarith
  have hE : (0 : Rat) < 2 ^ e := zpow_pos (by norm_num) _
  -- the grid around the product
  have hu : ulpExp p emin ((m : Rat) * 2 ^ e * 100) ≤ e + 7 := by
    unfold ulpExp
    apply max_le _ (by omega)
    have habs : |(m : Rat) * 2 ^ e * 100| = |(m : Rat)| * 2 ^ e * 100 := by
      rw [abs_mul, abs_mul, abs_of_pos hE]; norm_num
    have hpos : (0 : Rat) < |(m : Rat) * 2 ^ e * 100| := by
      rw [habs]; have : (0 : Rat) < |(m : Rat)| := abs_pos.mpr (by exact_mod_cast h0)
      positivity
    have hlt : |(m : Rat) * 2 ^ e * 100| < ((2 : Nat) : Rat) ^ ((p : Int) + e + 7) := by
      have hm' : |(m : Rat)| < 2 ^ p := by exact_mod_cast hm
      rw [habs, zpow_add₀ (by norm_num), zpow_add₀ (by norm_num), zpow_natCast]
      push_cast
      have h1 : |(m : Rat)| * 2 ^ e < 2 ^ p * 2 ^ e := mul_lt_mul_of_pos_right hm' hE
      have h2 : (0 : Rat) < 2 ^ p * 2 ^ e := by positivity
      norm_num
      linarith
    have := (Int.lt_zpow_iff_log_lt (b := 2) (by norm_num) hpos).mp hlt
    omega
  have hnear := nearest_near p emin ((m : Rat) * 2 ^ e * 100)
  have hpow : (2 : Rat) ^ ulpExp p emin ((m : Rat) * 2 ^ e * 100) ≤ 2 ^ e * 128 := by
    have h1 := zpow_le_zpow_right₀ (show (1 : Rat) ≤ 2 by norm_num) hu
    rw [zpow_add₀ (by norm_num)] at h1
    have h3 : ((2 : Rat) ^ (7 : Int)) = 128 := by norm_num
    rwa [h3] at h1
  rw [abs_le] at hnear
  obtain ⟨ha, hb⟩ := hnear
  -- the distance of the number from an integer
  have hgap : ∀ d : Rat, (∃ k : Int, d = k * 2 ^ e) → 0 < d → 2 ^ e ≤ d := by
    rintro d ⟨k, rfl⟩ hd
    have : (0 : Rat) < k := by
      by_contra hk
      have := mul_nonpos_of_nonpos_of_nonneg (not_lt.mp hk) hE.le
      linarith
    have : (1 : Rat) ≤ k := by exact_mod_cast (by exact_mod_cast this : (0 : Int) < k)
    calc (2 : Rat) ^ e = 1 * 2 ^ e := by ring
      _ ≤ _ := mul_le_mul_of_nonneg_right this hE.le
  by_cases hneg : e ≤ 0
  · have hn : (n : Rat) = ((n * 2 ^ (-e).toNat : Int) : Rat) * 2 ^ e := by
      push_cast
      rw [mul_assoc, ← zpow_natCast, ← zpow_add₀ (by norm_num), Int.toNat_of_nonneg (by omega)]
      simp
    constructor
    · intro h
      have := hgap ((n : Rat) - m * 2 ^ e) ⟨n * 2 ^ (-e).toNat - m, by rw [hn]; push_cast; ring⟩ (by linarith)
      linarith
    · intro h
      have := hgap ((m : Rat) * 2 ^ e - n) ⟨m - n * 2 ^ (-e).toNat, by rw [hn]; push_cast; ring⟩ (by linarith)
      linarith
  · have hint : (m : Rat) * 2 ^ e * 100 = ((m * 2 ^ e.toNat * 100 : Int) : Rat) := by
      push_cast
      rw [← zpow_natCast, Int.toNat_of_nonneg (by omega)]
    have hk := nearest_int (emin := emin) hp hx (m * 2 ^ e.toNat * 100)
    rw [← hint] at hk
    have h1 := hk.1 (le_refl _)
    have h2 := hk.2 (le_refl _)
    constructor <;> intro h <;> linarith

theorem truncQ_range {q : Rat} {p : Nat} (hp : p ≤ 62) (h : |q| < 2 ^ p) : -2 ^ 62 ≤ truncQ q ∧ truncQ q ≤ 2 ^ 62 := by
  have hpow : (2 : Rat) ^ p ≤ 2 ^ 62 := pow_le_pow_right₀ (by norm_num) hp
  rw [abs_lt] at h
  unfold truncQ
  split
  · constructor
    · rw [Int.le_floor]; push_cast; linarith
    · have := Int.floor_le q
      have : (⌊q⌋ : Rat) ≤ 2 ^ 62 := by linarith
      exact_mod_cast this
  · constructor
    · have := Int.le_ceil q
      have : -(2 : Rat) ^ 62 ≤ (⌈q⌉ : Rat) := by linarith
      exact_mod_cast this
    · rw [Int.ceil_le]; push_cast; linarith

/-- what is printed of a number of the format: its whole part and the hundredths of one and the same number `h`, which is
less than a hundredth away -/
theorem double_numbers {p emax emin : Nat} (hp : 1 ≤ p) (hp' : p ≤ 62) (hpe : p < emax) {q : Rat}
    (hq : Spec.InFormat p emin q) (hx : |q * 100| < 2 ^ p) :
    ∃ h : Int, |(h : Rat) / 100 - q| < 1 / 100 ∧ (0 ≤ q → 0 ≤ h) ∧ (q ≤ 0 → h ≤ 0) ∧ (h.natAbs : Int) < 2 ^ 63 ∧
      toInt64 (.fin q) = .ok (h.tdiv 100) ∧ places (ieee p emax emin) (.fin q) = .ok ((h.natAbs : Int) % 100) := by
  have hmul : (ieee p emax emin).mul (.fin q) 100 = .fin (nearest p emin (q * 100)) := by
    have hi := fun k => nearest_int (emin := emin) hp hx k
    have h1 := (hi (2 ^ p)).2 (by push_cast; exact (le_of_lt (lt_of_le_of_lt (le_abs_self _) hx)))
    have h2 := (hi (-2 ^ p)).1 (by push_cast; have := neg_abs_le (q * 100); linarith)
    push_cast at h1 h2
    have hpow : (2 : Rat) ^ p < 2 ^ emax := pow_lt_pow_right₀ (by norm_num) hpe
    have h3 : |nearest p emin (q * 100)| < 2 ^ emax := by rw [abs_lt]; constructor <;> linarith
    simp only [Fmt.mul, ieee]
    rw [if_neg]
    rintro (h | h) <;> linarith
  have hi := fun k => nearest_int (emin := emin) hp hx k
  have hc := fun n => hundred_int (emin := emin) hp hq hx n
  have hq2 : |q| < 2 ^ p := by
    rw [abs_mul] at hx
    have := abs_nonneg q
    have h100 : |(100 : Rat)| = 100 := by norm_num
    rw [h100] at hx
    linarith
  have hr1 := truncQ_range hp' hq2
  have hbnd : |nearest p emin (q * 100)| ≤ 2 ^ p := by
    have h1 := (hi (2 ^ p)).2 (by push_cast; exact (le_of_lt (lt_of_le_of_lt (le_abs_self _) hx)))
    have h2 := (hi (-2 ^ p)).1 (by push_cast; have := neg_abs_le (q * 100); linarith)
    push_cast at h1 h2
    rw [abs_le]; constructor <;> linarith
  generalize hy : nearest p emin (q * 100) = y at *
  have hr2 : -2 ^ 62 ≤ truncQ y ∧ truncQ y ≤ 2 ^ 62 := by
    have hpow : (2 : Rat) ^ p ≤ 2 ^ 62 := pow_le_pow_right₀ (by norm_num) hp'
    rw [abs_le] at hbnd
    unfold truncQ
    split
    · constructor
      · rw [Int.le_floor]; push_cast; linarith
      · have := Int.floor_le y
        have : (⌊y⌋ : Rat) ≤ 2 ^ 62 := by linarith
        exact_mod_cast this
    · constructor
      · have := Int.le_ceil y
        have : -(2 : Rat) ^ 62 ≤ (⌈y⌉ : Rat) := by linarith
        exact_mod_cast this
      · rw [Int.ceil_le]; push_cast; linarith
  have hplaces : places (ieee p emax emin) (.fin q) = .ok (((truncQ y).natAbs : Int) % 100) := by
    unfold places
    rw [hmul]
    simp only [toInt64]
    rw [if_pos (by omega)]
    simp only [Res.bind_ok]
    have : ∀ z : Int, (if z.tmod 100 < 0 then -(z.tmod 100) else z.tmod 100) = (z.natAbs : Int) % 100 := by
      intro z
      rcases Int.natAbs_eq z with h | h
      · rw [h, Int.natAbs_natCast, Int.tmod_eq_emod_of_nonneg (by omega)]
        split <;> omega
      · rw [h, Int.natAbs_neg, Int.natAbs_natCast, Int.neg_tmod, Int.tmod_eq_emod_of_nonneg (by omega)]
        split <;> omega
    rw [this]
  have hwhole : toInt64 (.fin q) = .ok (truncQ q) := by
    simp only [toInt64]; rw [if_pos (by omega)]
  by_cases h0 : 0 ≤ q
  · have hy0 : 0 ≤ y := by have := (hi 0).1 (by push_cast; linarith); simpa using this
    have e1 : truncQ q = ⌊q⌋ := by unfold truncQ; rw [if_pos h0]
    have e2 : truncQ y = ⌊y⌋ := by unfold truncQ; rw [if_pos hy0]
    rw [e1] at hwhole; rw [e2] at hplaces hr2
    have hfl : 0 ≤ ⌊y⌋ := Int.floor_nonneg.mpr hy0
    refine ⟨⌊y⌋, ?_, fun _ => hfl, fun hle => ?_, by omega, ?_, hplaces⟩
    · -- accuracy
      have hk := (hi ⌊q * 100⌋).1 (Int.floor_le _)
      have hk2 := (hi (⌊q * 100⌋ + 1)).2 (by push_cast; exact (Int.lt_floor_add_one _).le)
      have f1 : ⌊q * 100⌋ ≤ ⌊y⌋ := Int.le_floor.mpr hk
      have f2 := Int.floor_le y
      have f3 : ((⌊q * 100⌋ : Int) : Rat) ≤ ⌊y⌋ := by exact_mod_cast f1
      have f4 := Int.lt_floor_add_one (q * 100)
      have f5 := Int.floor_le (q * 100)
      push_cast at hk2
      rw [abs_lt]
      constructor
      · linarith
      · -- the upper neighbour is reached only from strictly above the lower one
        by_contra hcon
        have g1 : (⌊q * 100⌋ : Rat) + 1 ≤ y ∧ q * 100 ≤ ⌊q * 100⌋ := by constructor <;> linarith
        have := (hi ⌊q * 100⌋).2 g1.2
        linarith
    · have hq0 : q = 0 := le_antisymm hle h0
      have := (hi 0).2 (by rw [hq0]; simp)
      have : ⌊y⌋ ≤ 0 := by
        have h1 : y ≤ 0 := by simpa using this
        have := Int.floor_le y
        have : (⌊y⌋ : Rat) ≤ 0 := by linarith
        exact_mod_cast this
      exact this
    · rw [hwhole]
      congr 1
      have f1 : ⌊q⌋ * 100 ≤ ⌊y⌋ := by
        rw [Int.le_floor]
        refine (hi (⌊q⌋ * 100)).1 ?_
        push_cast
        have := Int.floor_le q
        linarith
      have f2 : ⌊y⌋ < (⌊q⌋ + 1) * 100 := by
        have h1 := (hc (⌊q⌋ + 1)).1 (by push_cast; exact Int.lt_floor_add_one _)
        have h2 := Int.floor_le y
        have : (⌊y⌋ : Rat) < ((⌊q⌋ + 1) * 100 : Int) := by push_cast at h1 ⊢; linarith
        exact_mod_cast this
      rw [Int.tdiv_eq_ediv_of_nonneg hfl]
      omega
  · have h0' : q < 0 := by linarith
    have hy0 : y ≤ 0 := by have := (hi 0).2 (by push_cast; linarith); simpa using this
    have hceil0 : ⌈y⌉ ≤ 0 := by rw [Int.ceil_le]; simpa using hy0
    have e1 : truncQ q = ⌈q⌉ := by unfold truncQ; rw [if_neg h0]
    have e2 : truncQ y = ⌈y⌉ := by
      unfold truncQ
      split
      · have : y = 0 := by linarith
        rw [this]; simp
      · rfl
    rw [e1] at hwhole; rw [e2] at hplaces hr2
    refine ⟨⌈y⌉, ?_, fun hge => absurd hge h0, fun _ => hceil0, by omega, ?_, hplaces⟩
    · have hk := (hi ⌈q * 100⌉).2 (Int.le_ceil _)
      have hk2 := (hi (⌈q * 100⌉ - 1)).1 (by push_cast; have := Int.ceil_lt_add_one (q * 100); linarith)
      have f1 : ⌈y⌉ ≤ ⌈q * 100⌉ := Int.ceil_le.mpr hk
      have f2 := Int.le_ceil y
      have f3 : (⌈y⌉ : Rat) ≤ ((⌈q * 100⌉ : Int) : Rat) := by exact_mod_cast f1
      have f4 := Int.ceil_lt_add_one (q * 100)
      have f5 := Int.le_ceil (q * 100)
      push_cast at hk2
      rw [abs_lt]
      constructor
      · by_contra hcon
        have g1 : y ≤ (⌈q * 100⌉ : Rat) - 1 ∧ (⌈q * 100⌉ : Rat) ≤ q * 100 := by constructor <;> linarith
        have := (hi ⌈q * 100⌉).1 g1.2
        linarith
      · linarith
    · rw [hwhole]
      congr 1
      have f1 : ⌈y⌉ ≤ ⌈q⌉ * 100 := by
        rw [Int.ceil_le]
        refine (hi (⌈q⌉ * 100)).2 ?_
        push_cast
        have := Int.le_ceil q
        linarith
      have f2 : (⌈q⌉ - 1) * 100 < ⌈y⌉ := by
        have h1 := (hc (⌈q⌉ - 1)).2 (by push_cast; have := Int.ceil_lt_add_one q; linarith)
        have h2 := Int.le_ceil y
        have : (((⌈q⌉ - 1) * 100 : Int) : Rat) < (⌈y⌉ : Rat) := by push_cast at h1 ⊢; linarith
        exact_mod_cast this
      have : ⌈y⌉.tdiv 100 = -((-⌈y⌉) / 100) := by
        rw [← Int.tdiv_eq_ediv_of_nonneg (by omega), Int.neg_tdiv, neg_neg]
      rw [this]
      omega

/-! ## Text -/

/-- decimal numerals have no letters -/
theorem shows_upper (u : Bool) (v : Int) (text : List Ch) :
    Streams.Spec.Shows 10 u v text ↔ Streams.Spec.Shows 10 false v text := by
  have key : ∀ codes, Charconv.Spec.IsNumeral 10 v codes →
      (codes.map fun k => BitVec.ofNat 8 (Streams.Spec.cased u k)) =
      (codes.map fun k => BitVec.ofNat 8 (Streams.Spec.cased false k)) := by
    intro codes hc
    rw [Charconv.isNumeral_iff 10 v (by omega)] at hc
    apply List.map_congr_left
    intro k hk
    have : k < 97 := by
      subst hc
      have hnat : ∀ j ∈ Charconv.natText 10 v.natAbs (by omega), j < 97 := by
        intro j hj
        unfold Charconv.natText at hj
        obtain ⟨d, hd, rfl⟩ := List.mem_map.mp hj
        have := Charconv.digits_lt 10 v.natAbs (by omega) d hd
        split <;> omega
      unfold Charconv.text at hk
      split at hk
      · rcases List.mem_cons.mp hk with rfl | hk
        · omega
        · exact hnat k hk
      · exact hnat k hk
    unfold Streams.Spec.cased
    have h1 : ¬ 97 ≤ k := by omega
    simp [h1]
  constructor
  · rintro ⟨codes, h1, h2⟩; exact ⟨codes, h1, by rw [h2, key codes h1]⟩
  · rintro ⟨codes, h1, h2⟩; exact ⟨codes, h1, by rw [h2, key codes h1]⟩

theorem shows_exists (v : Int) : ∃ text, Streams.Spec.Shows 10 false v text :=
  ⟨_, _, (Charconv.isNumeral_iff 10 v (by omega) _).mpr rfl, rfl⟩

theorem shows_small : ∀ d : Fin 100, Streams.Spec.Shows 10 false (d : Nat)
    (if (d : Nat) < 10 then [Spec.digit d] else [Spec.digit ((d : Nat) / 10), Spec.digit ((d : Nat) % 10)]) := by
  have key : ∀ d : Fin 100, (if (d : Nat) < 10 then [Spec.digit d] else [Spec.digit ((d : Nat) / 10), Spec.digit ((d : Nat) % 10)]) =
      (Charconv.text 10 ((d : Nat) : Int) (by omega)).map fun k => BitVec.ofNat 8 (Streams.Spec.cased false k) := by
    decide +kernel
  intro d
  exact ⟨_, (Charconv.isNumeral_iff 10 _ (by omega) _).mpr rfl, key d⟩

/-- a negative number shows as a sign and the number without it -/
theorem shows_neg {n : Nat} (hn : 0 < n) {whole : List Ch} (h : Streams.Spec.Shows 10 false n whole) :
    Streams.Spec.Shows 10 false (-(n : Int)) (0x2d :: whole) := by
  obtain ⟨codes, h1, rfl⟩ := h
  refine ⟨45 :: codes, ?_, by simp [Streams.Spec.cased]⟩
  rw [Charconv.isNumeral_iff 10 _ (by omega)] at h1 ⊢
  unfold Charconv.text at h1 ⊢
  rw [if_neg (by omega)] at h1
  rw [if_pos (by omega), h1]
  simp

theorem double_chain (t : Traits) (c : IosCfg) (f : Streams.Spec.Fmt) (n : Int) (d : Nat) (hd : d < 100)
    (hn : -2 ^ 63 < n ∧ n < 2 ^ 63) (whole : List Ch) (hw : Streams.Spec.Shows 10 false n whole) :
    Streams.Spec.Chain t c f (doubleItems n d)
      (Streams.Spec.field f.width f.fill f.toLeft whole ++ [0x2e, Spec.digit (d / 10), Spec.digit (d % 10)])
      { f with base := 10, width := 0 } := by
  have hint : ∀ v : Int, -2 ^ 63 < v ∧ v < 2 ^ 63 → ∀ w, Streams.Spec.Sound t c { f with base := 10, width := w } (.int true 64 v) := by
    intro v hv w
    refine ⟨by simp, (intTy_range true 64 (by omega) v).mpr (by simp only [if_true]; omega), ?_, ?_⟩
    · rintro ⟨_, h⟩
      have : (intTy true 64).min = -2 ^ 63 := by decide
      rw [this] at h
      omega
    · rintro ⟨h, _⟩; simp at h
  have h0 : ∀ ch : Ch, Streams.Spec.field 0 f.fill f.toLeft [ch] = [ch] := by
    intro ch; unfold Streams.Spec.field; simp
  refine .cons _ { f with base := 10 } _ _ _ [] _ (.inr (.inl rfl)) (.setbase _ 10) ?_
  refine .cons _ { f with base := 10, width := 0 } _ _ _ _ _ (hint n hn f.width)
    (.int { f with base := 10 } true 64 n whole ((shows_upper _ _ _).mpr hw)) ?_
  have hdot : Streams.Spec.Emits { f with base := 10, width := 0 } (.chr 0x2e) [0x2e] { f with base := 10, width := 0 } := by
    have := Streams.Spec.Emits.chr { f with base := 10, width := 0 } 0x2e
    rwa [h0] at this
  have hzero : Streams.Spec.Emits { f with base := 10, width := 0 } (.chr 0x30) [0x30] { f with base := 10, width := 0 } := by
    have := Streams.Spec.Emits.chr { f with base := 10, width := 0 } 0x30
    rwa [h0] at this
  have hnum : ∀ text, Streams.Spec.Shows 10 false (d : Int) text →
      Streams.Spec.Emits { f with base := 10, width := 0 } (.int true 64 d) text { f with base := 10, width := 0 } := by
    intro text ht
    have := Streams.Spec.Emits.int { f with base := 10, width := 0 } true 64 d text ((shows_upper _ _ _).mpr ht)
    have hf : Streams.Spec.field 0 f.fill f.toLeft text = text := by unfold Streams.Spec.field; simp
    rwa [hf] at this
  refine .cons _ { f with base := 10, width := 0 } _ _ _ [0x2e] [_, _] (.inr (by simp)) hdot ?_
  have hs := shows_small ⟨d, hd⟩
  by_cases h : d < 10
  · rw [if_pos (by simpa using h)] at hs
    simp only [show ((d : Int) < 10) from by omega, if_true, List.cons_append, List.nil_append]
    have e1 : Spec.digit (d / 10) = 0x30 := by rw [Nat.div_eq_of_lt h]; rfl
    have e2 : d % 10 = d := Nat.mod_eq_of_lt h
    rw [e1, e2]
    refine .cons _ { f with base := 10, width := 0 } _ _ _ [0x30] [_] (.inr (by simp)) hzero ?_
    exact .cons _ _ _ _ _ [_] [] (hint d (by omega) 0) (hnum _ hs) (.nil _)
  · rw [if_neg (by simpa using h)] at hs
    simp only [show ¬ ((d : Int) < 10) from by omega, if_false, List.nil_append]
    exact .cons _ _ _ _ _ [_, _] [] (hint d (by omega) 0) (hnum _ hs) (.nil _)

/-! ## Insertion of a `double` -/

section
variable {t : Traits} {c : IosCfg} {K : OutImpl σ} {R : σ → List Ch → Prop} {ok : Ch → Prop} {N : Nat}

/-- What is emitted for a number of the format, for every width. -/
theorem double_emits (hK : Accepts t K R ok N) {p emax emin : Nat} (hp : 1 ≤ p) (hp' : p ≤ 62) (hpe : p < emax) {q : Rat}
    (hq : Spec.InFormat p emin q) (hx : |q * 100| < 2 ^ p) (f : Streams.Spec.Fmt) :
    ∃ (h : Int) (whole : List Ch), |(h : Rat) / 100 - q| < 1 / 100 ∧ (0 ≤ q → 0 ≤ h) ∧ (q ≤ 0 → h ≤ 0) ∧
      Streams.Spec.Shows 10 false (h.tdiv 100) whole ∧ truncQ q = h.tdiv 100 ∧
      ∀ (os : OS σ) (l : List Ch), FmtRep t os f → R os.buf l →
        (let text := Streams.Spec.field f.width f.fill f.toLeft whole ++
          [0x2e, Spec.digit (h.natAbs / 10 % 10), Spec.digit (h.natAbs % 10)]
        l.length + text.length ≤ N → (∀ ch ∈ text, ok ch) →
        ∃ os', outDouble (ieee p emax emin) t c K os (.fin q) = .ok os' ∧ R os'.buf (l ++ text) ∧
          FmtRep t os' { f with base := 10, width := 0 } ∧ os'.ios.state = os.ios.state) := by
  obtain ⟨h, h1, h2, h3, h4, h5, h6⟩ := double_numbers hp hp' hpe hq hx
  obtain ⟨whole, hw⟩ := shows_exists (h.tdiv 100)
  have htr : truncQ q = h.tdiv 100 := by
    simp only [toInt64] at h5
    split at h5
    · simpa using h5
    · cases h5
  refine ⟨h, whole, h1, h2, h3, hw, htr, ?_⟩
  intro os l hF hR text hN hok
  have hrange : -2 ^ 63 < h.tdiv 100 ∧ h.tdiv 100 < 2 ^ 63 := by
    have := Int.natAbs_tdiv_le_natAbs h 100
    omega
  have hch := double_chain t c f (h.tdiv 100) (h.natAbs % 100) (Nat.mod_lt _ (by omega)) hrange whole hw
  have e1 : h.natAbs % 100 / 10 = h.natAbs / 10 % 10 := by omega
  have e2 : h.natAbs % 100 % 10 = h.natAbs % 10 := by omega
  rw [e1, e2] at hch
  obtain ⟨os', g1, g2, g3, g4⟩ := chain_partial hK _ _ _ _ hch os l hF hR hN hok
  refine ⟨os', ?_, g2, g3, g4⟩
  unfold outDouble
  rw [h5, Res.bind_ok, h6, Res.bind_ok]
  have : ((h.natAbs : Int) % 100) = ((h.natAbs % 100 : Nat) : Int) := by omega
  rw [this]; exact g1

/-- **C84, floating-point numbers (partial).** Inserting a `double` that is not negative, or at most -1, emits the numeral
of a number of hundredths less than one hundredth away from it, with its sign, and touches neither the error state nor any
formatting but the base and the width.

Missing: numbers between -1 and 0 (`double_sign_lost`), numbers of 2^53 hundredths and more (`double_large_wrong`,
`double_large_ub`), infinities and NaN (`double_special_ub`), widths (`double_width_split`); the base stays decimal
(`double_leaves_decimal`), and the hundredth printed need not be the nearest (`double_not_nearest`). -/
theorem put_double_partial (hK : Accepts t K R ok N) {p emax emin : Nat} (hp : 1 ≤ p) (hp' : p ≤ 62) (hpe : p < emax) {q : Rat}
    (hq : Spec.InFormat p emin q) (hx : |q * 100| < 2 ^ p) (hs : 0 ≤ q ∨ q ≤ -1) (f : Streams.Spec.Fmt) (hw : f.width = 0) :
    ∃ (h : Int) (text : List Ch), |(h : Rat) / 100 - q| < 1 / 100 ∧ (h < 0 ↔ q < 0) ∧ Spec.Hundredths h text ∧
      ∀ (os : OS σ) (l : List Ch), FmtRep t os f → R os.buf l → l.length + text.length ≤ N → (∀ ch ∈ text, ok ch) →
        ∃ os', outDouble (ieee p emax emin) t c K os (.fin q) = .ok os' ∧ R os'.buf (l ++ text) ∧
          FmtRep t os' { f with base := 10 } ∧ os'.ios.state = os.ios.state := by
  obtain ⟨h, whole, h1, h2, h3, h4, _, h5⟩ := double_emits (c := c) hK hp hp' hpe hq hx f
  have hfield : Streams.Spec.field f.width f.fill f.toLeft whole = whole := by rw [hw]; unfold Streams.Spec.field; simp
  have hfmt : ({ f with base := 10, width := 0 } : Streams.Spec.Fmt) = { f with base := 10 } := by rw [← hw]
  simp only [hfield] at h5
  have hneg : h < 0 ↔ q < 0 := by
    constructor
    · intro hh
      by_contra hcon
      have := h2 (not_lt.mp hcon)
      omega
    · intro hh
      have hq1 : q ≤ -1 := by rcases hs with h | h <;> linarith
      rw [abs_lt] at h1
      have : (h : Rat) < 0 := by linarith
      exact_mod_cast this
  refine ⟨h, whole ++ [0x2e, Spec.digit (h.natAbs / 10 % 10), Spec.digit (h.natAbs % 10)], h1, hneg, ?_, fun os l hF hR hN hok => ?_⟩
  rotate_left
  · obtain ⟨os', g1, g2, g3, g4⟩ := h5 os l hF hR hN hok
    exact ⟨os', g1, g2, hfmt ▸ g3, g4⟩
  · by_cases hh : h < 0
    · -- the whole part is negative too
      have hq1 : q ≤ -1 := by
        have := hneg.mp hh
        rcases hs with h | h <;> linarith
      have hlt : h < -99 := by
        rw [abs_lt] at h1
        have : (h : Rat) < -99 := by linarith
        exact_mod_cast this
      obtain ⟨w, hw'⟩ := shows_exists ((h.natAbs / 100 : Nat) : Int)
      refine ⟨w, hw', ?_⟩
      rw [if_pos hh]
      have hd : h.tdiv 100 = -((h.natAbs / 100 : Nat) : Int) := by
        have : h = -(h.natAbs : Int) := by omega
        rw [this, Int.neg_tdiv, Int.tdiv_eq_ediv_of_nonneg (by omega)]
        simp
      have h7 := shows_neg (by omega) hw'
      rw [← hd] at h7
      have : whole = 0x2d :: w := by
        obtain ⟨c1, k1, e1⟩ := h4
        obtain ⟨c2, k2, e2⟩ := h7
        rw [Charconv.isNumeral_iff 10 _ (by omega)] at k1 k2
        rw [e1, e2, k1, k2]
      rw [this]; simp
    · refine ⟨whole, ?_, by rw [if_neg hh]; simp⟩
      have hd : h.tdiv 100 = ((h.natAbs / 100 : Nat) : Int) := by
        rw [Int.tdiv_eq_ediv_of_nonneg (by omega)]; omega
      rwa [hd] at h4

/-- **Violation.** Every number from -1 (excluded) to -0.01 is emitted without its sign: the text is the numeral of a
positive number of hundredths. -/
theorem double_sign_lost (hK : Accepts t K R ok N) {p emax emin : Nat} (hp : 1 ≤ p) (hp' : p ≤ 62) (hpe : p < emax) {q : Rat}
    (hq : Spec.InFormat p emin q) (hx : |q * 100| < 2 ^ p) (h1 : -1 < q) (h2 : q ≤ -1 / 100) (f : Streams.Spec.Fmt)
    (hw : f.width = 0) :
    ∃ (h : Int) (text : List Ch), 0 < h ∧ |(h : Rat) / 100 + q| < 1 / 100 ∧ Spec.Hundredths h text ∧
      ∀ (os : OS σ) (l : List Ch), FmtRep t os f → R os.buf l → l.length + text.length ≤ N → (∀ ch ∈ text, ok ch) →
        ∃ os', outDouble (ieee p emax emin) t c K os (.fin q) = .ok os' ∧ R os'.buf (l ++ text) := by
  obtain ⟨h, whole, g1, g2, g3, g4, g6, g5⟩ := double_emits (c := c) hK hp hp' hpe hq hx f
  have hfield : Streams.Spec.field f.width f.fill f.toLeft whole = whole := by rw [hw]; unfold Streams.Spec.field; simp
  simp only [hfield] at g5
  have hh := abs_lt.mp g1
  have hneg : h < 0 := by
    have : (h : Rat) < 0 := by linarith
    exact_mod_cast this
  have hbig : -101 < h := by
    have : (-101 : Rat) < h := by linarith
    exact_mod_cast this
  refine ⟨-h, whole ++ [0x2e, Spec.digit (h.natAbs / 10 % 10), Spec.digit (h.natAbs % 10)], by omega, ?_, ?_, fun os l hF hR hN hok => ?_⟩
  · push_cast
    rw [abs_lt]; constructor <;> linarith
  · have h0 : truncQ q = 0 := by
      unfold truncQ
      rw [if_neg (by linarith), Int.ceil_eq_iff]
      push_cast
      constructor <;> linarith
    have hq0 : h.tdiv 100 = ((h.natAbs / 100 : Nat) : Int) := by
      rw [← g6, h0]
      have hd : h.tdiv 100 = -((h.natAbs / 100 : Nat) : Int) := by
        have : h = -(h.natAbs : Int) := by omega
        rw [this, Int.neg_tdiv, Int.tdiv_eq_ediv_of_nonneg (by omega)]
        simp
      omega
    rw [hq0] at g4
    refine ⟨whole, by rwa [Int.natAbs_neg], ?_⟩
    rw [if_neg (by omega), Int.natAbs_neg]; simp
  · obtain ⟨os', k1, k2, _⟩ := g5 os l hF hR hN hok
    exact ⟨os', k1, k2⟩

/-- **Violation.** A width is used up by the whole part: every width larger than that is exceeded by the three characters
that follow, so that what is emitted is no field of that width. -/
theorem double_width_split (hK : Accepts t K R ok N) {p emax emin : Nat} (hp : 1 ≤ p) (hp' : p ≤ 62) (hpe : p < emax) {q : Rat}
    (hq : Spec.InFormat p emin q) (hx : |q * 100| < 2 ^ p) (f : Streams.Spec.Fmt) :
    ∃ (whole text : List Ch), Streams.Spec.Shows 10 false (truncQ q) whole ∧
      (whole.length < f.width → text.length = f.width + 3 ∧
        ∀ any : List Ch, any.length = whole.length + 3 → text ≠ Streams.Spec.field f.width f.fill f.toLeft any) ∧
      ∀ (os : OS σ) (l : List Ch), FmtRep t os f → R os.buf l → l.length + text.length ≤ N → (∀ ch ∈ text, ok ch) →
        ∃ os', outDouble (ieee p emax emin) t c K os (.fin q) = .ok os' ∧ R os'.buf (l ++ text) := by
  obtain ⟨h, whole, g1, g2, g3, g4, g6, g5⟩ := double_emits (c := c) hK hp hp' hpe hq hx f
  refine ⟨whole, Streams.Spec.field f.width f.fill f.toLeft whole ++
    [0x2e, Spec.digit (h.natAbs / 10 % 10), Spec.digit (h.natAbs % 10)], g6 ▸ g4, fun hlt => ?_, fun os l hF hR hN hok => ?_⟩
  · have hlen : (Streams.Spec.field f.width f.fill f.toLeft whole ++
      [0x2e, Spec.digit (h.natAbs / 10 % 10), Spec.digit (h.natAbs % 10)]).length = f.width + 3 := by
      rw [List.length_append, Streams.Spec.field_length]; simp; omega
    refine ⟨hlen, fun any ha he => ?_⟩
    rw [he, Streams.Spec.field_length] at hlen
    omega
  · obtain ⟨os', k1, k2, _⟩ := g5 os l hF hR hN hok
    exact ⟨os', k1, k2⟩

/-- **Violation.** After a `double` the stream is in decimal, whatever its base was: what is inserted next by a program that
asked for another base shows in decimal. -/
theorem double_leaves_decimal (hK : Accepts t K R ok N) {p emax emin : Nat} (hp : 1 ≤ p) (hp' : p ≤ 62) (hpe : p < emax)
    {q : Rat} (hq : Spec.InFormat p emin q) (hx : |q * 100| < 2 ^ p) (f : Streams.Spec.Fmt) :
    ∃ text : List Ch, ∀ (os : OS σ) (l : List Ch), FmtRep t os f → R os.buf l → l.length + text.length ≤ N →
      (∀ ch ∈ text, ok ch) →
      ∃ os', outDouble (ieee p emax emin) t c K os (.fin q) = .ok os' ∧ R os'.buf (l ++ text) ∧
        getBase os'.ios.flags = 10 := by
  obtain ⟨h, whole, _, _, _, _, _, g5⟩ := double_emits (c := c) hK hp hp' hpe hq hx f
  refine ⟨Streams.Spec.field f.width f.fill f.toLeft whole ++
    [0x2e, Spec.digit (h.natAbs / 10 % 10), Spec.digit (h.natAbs % 10)], fun os l hF hR hN hok => ?_⟩
  obtain ⟨os', k1, k2, k3, _⟩ := g5 os l hF hR hN hok
  exact ⟨os', k1, k2, k3.base⟩

/-- **Violation.** A whole number whose product with 100 is rounded to something that is no multiple of 100 is emitted with
digits after the point. -/
theorem double_large_wrong (hK : Accepts t K R ok N) {F : Fmt} (n y : Int) (hn : |n| < 2 ^ 63) (hy : |y| < 2 ^ 63)
    (hround : F.round ((n : Rat) * 100) = .fin y) (hd : ¬ (100 : Int) ∣ y) (f : Streams.Spec.Fmt) (hw : f.width = 0) :
    ∃ (whole : List Ch) (d : Nat), Streams.Spec.Shows 10 false n whole ∧ 0 < d ∧ d < 100 ∧
      ∀ (os : OS σ) (l : List Ch), FmtRep t os f → R os.buf l → l.length + (whole.length + 3) ≤ N →
        (∀ ch ∈ whole ++ [0x2e, Spec.digit (d / 10), Spec.digit (d % 10)], ok ch) →
        ∃ os', outDouble F t c K os (.fin n) = .ok os' ∧
          R os'.buf (l ++ (whole ++ [0x2e, Spec.digit (d / 10), Spec.digit (d % 10)])) := by
  have htr : ∀ k : Int, truncQ (k : Rat) = k := by intro k; unfold truncQ; split <;> simp
  obtain ⟨whole, hs⟩ := shows_exists n
  rw [abs_lt] at hn hy
  refine ⟨whole, y.natAbs % 100, hs, ?_, Nat.mod_lt _ (by omega), fun os l hF hR hN hok => ?_⟩
  · omega
  · have hch := double_chain t c f n (y.natAbs % 100) (Nat.mod_lt _ (by omega)) (by omega) whole hs
    have hfield : Streams.Spec.field f.width f.fill f.toLeft whole = whole := by rw [hw]; unfold Streams.Spec.field; simp
    rw [hfield] at hch
    obtain ⟨os', g1, g2, _⟩ := chain_partial hK _ _ _ _ hch os l hF hR (by simp; omega) hok
    refine ⟨os', ?_, g2⟩
    unfold outDouble places
    have h1 : toInt64 (.fin (n : Rat)) = .ok n := by
      simp only [toInt64, htr]; rw [if_pos (by omega)]
    have h2 : toInt64 (F.mul (.fin (n : Rat)) 100) = .ok y := by
      simp only [Fmt.mul, hround, toInt64, htr]; rw [if_pos (by omega)]
    rw [h1, h2, Res.bind_ok, Res.bind_ok, Res.bind_ok]
    have h3 : (if y.tmod 100 < 0 then -(y.tmod 100) else y.tmod 100) = ((y.natAbs % 100 : Nat) : Int) := by
      rcases Int.natAbs_eq y with h | h
      · rw [h, Int.natAbs_natCast, Int.tmod_eq_emod_of_nonneg (by omega)]
        split <;> omega
      · rw [h, Int.natAbs_neg, Int.natAbs_natCast, Int.neg_tmod, Int.tmod_eq_emod_of_nonneg (by omega)]
        split <;> omega
    rw [h3]; exact g1

end

/-- **Violation.** Infinities and NaN are converted to an integer, which is undefined. -/
theorem double_special_ub (F : Fmt) (t : Traits) (c : IosCfg) (K : OutImpl σ) (os : OS σ) :
    outDouble F t c K os .inf = .ub ∧ outDouble F t c K os .nan = .ub := ⟨rfl, rfl⟩

/-- **Violation.** Every number of 2^63 hundredths and more, from about 9.2e16 on, is undefined behaviour, in every format;
so is every number of -2^64 hundredths and less. -/
theorem double_large_ub {F : Fmt} {p emax : Nat} (hF : Streams.Spec.Binary F p emax) (t : Traits) (c : IosCfg) (K : OutImpl σ)
    (os : OS σ) (q : Rat) (hq : (2 : Rat) ^ 63 ≤ q * 100 ∨ q * 100 ≤ -(2 : Rat) ^ 64) : outDouble F t c K os (.fin q) = .ub := by
  have hpl : places F (.fin q) = .ub := by
    unfold places
    simp only [Fmt.mul]
    rcases hq with hq | hq
    case inr =>
      rcases hF.below (q * 100) 64 hq with h | ⟨y, h, hy⟩
      · rw [h]; rfl
      · rw [h]
        simp only [toInt64]
        have hy0 : ¬ 0 ≤ y := by
          intro h0
          have := le_trans h0 hy
          norm_num at this
        have : ⌈y⌉ ≤ -(2 : Int) ^ 64 := Int.ceil_le.mpr (by push_cast; exact hy)
        rw [if_neg]
        · rfl
        · unfold truncQ; rw [if_neg hy0]; omega
    rcases hF.above (q * 100) 63 hq with h | ⟨y, h, hy⟩
    · rw [h]; rfl
    · rw [h]
      simp only [toInt64]
      have hy0 : 0 ≤ y := le_trans (by norm_num) hy
      have : (2 : Int) ^ 63 ≤ ⌊y⌋ := Int.le_floor.mpr (by push_cast; exact hy)
      rw [if_neg]
      · rfl
      · unfold truncQ; rw [if_pos hy0]; omega
  unfold outDouble
  simp only [toInt64]
  split
  · simp only [Res.bind_ok]; rw [hpl]; rfl
  · rfl

/-- rounding worked out: the exponent, and the integer nearest on the grid -/
theorem nearest_eval {p emin : Nat} {x : Rat} (L m : Int) (hpos : 0 < x) (h1 : (2 : Rat) ^ L ≤ x) (h2 : x < (2 : Rat) ^ (L + 1))
    (he : -(emin : Int) ≤ L - (p - 1 : Int)) (h3 : |x - m * 2 ^ (L - (p - 1 : Int))| * 2 < 2 ^ (L - (p - 1 : Int))) :
    nearest p emin x = m * 2 ^ (L - (p - 1 : Int)) := by
  have habs : |x| = x := abs_of_pos hpos
  have hl : Int.log 2 |x| = L := by
    rw [habs]
    have g1 := (Int.zpow_le_iff_le_log (b := 2) (by norm_num) hpos (x := L)).mp (by exact_mod_cast h1)
    have g2 := (Int.lt_zpow_iff_log_lt (b := 2) (by norm_num) hpos (x := L + 1)).mp (by exact_mod_cast h2)
    omega
  have hu : ulpExp p emin x = L - (p - 1 : Int) := by
    unfold ulpExp; rw [hl]; exact max_eq_left he
  have h0 : (0 : Rat) < 2 ^ (L - (p - 1 : Int)) := zpow_pos (by norm_num) _
  unfold nearest
  rw [hu]
  congr 2
  rw [round_eq, Int.floor_eq_iff]
  generalize (2 : Rat) ^ (L - (p - 1 : Int)) = u at *
  rw [show |x - m * u| = |x / u - m| * u by
    rw [← abs_of_pos h0, ← abs_mul, abs_of_pos h0, sub_mul, div_mul_cancel₀ _ h0.ne']] at h3
  have : |x / u - m| * 2 < 1 := by
    by_contra hc
    have := mul_le_mul_of_nonneg_right (not_lt.mp hc) h0.le
    linarith
  have := abs_lt.mp (show |x / u - m| < 1 / 2 by linarith)
  constructor <;> linarith

theorem ieee_round_small {p emax emin : Nat} {x : Rat} (he : 64 ≤ emax) (h1 : |x| < 2 ^ 64) (h2 : |nearest p emin x| < 2 ^ 64) :
    (ieee p emax emin).round x = .fin (nearest p emin x) := by
  have hpow : (2 : Rat) ^ 64 ≤ 2 ^ emax := pow_le_pow_right₀ (by norm_num) he
  simp only [ieee]
  rw [if_neg]
  rintro (h | h) <;> linarith

/-- `double` -/
def double : Fmt := ieee 53 1024 1074

/-- **Violation.** 4503599627370497.0 is such a number: it is emitted as `4503599627370497.28`. -/
theorem double_large_example :
    double.round (((2 ^ 52 + 1 : Int) : Rat) * 100) = .fin ((450359962737049728 : Int) : Rat) ∧
    ¬ (100 : Int) ∣ 450359962737049728 := by
  refine ⟨?_, by decide⟩
  have hn : nearest 53 1074 (((2 ^ 52 + 1 : Int) : Rat) * 100) = ((450359962737049728 : Int) : Rat) := by
    rw [nearest_eval 58 7036874417766402]
    all_goals norm_num
    all_goals rw [abs_lt]
    all_goals norm_num
  unfold double
  rw [ieee_round_small (by omega), hn]
  · norm_num [abs_lt]
  · rw [hn]; norm_num [abs_lt]

/-- **Violation.** The `double` nearest to 0.29 is emitted as `0.28`. -/
theorem double_not_nearest (t : Traits) (c : IosCfg) (K : OutImpl σ) (os : OS σ) :
    double.round (29 / 100) = .fin (5224175567749775 / 2 ^ 54) ∧
    outDouble double t c K os (double.round (29 / 100)) = os.insertAll t c K (doubleItems 0 28) := by
  have n1 : nearest 53 1074 (29 / 100) = 5224175567749775 / 2 ^ 54 := by
    rw [nearest_eval (-2) 5224175567749775]
    all_goals norm_num
    all_goals norm_num [abs_lt]
  have n2 : nearest 53 1074 (5224175567749775 / 2 ^ 54 * 100) = 8162774324609023 / 2 ^ 48 := by
    rw [nearest_eval 4 8162774324609023]
    all_goals norm_num
    all_goals norm_num [abs_lt]
  have r1 : double.round (29 / 100) = .fin (5224175567749775 / 2 ^ 54) := by
    unfold double
    rw [ieee_round_small (by omega), n1]
    · norm_num [abs_lt]
    · rw [n1]; norm_num [abs_lt]
  have r2 : double.round (5224175567749775 / 2 ^ 54 * 100) = .fin (8162774324609023 / 2 ^ 48) := by
    unfold double
    rw [ieee_round_small (by omega), n2]
    · norm_num [abs_lt]
    · rw [n2]; norm_num [abs_lt]
  refine ⟨r1, ?_⟩
  rw [r1]
  have t1 : truncQ (5224175567749775 / 2 ^ 54) = 0 := by
    unfold truncQ
    rw [if_pos (by norm_num), Int.floor_eq_iff]; norm_num
  have t2 : truncQ (8162774324609023 / 2 ^ 48) = 28 := by
    unfold truncQ
    rw [if_pos (by norm_num), Int.floor_eq_iff]; norm_num
  unfold outDouble places
  simp only [Fmt.mul, r2, toInt64, t1, t2]
  rfl

/-! ## Quantities -/

/-- the period of a prefix, in lowest terms -/
def Spec.period (k : Int) : Nat × Nat := if 0 ≤ k then (10 ^ k.toNat, 1) else (1, 10 ^ (-k).toNat)

/-- the prefix for a power of ten: none, or one of the SI -/
def Spec.Prefix (k : Int) (name short : List Ch) : Prop :=
  (k = 0 ∧ name = [] ∧ short = []) ∨ ∃ e ∈ Spec.si, e.1 = k ∧ name = chars e.2.1 ∧ short = chars e.2.2

/-- **Violation.** There is no `giga`: a quantity whose period is 10^9, of whatever unit, cannot be printed. -/
theorem giga_missing (tag : Tag) :
    siTraits (Spec.period 9).1 (Spec.period 9).2 tag = none ∧
    ∀ (F : Fmt) (t : Traits) (c : IosCfg) (K : OutImpl σ) (os : OS σ) (cnt : Count) (short : Bool),
      putUnit F t c K os (Spec.period 9).1 (Spec.period 9).2 tag cnt short = none := by
  have h : siTraits (Spec.period 9).1 (Spec.period 9).2 tag = none := by
    cases tag <;> rfl
  refine ⟨h, fun F t c K os cnt short => ?_⟩
  unfold putUnit suffix suffixAbbrev
  rw [h]
  cases short <;> rfl

theorem si_prefix {k : Int} {name short : List Ch} (h : Spec.Prefix k name short) (h9 : k ≠ 9) (h0 : k ≠ 0) (tag : Tag) :
    siTraits (Spec.period k).1 (Spec.period k).2 tag = some (name, short) ∧ Spec.period k ≠ (1, 1) := by
  rcases h with ⟨h, _⟩ | ⟨e, he, rfl, rfl, rfl⟩
  · exact absurd h h0
  · simp only [Spec.si, List.mem_cons, List.not_mem_nil, or_false] at he
    rcases he with rfl | rfl | rfl | rfl | rfl | rfl | rfl | rfl | rfl | rfl
    all_goals first
      | exact absurd rfl h9
      | exact ⟨rfl, by decide⟩

section
variable {t : Traits} {c : IosCfg} {K : OutImpl σ} {R : σ → List Ch → Prop} {ok : Ch → Prop} {N : Nat}

theorem texts_ok (hK : Accepts t K R ok N) : ∀ (items : List Item) (text : List Ch) (f : Streams.Spec.Fmt), f.width = 0 →
    (∀ i ∈ items, (∃ s, i = .str s) ∨ ∃ ch, i = .chr ch) →
    text = (items.map fun | .str s => s | .chr ch => [ch] | _ => []).flatten →
    Streams.Spec.Chain t c f items text f := by
  intro items
  induction items with
  | nil => intro text f _ _ ht; subst ht; exact .nil f
  | cons i items ih =>
    intro text f hw hi ht
    have hrest := ih _ f hw (fun j hj => hi j (List.mem_cons_of_mem _ hj)) rfl
    have hsame : ({ f with width := 0 } : Streams.Spec.Fmt) = f := by rw [← hw]
    rcases hi i (by simp) with ⟨s, rfl⟩ | ⟨ch, rfl⟩
    · have he := Streams.Spec.Emits.str f s
      have hf : Streams.Spec.field f.width f.fill f.toLeft s = s := by rw [hw]; unfold Streams.Spec.field; simp
      rw [hf, hsame] at he
      subst ht
      exact .cons f f f _ _ s _ hw he hrest
    · have he := Streams.Spec.Emits.chr f ch
      have hf : Streams.Spec.field f.width f.fill f.toLeft [ch] = [ch] := by rw [hw]; unfold Streams.Spec.field; simp
      rw [hf, hsame] at he
      subst ht
      exact .cons f f f _ _ [ch] _ (.inr (by rw [hw]; omega)) he hrest

/-- Once the count is out, the rest of a quantity follows: a space unless the short form is asked for, the prefix and the
unit, by name or symbol. -/
theorem put_unit_ok (hK : Accepts t K R ok N) (F : Fmt) (k : Int) (name short : List Ch) (hpre : Spec.Prefix k name short)
    (h9 : k ≠ 9) (tag : Tag) (unit symbol : List Ch) (hu : Spec.Named tag unit symbol) (cnt : Count) (brief : Bool) (os os1 : OS σ) (f : Streams.Spec.Fmt) (hw : f.width = 0)
    (l : List Ch) (hc : outCount F t c K os cnt = .ok os1) (hF : FmtRep t os1 f) (hR : R os1.buf l)
    (text : List Ch) (ht : text = if brief then short ++ symbol else [0x20] ++ name ++ unit)
    (hN : l.length + text.length ≤ N) (hok : ∀ ch ∈ text, ok ch) :
    ∃ os', putUnit F t c K os (Spec.period k).1 (Spec.period k).2 tag cnt brief = some (.ok os') ∧ R os'.buf (l ++ text) ∧
      FmtRep t os' f ∧ os'.ios.state = os1.ios.state := by
  have hu' : tag.traits = (unit, symbol) := by cases hu <;> rfl
  have key : ∀ items : List Item, Streams.Spec.Chain t c f items text f →
      ∃ os', (outCount F t c K os cnt).bind (fun os => os.insertAll t c K items) = .ok os' ∧ R os'.buf (l ++ text) ∧
        FmtRep t os' f ∧ os'.ios.state = os1.ios.state := by
    intro items hch
    rw [hc, Res.bind_ok]
    exact chain_partial hK _ _ _ _ hch os1 l hF hR hN hok
  by_cases h0 : k = 0
  · subst h0
    have hns : name = [] ∧ short = [] := by
      rcases hpre with ⟨_, h⟩ | ⟨e, he, h, _⟩
      · exact h
      · simp only [Spec.si, List.mem_cons, List.not_mem_nil, or_false] at he
        rcases he with rfl | rfl | rfl | rfl | rfl | rfl | rfl | rfl | rfl | rfl <;> simp at h
    obtain ⟨rfl, rfl⟩ := hns
    cases brief with
    | true =>
      obtain ⟨os', g⟩ := key [.str tag.traits.2] (texts_ok hK _ _ f hw (by simp) (by simp [ht, hu']))
      exact ⟨os', by rw [← g.1]; rfl, g.2⟩
    | false =>
      obtain ⟨os', g⟩ := key [.chr 0x20, .str tag.traits.1] (texts_ok hK _ _ f hw (by simp) (by simp [ht, hu']))
      exact ⟨os', by rw [← g.1]; rfl, g.2⟩
  · obtain ⟨h1, h2⟩ := si_prefix hpre h9 h0 tag
    cases brief with
    | true =>
      obtain ⟨os', g⟩ := key [.str short, .str tag.traits.2] (texts_ok hK _ _ f hw (by simp) (by simp [ht, hu']))
      refine ⟨os', ?_, g.2⟩
      rw [← g.1]
      unfold putUnit suffixAbbrev
      rw [if_pos rfl, if_neg h2, h1]; rfl
    | false =>
      obtain ⟨os', g⟩ := key [.chr 0x20, .str name, .str tag.traits.1] (texts_ok hK _ _ f hw (by simp) (by simp [ht, hu']))
      refine ⟨os', ?_, g.2⟩
      rw [← g.1]
      unfold putUnit suffix
      rw [if_neg (by simp), if_neg h2, h1]; rfl

/-- **C84, whole counts (partial).** A quantity with an integer count is emitted as the count, in the stream's field, base
and case, followed by the names or symbols of its prefix and its unit.

Missing: the counts that C38 gets wrong (the least value of a signed type, long octal numerals: `Sound`), and the prefix
`giga` (`giga_missing`). -/
theorem put_unit_int_partial (hK : Accepts t K R ok N) (F : Fmt) (k : Int) (name short : List Ch)
    (hpre : Spec.Prefix k name short) (h9 : k ≠ 9) (tag : Tag) (unit symbol : List Ch)
    (hu : Spec.Named tag unit symbol) (signed : Bool) (bits : Nat) (v : Int) (brief : Bool)
    (os : OS σ) (f : Streams.Spec.Fmt) (l : List Ch) (hF : FmtRep t os f) (hR : R os.buf l)
    (hs : Streams.Spec.Sound t c f (.int signed bits v)) (num : List Ch) (hn : Streams.Spec.Shows f.base f.upper v num)
    (text : List Ch) (ht : text = Streams.Spec.field f.width f.fill f.toLeft num ++
      if brief then short ++ symbol else [0x20] ++ name ++ unit)
    (hN : l.length + text.length ≤ N) (hok : ∀ ch ∈ text, ok ch) :
    ∃ os', putUnit F t c K os (Spec.period k).1 (Spec.period k).2 tag (.int signed bits v) brief = some (.ok os') ∧
      R os'.buf (l ++ text) ∧ FmtRep t os' { f with width := 0 } ∧ os'.ios.state = os.ios.state := by
  subst ht
  rw [List.length_append] at hN
  obtain ⟨os1, g1, g2, g3, g4⟩ := insert_ok (c := c) hK os f _ l _ (.int signed bits v) hF hR hs
    (.int f signed bits v num hn) (by omega) (fun ch h => hok ch (List.mem_append.mpr (.inl h)))
  obtain ⟨os', e1, e2, e3, e4⟩ := put_unit_ok (c := c) hK F k name short hpre h9 tag unit symbol hu (.int signed bits v) brief os os1
    { f with width := 0 } rfl _ g1 g3 g2 _ rfl (by rw [List.length_append]; omega)
    (fun ch h => hok ch (List.mem_append.mpr (.inr h)))
  exact ⟨os', e1, by rw [← List.append_assoc]; exact e2, e3, e4.trans g4⟩

/-- **C84, floating-point counts (partial).** A quantity whose count is a `double` as in `put_double_partial` is emitted as
that numeral, followed by the names or symbols of its prefix and its unit.

Missing: what `put_double_partial` misses, and the prefix `giga` (`giga_missing`). -/
theorem put_unit_double_partial (hK : Accepts t K R ok N) {q : Rat} (hq : Spec.InFormat 53 1074 q) (hx : |q * 100| < 2 ^ 53)
    (hs : 0 ≤ q ∨ q ≤ -1) (k : Int) (name short : List Ch) (hpre : Spec.Prefix k name short) (h9 : k ≠ 9) (tag : Tag)
    (unit symbol : List Ch) (hu : Spec.Named tag unit symbol) (brief : Bool) (f : Streams.Spec.Fmt) (hw : f.width = 0) :
    ∃ (h : Int) (num : List Ch), |(h : Rat) / 100 - q| < 1 / 100 ∧ (h < 0 ↔ q < 0) ∧ Spec.Hundredths h num ∧
      ∀ (os : OS σ) (l text : List Ch), FmtRep t os f → R os.buf l →
        text = num ++ (if brief then short ++ symbol else [0x20] ++ name ++ unit) →
        l.length + text.length ≤ N → (∀ ch ∈ text, ok ch) →
        ∃ os', putUnit double t c K os (Spec.period k).1 (Spec.period k).2 tag (.dbl (.fin q)) brief = some (.ok os') ∧
          R os'.buf (l ++ text) ∧ FmtRep t os' { f with base := 10 } ∧ os'.ios.state = os.ios.state := by
  obtain ⟨h, num, h1, h2, h3, h4⟩ := put_double_partial (c := c) (p := 53) (emax := 1024) (emin := 1074) hK (by omega) (by omega)
    (by omega) hq hx hs f hw
  refine ⟨h, num, h1, h2, h3, fun os l text hF hR ht hN hok => ?_⟩
  subst ht
  rw [List.length_append] at hN
  obtain ⟨os1, g1, g2, g3, g4⟩ := h4 os l hF hR (by omega) (fun ch h => hok ch (List.mem_append.mpr (.inl h)))
  obtain ⟨os', e1, e2, e3, e4⟩ := put_unit_ok (c := c) hK double k name short hpre h9 tag unit symbol hu (.dbl (.fin q)) brief os os1
    { f with base := 10 } hw _ g1 g3 g2 _ rfl (by rw [List.length_append]; omega)
    (fun ch h => hok ch (List.mem_append.mpr (.inr h)))
  exact ⟨os', e1, by rw [← List.append_assoc]; exact e2, e3, e4.trans g4⟩

end

/-- **Violation.** Quantities of 1000 bytes and of 1024 bytes (and their squares) are printed alike: for every count, the
two insertions do the same, although the quantities differ. -/
theorem bytes_ambiguous (F : Fmt) (t : Traits) (c : IosCfg) (K : OutImpl σ) (os : OS σ) (cnt : Count) (brief : Bool) :
    putUnit F t c K os 1000 1 .bytes cnt brief = putUnit F t c K os 1024 1 .bytes cnt brief ∧
    putUnit F t c K os (1000 * 1000) 1 .bytes cnt brief = putUnit F t c K os (1024 * 1024) 1 .bytes cnt brief := ⟨rfl, rfl⟩

/-! ### The hypotheses are met -/

/-- -3.75 is a `double`, and a sink accepts: -/
example : Spec.InFormat 53 1074 (-15 / 4) ∧ |(-15 / 4 : Rat) * 100| < 2 ^ 53 ∧ ((-15 / 4 : Rat) ≤ -1) :=
  ⟨⟨-15, -2, by norm_num, by norm_num [abs_lt], by norm_num⟩, by norm_num [abs_lt], by norm_num⟩

example : Spec.Hundredths (-375) [0x2d, 0x33, 0x2e, 0x37, 0x35] :=
  ⟨[0x33], shows_small ⟨3, by omega⟩, by decide⟩

example : Spec.Prefix (-3) (chars "milli") (chars "m") := .inr ⟨(-3, "milli", "m"), by simp [Spec.si], rfl, rfl, rfl⟩

example (t : Traits) : Accepts t (spanOut t) (fun s l => s.mem.length = 100 ∧ s.pos ≤ 100 ∧ s.mem.take s.pos = l)
    t.Tellable 100 := span_accepts t 100

end Verif.Streams.Units
