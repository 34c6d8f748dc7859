import Verif.Streams.OstreamProps
/-!
# Text lengths of integers and `to_string`

C50: `estd::to_string(value)` is the canonical decimal numeral of every value, and the overload that
fills a caller's string does the same whenever the numeral fits.
C51: `numeric_limits<T>::length<base>` is the longest numeral of a value of `T` in that base, and
`digits10` is the number of decimal digits every value of which `T` can hold.
-/
namespace Verif.Text
open Verif Verif.Charconv Verif.Streams

/-! ## The model -/

/-- `uint_strlen<base, bits>`, internal/limits/traits.h:14-38; `none` where no specialization exists. -/
def uintStrlen (base bits : Nat) : Option Nat :=
  if base = 10 then
    if bits = 8 then some 3 else if bits = 16 then some 5 else if bits = 32 then some 10
    else if bits = 64 then some 20 else none
  else if base = 16 then some (bits / 4)
  else if base = 8 then some ((bits + 1) / 3)
  else none

/-- `integer_limits<T, is_signed>::length<base>`, internal/limits/integer.h:39-43. -/
def length (signed : Bool) (bits base : Nat) : Option Nat :=
  (uintStrlen base bits).map (· + if signed then 1 else 0)

/-- `digits10`, internal/limits/integer.h:46-124. -/
def digits10 (signed : Bool) (bits : Nat) : Nat :=
  if bits = 8 then 2 else if bits = 16 then 4 else if bits = 32 then 9
  else if signed then 18 else 19

/-- `digits`, internal/limits/integer.h:28. -/
def digits2 (signed : Bool) (bits : Nat) : Nat := bits - if signed then 1 else 0

/-- `to_string(value)`, internal/to_string.h:82-94 (`FEATURE_ESTD_TO_STRING_OPT` is 1,
feature/string.h:14), with `detail::to_chars<10>` (charconv.h:58-66) and the result type
`shifted_string` (internal/charconv/string.h:17-98, 120): a buffer of `length<10> + 1` characters,
not initialised (`g`), of which the text is what stands from `begin_` (a `uint8_t`) to the end.  The
error code is not looked at. -/
def toString (signed : Bool) (bits : Nat) (v : Int) (g : List Nat) : Option (List Nat) :=
  match length signed bits 10 with
  | none => none
  | some n =>
    match toCharsOpt (intTy signed bits) false g 0 (n + 1) v 10 with
    | none => none
    | some (m, p, _) => some (m.drop (p % 256))

/-- `to_string(s, value)`, internal/to_string.h:27-42, into a null-terminated string whose buffer is
`m` (`max_size()` is one less than its size, impl/dynamic_array.h:274-278): `to_chars` into
`max_size()` characters, then a terminator at the returned pointer.  The error code is not looked
at. -/
def toStringInto (signed : Bool) (bits : Nat) (v : Int) (m : List Nat) : Option (List Nat) :=
  match toChars (intTy signed bits) m 0 (m.length - 1) v 10 with
  | none => none
  | some (m1, p, _) => wr m1 p 0

/-- `to_string_opt(buffer, value, base)`, internal/to_string.h:48-64: the buffer and the returned
pointer and error code. -/
def toStringOpt (signed : Bool) (bits : Nat) (v : Int) (base : Nat) (m : List Nat) :
    Option (List Nat × Nat × Ec) :=
  match toCharsOpt (intTy signed bits) false m 0 (m.length - 1) v base with
  | none => none
  | some (m1, p, ec) => (wr m1 (m.length - 1) 0).map (·, p, ec)

/-! ## Specification -/

/-- The C string that starts at position `a`: `text` followed by a terminator, no terminator inside. -/
def Spec.CString (m : List Nat) (a : Nat) (text : List Nat) : Prop :=
  Charconv.Spec.Holds m a text ∧ m[a + text.length]? = some 0 ∧ 0 ∉ text

/-! ## Numerals contain no terminator -/

theorem numeral_no_zero {base : Nat} {v : Int} {txt : List Nat} (h : Charconv.Spec.IsNumeral base v txt) :
    0 ∉ txt := by
  have nat : ∀ n t, Charconv.Spec.IsNatNumeral base n t → 0 ∉ t := by
    rintro n t ⟨ds, -, -, -, -, rfl⟩ hm
    obtain ⟨d, -, hd⟩ := List.mem_map.mp hm
    split at hd <;> omega
  rcases h with ⟨-, h⟩ | ⟨-, t, rfl, h⟩
  · exact nat _ _ h
  · intro hm
    rcases List.mem_cons.mp hm with h0 | hm
    · omega
    · exact nat _ _ h hm

/-! ## C51: lengths -/

/-- the numeral's length in terms of magnitudes -/
theorem numeral_length_le {base : Nat} (hb : 2 ≤ base) {v : Int} {txt : List Nat}
    (h : Charconv.Spec.IsNumeral base v txt) (k : Nat) (hk : v.natAbs < base ^ (k + 1)) :
    txt.length ≤ (if v < 0 then 1 else 0) + (k + 1) := by
  rw [isNumeral_iff base v hb] at h
  subst h
  rw [text_length]
  have := digits_length_le base hb k _ hk
  omega

theorem numeral_length_gt {base : Nat} (hb : 2 ≤ base) {v : Int} {txt : List Nat}
    (h : Charconv.Spec.IsNumeral base v txt) (k : Nat) (hk : base ^ k ≤ v.natAbs) :
    (if v < 0 then 1 else 0) + k < txt.length := by
  rw [isNumeral_iff base v hb] at h
  subst h
  rw [text_length]
  have := digits_length_gt base hb k _ hk
  omega

/-- C51, decimal and hexadecimal: `length<base>` characters hold the numeral of every value of the
type, and no smaller number would.  (Missing: signed 64 bits in decimal, `length10_int64`; octal,
`length8_partial`.) -/
theorem length_is_max_partial (signed : Bool) (bits base : Nat)
    (hbits : bits = 8 ∨ bits = 16 ∨ bits = 32 ∨ bits = 64) (hbase : base = 10 ∨ base = 16)
    (hnot : ¬ (signed = true ∧ bits = 64 ∧ base = 10)) :
    ∃ n, length signed bits base = some n ∧
      (∀ v txt, InRange (intTy signed bits) v → Charconv.Spec.IsNumeral base v txt → txt.length ≤ n) ∧
      ∃ v txt, InRange (intTy signed bits) v ∧ Charconv.Spec.IsNumeral base v txt ∧ txt.length = n := by
  have hb : 2 ≤ base := by omega
  have main : ∀ n, length signed bits base = some n → ∀ k, n = (if signed then 1 else 0) + (k + 1) →
      ∀ w, InRange (intTy signed bits) w → (signed = true → w < 0) → (signed = false → 0 ≤ w) →
      base ^ k ≤ w.natAbs →
      (∀ v, InRange (intTy signed bits) v → v.natAbs < base ^ (k + 1)) →
      (∀ v txt, InRange (intTy signed bits) v → Charconv.Spec.IsNumeral base v txt → txt.length ≤ n) ∧
      ∃ v txt, InRange (intTy signed bits) v ∧ Charconv.Spec.IsNumeral base v txt ∧ txt.length = n := by
    intro n _ k hn w hw hs hu hge hlt
    have up : ∀ v txt, InRange (intTy signed bits) v → Charconv.Spec.IsNumeral base v txt →
        txt.length ≤ n := by
      intro v txt hv ht
      have := numeral_length_le hb ht k (hlt v hv)
      subst hn
      cases signed with
      | true => simp only [if_true]; split at this <;> omega
      | false =>
        have h0 : ¬ v < 0 := by have := hv.1; simp [intTy, IntTy.min] at this; omega
        rw [if_neg h0] at this
        simp only [Bool.false_eq_true, if_false]; omega
    refine ⟨up, w, text base w hb, hw, (isNumeral_iff base w hb _).mpr rfl, ?_⟩
    have h1 := up w _ hw ((isNumeral_iff base w hb _).mpr rfl)
    have h2 := numeral_length_gt hb ((isNumeral_iff base w hb _).mpr rfl) k hge
    subst hn
    cases signed with
    | true => rw [if_pos (hs rfl)] at h2; simp only [if_true] at h1 ⊢; omega
    | false =>
      rw [if_neg (by have := hu rfl; omega)] at h2
      simp only [Bool.false_eq_true, if_false] at h1 ⊢; omega
  have fin : ∀ n k w, length signed bits base = some n → n = (if signed then 1 else 0) + (k + 1) →
      InRange (intTy signed bits) w → (signed = true → w < 0) → (signed = false → 0 ≤ w) →
      base ^ k ≤ w.natAbs → (∀ v, InRange (intTy signed bits) v → v.natAbs < base ^ (k + 1)) →
      ∃ n, length signed bits base = some n ∧
        (∀ v txt, InRange (intTy signed bits) v → Charconv.Spec.IsNumeral base v txt → txt.length ≤ n) ∧
        ∃ v txt, InRange (intTy signed bits) v ∧ Charconv.Spec.IsNumeral base v txt ∧ txt.length = n :=
    fun n k w h1 h2 h3 h4 h5 h6 h7 => ⟨n, h1, main n h1 k h2 w h3 h4 h5 h6 h7⟩
  rcases hbase with rfl | rfl <;> rcases hbits with rfl | rfl | rfl | rfl <;> cases signed
  · exact fin 3 2 255 rfl rfl (by unfold InRange; decide) (by decide) (by decide) (by decide)
      (by intro v ⟨a, b⟩; simp [intTy, IntTy.min] at a b ⊢; omega)
  · exact fin 4 2 (-128) rfl rfl (by unfold InRange; decide) (by decide) (by decide) (by decide)
      (by intro v ⟨a, b⟩; simp [intTy, IntTy.min] at a b ⊢; omega)
  · exact fin 5 4 65535 rfl rfl (by unfold InRange; decide) (by decide) (by decide) (by decide)
      (by intro v ⟨a, b⟩; simp [intTy, IntTy.min] at a b ⊢; omega)
  · exact fin 6 4 (-32768) rfl rfl (by unfold InRange; decide) (by decide) (by decide) (by decide)
      (by intro v ⟨a, b⟩; simp [intTy, IntTy.min] at a b ⊢; omega)
  · exact fin 10 9 4294967295 rfl rfl (by unfold InRange; decide) (by decide) (by decide) (by decide)
      (by intro v ⟨a, b⟩; simp [intTy, IntTy.min] at a b ⊢; omega)
  · exact fin 11 9 (-2147483648) rfl rfl (by unfold InRange; decide) (by decide) (by decide) (by decide)
      (by intro v ⟨a, b⟩; simp [intTy, IntTy.min] at a b ⊢; omega)
  · exact fin 20 19 18446744073709551615 rfl rfl (by unfold InRange; decide) (by decide) (by decide)
      (by decide) (by intro v ⟨a, b⟩; simp [intTy, IntTy.min] at a b ⊢; omega)
  · exact absurd ⟨rfl, rfl, rfl⟩ hnot
  · exact fin 2 1 255 rfl rfl (by unfold InRange; decide) (by decide) (by decide) (by decide)
      (by intro v ⟨a, b⟩; simp [intTy, IntTy.min] at a b ⊢; omega)
  · exact fin 3 1 (-128) rfl rfl (by unfold InRange; decide) (by decide) (by decide) (by decide)
      (by intro v ⟨a, b⟩; simp [intTy, IntTy.min] at a b ⊢; omega)
  · exact fin 4 3 65535 rfl rfl (by unfold InRange; decide) (by decide) (by decide) (by decide)
      (by intro v ⟨a, b⟩; simp [intTy, IntTy.min] at a b ⊢; omega)
  · exact fin 5 3 (-32768) rfl rfl (by unfold InRange; decide) (by decide) (by decide) (by decide)
      (by intro v ⟨a, b⟩; simp [intTy, IntTy.min] at a b ⊢; omega)
  · exact fin 8 7 4294967295 rfl rfl (by unfold InRange; decide) (by decide) (by decide) (by decide)
      (by intro v ⟨a, b⟩; simp [intTy, IntTy.min] at a b ⊢; omega)
  · exact fin 9 7 (-2147483648) rfl rfl (by unfold InRange; decide) (by decide) (by decide) (by decide)
      (by intro v ⟨a, b⟩; simp [intTy, IntTy.min] at a b ⊢; omega)
  · exact fin 16 15 18446744073709551615 rfl rfl (by unfold InRange; decide) (by decide) (by decide)
      (by decide) (by intro v ⟨a, b⟩; simp [intTy, IntTy.min] at a b ⊢; omega)
  · exact fin 17 15 (-9223372036854775808) rfl rfl (by unfold InRange; decide) (by decide) (by decide)
      (by decide) (by intro v ⟨a, b⟩; simp [intTy, IntTy.min] at a b ⊢; omega)

/-- C51, signed 64-bit values in decimal: the bound holds, but one character is never used. -/
theorem length10_int64 :
    length true 64 10 = some 21 ∧
      ∀ v txt, InRange (intTy true 64) v → Charconv.Spec.IsNumeral 10 v txt → txt.length ≤ 20 := by
  refine ⟨rfl, fun v txt hv ht => ?_⟩
  obtain ⟨a, b⟩ := hv
  simp [intTy, IntTy.min] at a b
  have := numeral_length_le (by omega) ht 18 (by omega)
  split at this <;> omega

/-- C51: `length<10>` is an upper bound for every type. -/
theorem length10_bound (signed : Bool) (bits : Nat)
    (hbits : bits = 8 ∨ bits = 16 ∨ bits = 32 ∨ bits = 64) :
    ∃ n, length signed bits 10 = some n ∧
      ∀ v txt, InRange (intTy signed bits) v → Charconv.Spec.IsNumeral 10 v txt → txt.length ≤ n := by
  by_cases h : signed = true ∧ bits = 64
  · obtain ⟨rfl, rfl⟩ := h
    exact ⟨21, length10_int64.1, fun v txt h1 h2 => Nat.le_succ_of_le (length10_int64.2 v txt h1 h2)⟩
  · obtain ⟨n, h1, h2, -⟩ := length_is_max_partial signed bits 10 hbits (.inl rfl)
      (fun ⟨a, b, _⟩ => h ⟨a, b⟩)
    exact ⟨n, h1, h2⟩

/-- C51, octal: exactly the values of 16 and 64 bit types whose magnitude uses the top bit have a
numeral longer than `length<8>`; the bound is wrong for them. -/
theorem length8_partial (signed : Bool) (bits : Nat)
    (hbits : bits = 8 ∨ bits = 16 ∨ bits = 32 ∨ bits = 64) (v : Int)
    (hv : InRange (intTy signed bits) v) (txt : List Nat) (ht : Charconv.Spec.IsNumeral 8 v txt) :
    ∃ n, length signed bits 8 = some n ∧
      (txt.length ≤ n ↔ ¬ (bits = 16 ∧ 2 ^ 15 ≤ v.natAbs ∨ bits = 64 ∧ 2 ^ 63 ≤ v.natAbs)) := by
  refine ⟨_, rfl, ?_⟩
  obtain ⟨a, b⟩ := hv
  have hup := numeral_length_le (by omega) ht
  have hlo := numeral_length_gt (by omega) ht
  rcases hbits with rfl | rfl | rfl | rfl <;> cases signed <;>
    simp [intTy, IntTy.min] at a b ⊢
  · have := hup 2 (by omega)
    split at this <;> omega
  · have := hup 2 (by omega)
    split at this <;> omega
  · by_cases h : 32768 ≤ v.natAbs
    · have := hlo 5 (by omega); split at this <;> omega
    · have := hup 4 (by omega); split at this <;> omega
  · by_cases h : 32768 ≤ v.natAbs
    · have := hlo 5 (by omega); split at this <;> omega
    · have := hup 4 (by omega); split at this <;> omega
  · have := hup 10 (by omega)
    split at this <;> omega
  · have := hup 10 (by omega)
    split at this <;> omega
  · by_cases h : 9223372036854775808 ≤ v.natAbs
    · have := hlo 21 (by omega); split at this <;> omega
    · have := hup 20 (by omega); split at this <;> omega
  · by_cases h : 9223372036854775808 ≤ v.natAbs
    · have := hlo 21 (by omega); split at this <;> omega
    · have := hup 20 (by omega); split at this <;> omega

/-- `uint16_t` 65535 is 177777 in octal, one more than `length<8>` allows. -/
example : Charconv.Spec.IsNumeral 8 65535 [49, 55, 55, 55, 55, 55] ∧ length false 16 8 = some 5 :=
  ⟨(isNumeral_iff 8 65535 (by omega) _).mpr (by decide +kernel), rfl⟩

/-- C51: `digits10` is the largest `d` such that the type holds every number of `d` decimal digits;
`digits` the number of value bits. -/
theorem digits10_spec (signed : Bool) (bits : Nat)
    (hbits : bits = 8 ∨ bits = 16 ∨ bits = 32 ∨ bits = 64) :
    (∀ d : Nat, (∀ n : Nat, n < 10 ^ d → n ≤ (intTy signed bits).max) ↔ d ≤ digits10 signed bits) ∧
    (intTy signed bits).max + 1 = 2 ^ digits2 signed bits := by
  have main : ∀ D M : Nat, 10 ^ D - 1 ≤ M → M < 10 ^ (D + 1) - 1 →
      ∀ d : Nat, (∀ n : Nat, n < 10 ^ d → n ≤ M) ↔ d ≤ D := by
    intro D M h1 h2 d
    constructor
    · intro h
      rcases Nat.lt_or_ge D d with hd | hd
      · have h3 : 10 ^ (D + 1) ≤ 10 ^ d := Nat.pow_le_pow_right (by omega) hd
        have := h (10 ^ (D + 1) - 1) (by have : 0 < 10 ^ (D + 1) := Nat.pow_pos (by omega); omega)
        omega
      · exact hd
    · intro h n hn
      have h3 : 10 ^ d ≤ 10 ^ D := Nat.pow_le_pow_right (by omega) h
      omega
  constructor
  · rcases hbits with rfl | rfl | rfl | rfl <;> cases signed <;>
      exact main _ _ (by decide) (by decide)
  · rcases hbits with rfl | rfl | rfl | rfl <;> cases signed <;> decide

/-! ## C50: to_string -/

/-- The digit loop without room: it returns the first position, which keeps its old contents; behind
it stand the low digits. -/
theorem toCharsLoop_refused (base : Nat) (hb : 2 ≤ base) (tc : Nat → Nat) (neg : Bool) (first : Nat) :
    ∀ (last : Nat) (m : List Nat) (v : Nat), first < last → last ≤ m.length →
    last - first ≤ (digits base v hb).length →
    ∃ m', toCharsLoop tc base neg first last m v = some (m', first, .tooLarge) ∧
      Charconv.Spec.SameOutside m m' (first + 1) last ∧
      Charconv.Spec.Holds m' (first + 1)
        (((digits base v hb).map tc).drop ((digits base v hb).length - (last - first - 1))) := by
  intro last
  induction last with
  | zero => intro m v h; omega
  | succ last ih =>
    intro m v h1 h2 h3
    unfold toCharsLoop
    by_cases hfl : first = last
    · subst hfl
      refine ⟨m, by rw [if_pos rfl], ⟨rfl, fun _ _ => rfl⟩, ?_⟩
      intro i hi
      rw [List.length_drop, List.length_map] at hi
      omega
    · rw [if_neg hfl, wr_lt (show last < m.length by omega)]
      simp only
      by_cases hz : v / base = 0
      · have hd1 : digits base v hb = [v % base] := by rw [digits, if_pos hz]
        rw [hd1, List.length_singleton] at h3
        omega
      · have hd1 : digits base v hb = digits base (v / base) hb ++ [v % base] := by
          rw [digits, if_neg hz]
        have hlen : (digits base v hb).length = (digits base (v / base) hb).length + 1 := by
          rw [hd1]; simp
        rw [if_neg hz]
        obtain ⟨m', e1, ⟨e2, e3⟩, e4⟩ := ih (m.set last (tc (v % base))) (v / base) (by omega)
          (by simp; omega) (by omega)
        refine ⟨m', e1, ⟨by simpa using e2, ?_⟩, ?_⟩
        · intro j hj
          rw [e3 j (by omega), List.getElem?_set_ne (by omega)]
        · intro i hi
          have hsp : ((digits base v hb).map tc).drop ((digits base v hb).length - (last + 1 - first - 1)) =
              ((digits base (v / base) hb).map tc).drop
                ((digits base (v / base) hb).length - (last - first - 1)) ++ [tc (v % base)] := by
            rw [hd1, List.map_append, List.length_append, List.length_singleton, List.drop_append_of_le_length
              (by rw [List.length_map]; omega)]
            congr 2
            omega
          rw [hsp] at hi ⊢
          rw [List.length_append, List.length_drop, List.length_map, List.length_singleton] at hi
          by_cases hin : i < last - first - 1
          · rw [e4 i (by rw [List.length_drop, List.length_map]; omega), List.getElem?_append_left
              (by rw [List.length_drop, List.length_map]; omega)]
          · rw [List.getElem?_append_right (by rw [List.length_drop, List.length_map]; omega),
              e3 (first + 1 + i) (by omega)]
            rw [List.length_drop, List.length_map]
            have : first + 1 + i = last := by omega
            rw [this, show i - ((digits base (v / base) hb).length -
              ((digits base (v / base) hb).length - (last - first - 1))) = 0 by omega]
            simp [show last < m.length by omega]

/-- C50: `to_string(value)` is the canonical decimal numeral, for every integer type and every value
but the signed minimum, whatever the uninitialised buffer held. -/
theorem to_string_partial (signed : Bool) (bits : Nat)
    (hbits : bits = 8 ∨ bits = 16 ∨ bits = 32 ∨ bits = 64) (v : Int)
    (hv : InRange (intTy signed bits) v) (hmin : ¬ (signed = true ∧ v = (intTy signed bits).min))
    (g : List Nat) (hg : ∀ n, length signed bits 10 = some n → g.length = n + 1) :
    ∃ txt, toString signed bits v g = some txt ∧ Charconv.Spec.IsNumeral 10 v txt := by
  obtain ⟨n, hn, hle⟩ := length10_bound signed bits hbits
  have hgl := hg n hn
  have hnum := (isNumeral_iff 10 v (by omega) _).mpr rfl
  have hfit := hle v _ hv hnum
  have hn22 : n ≤ 21 := by
    rcases hbits with rfl | rfl | rfl | rfl <;> cases signed <;> simp [length, uintStrlen] at hn <;> omega
  obtain ⟨m', p, h1, h2, h3, h4, h5⟩ := to_chars_opt_partial (intTy signed bits) g 0 (n + 1) v 10 (by omega)
    (by omega) hv hmin (by omega) _ hnum (by split <;> omega)
  refine ⟨text 10 v (by omega), ?_, hnum⟩
  unfold toString
  rw [hn]
  simp only [h1]
  rw [Nat.mod_eq_of_lt (by omega)]
  congr 1
  apply List.ext_getElem?
  intro i
  rw [List.getElem?_drop]
  by_cases hi : i < (text 10 v (by omega)).length
  · exact h4 i hi
  · rw [List.getElem?_eq_none (by rw [h5.1]; omega), List.getElem?_eq_none (by omega)]

/-- **Violation.**  The signed minimum is undefined (the magnitude is not a value of the type). -/
theorem to_string_min_undefined (bits : Nat)
    (hbits : bits = 8 ∨ bits = 16 ∨ bits = 32 ∨ bits = 64) (g : List Nat) :
    toString true bits (intTy true bits).min g = none := by
  have : ∀ n, toCharsOpt (intTy true bits) false g 0 (n + 1) (intTy true bits).min 10 = none := by
    intro n
    have h : ∀ M : Nat, (decide (IntTy.min ⟨true, M⟩ < 0) && decide (-(IntTy.min ⟨true, M⟩) > (M : Int))) = true := by
      intro M; simp [IntTy.min]; omega
    unfold toCharsOpt intTy
    simp [h]
  unfold toString
  rcases hbits with rfl | rfl | rfl | rfl <;> simp [length, uintStrlen, this]

example : toString false 16 65535 [9, 9, 9, 9, 9, 9] = some [54, 53, 53, 51, 53] := by decide +kernel

/-- C50, into a caller's string: whenever one character more than the numeral (for negative values:
exactly the numeral) fits, the string afterwards is the numeral.  (Missing: the exact fit of a
non-negative value, see below, and the signed minimum.) -/
theorem to_string_into_partial (signed : Bool) (bits : Nat) (v : Int)
    (hv : InRange (intTy signed bits) v) (hmin : ¬ (signed = true ∧ v = (intTy signed bits).min))
    (m : List Nat) (txt : List Nat) (ht : Charconv.Spec.IsNumeral 10 v txt)
    (hfit : txt.length + (if v < 0 then 0 else 1) ≤ m.length - 1) :
    ∃ m', toStringInto signed bits v m = some m' ∧ m'.length = m.length ∧ Spec.CString m' 0 txt := by
  obtain ⟨m1, h1, h2, h3⟩ := to_chars_partial (intTy signed bits) m 0 (m.length - 1) v 10 (by omega)
    (by omega) hv hmin (by omega) txt ht (by omega)
  have hpos : 0 < txt.length := by
    have h4 := (isNumeral_iff 10 v (by omega) _).mp ht
    rw [h4, text_length]
    have := List.length_pos_iff.mpr (digits_ne_nil 10 v.natAbs (by omega))
    omega
  have hl : 0 + txt.length < m1.length := by rw [h3.1]; omega
  refine ⟨m1.set (0 + txt.length) 0, ?_, by simp [h3.1], ?_, ?_, numeral_no_zero ht⟩
  · unfold toStringInto
    rw [h1]
    exact wr_lt hl
  · intro i hi
    rw [List.getElem?_set_ne (by omega)]
    exact h2 i hi
  · rw [Nat.zero_add] at hl ⊢
    rw [List.getElem?_set_self hl]

/-- **Violation.**  A non-negative value whose numeral exactly fits the string is not converted: the
first character keeps whatever was there and only the rest of the numeral is written.  Nothing
reports this. -/
theorem to_string_into_exact_fit (signed : Bool) (bits : Nat) (v : Int)
    (hv : InRange (intTy signed bits) v) (hpos : 0 ≤ v) (m : List Nat) (txt : List Nat)
    (ht : Charconv.Spec.IsNumeral 10 v txt) (hfit : txt.length = m.length - 1) :
    ∃ m', toStringInto signed bits v m = some m' ∧ m'.length = m.length ∧ m'[0]? = m[0]? ∧
      (∀ i, 1 ≤ i → i < txt.length → m'[i]? = txt[i]?) ∧ m'[txt.length]? = some 0 := by
  have htx := (isNumeral_iff 10 v (by omega) _).mp ht
  have htl : txt.length = (digits 10 v.natAbs (by omega)).length := by
    rw [htx, text_length, if_neg (by omega)]; omega
  have hd := List.length_pos_iff.mpr (digits_ne_nil 10 v.natAbs (by omega))
  obtain ⟨m1, e1, ⟨e2, e3⟩, e4⟩ := toCharsLoop_refused 10 (by omega) (toChar (facet 10) false)
    ((intTy signed bits).signed && decide (v < 0)) 0 (m.length - 1) m v.natAbs (by omega) (by omega) (by omega)
  have hneg : ((intTy signed bits).signed && decide (v < 0)) = false := by
    rw [decide_eq_false (by omega), Bool.and_false]
  have e5 : toCharsOpt (intTy signed bits) false m 0 (m.length - 1) v 10 = some (m1, 0, .tooLarge) := by
    unfold toCharsOpt
    simp only [hneg, Bool.false_and, Bool.false_eq_true, if_false]
    rw [hneg] at e1
    exact e1
  obtain ⟨m2, q, h6, h7, h8⟩ : ∃ m2 q, Algorithm.copy m1 0 (m.length - 1) 0 = some (m2, q) ∧
      q = m.length - 1 ∧ m2 = m1 := by
    obtain ⟨m2, f1, f2, f3⟩ := Algorithm.copy_effect m1 0 (m.length - 1) 0 (by omega) (by omega) (by omega)
      (by omega)
    refine ⟨m2, _, f1, by omega, List.ext_getElem? fun j => ?_⟩
    rw [f3]
    split
    · congr 1; omega
    · rfl
  subst h7; subst h8
  have hl : m.length - 1 < m2.length := by omega
  refine ⟨m2.set (m.length - 1) 0, ?_, by simp [e2], ?_, ?_, ?_⟩
  · unfold toStringInto toChars
    rw [e5]
    simp only [h6]
    exact wr_lt hl
  · rw [List.getElem?_set_ne (by omega)]
    exact e3 0 (by omega)
  · intro i hi1 hi2
    rw [List.getElem?_set_ne (by omega)]
    obtain ⟨j, rfl⟩ : ∃ j, i = j + 1 := ⟨i - 1, by omega⟩
    have := e4 j (by rw [List.length_drop, List.length_map]; omega)
    rw [show 0 + 1 + j = j + 1 by omega, map_tc 10 _ (by omega) (by omega), List.getElem?_drop] at this
    rw [this, htx]
    unfold text
    rw [if_neg (by omega)]
    congr 1
    omega
  · rw [hfit]; simp [hl]

/-- `uint8_t` 255 into a `layer1::string<4>` that held `xyz` gives `x55`. -/
example : toStringInto false 8 255 [120, 121, 122, 0] = some [120, 53, 53, 0] := by decide +kernel

/-- C50, `to_string_opt`: in any base from 2 to 36, with the same room, the returned pointer is the
start of a C string holding the numeral. -/
theorem to_string_opt_partial (signed : Bool) (bits : Nat) (v : Int) (base : Nat) (hb : 2 ≤ base)
    (hb2 : base ≤ 36) (hv : InRange (intTy signed bits) v)
    (hmin : ¬ (signed = true ∧ v = (intTy signed bits).min))
    (m : List Nat) (txt : List Nat) (ht : Charconv.Spec.IsNumeral base v txt)
    (hfit : txt.length + (if v < 0 then 0 else 1) ≤ m.length - 1) :
    ∃ m' p, toStringOpt signed bits v base m = some (m', p, .ok) ∧ m'.length = m.length ∧
      Spec.CString m' p txt := by
  obtain ⟨m1, p, h1, h2, h3, h4, h5⟩ := to_chars_opt_partial (intTy signed bits) m 0 (m.length - 1) v base hb
    hb2 hv hmin (by omega) txt ht (by omega)
  have hpos : 0 < txt.length := by
    have h4 := (isNumeral_iff base v (by omega) _).mp ht
    rw [h4, text_length]
    have := List.length_pos_iff.mpr (digits_ne_nil base v.natAbs (by omega))
    omega
  have hl : m.length - 1 < m1.length := by rw [h5.1]; omega
  refine ⟨m1.set (m.length - 1) 0, p, ?_, by simp [h5.1], ?_, ?_, numeral_no_zero ht⟩
  · unfold toStringOpt
    rw [h1]
    simp only [wr_lt hl, Option.map_some]
  · intro i hi
    rw [List.getElem?_set_ne (by omega)]
    exact h4 i hi
  · rw [show p + txt.length = m.length - 1 by omega, List.getElem?_set_self hl]

/-- the hypotheses, concretely: -128..127 without the minimum, hexadecimal, a buffer of five -/
example : toStringOpt true 8 (-127) 16 [1, 1, 1, 1, 1] = some ([1, 45, 55, 102, 0], 1, .ok) := by
  decide +kernel

/-- C51: every value is below the power of two `digits` names, and the largest reaches it. -/
theorem digits_spec (signed : Bool) (bits : Nat)
    (hbits : bits = 8 ∨ bits = 16 ∨ bits = 32 ∨ bits = 64) :
    (∀ v : Int, InRange (intTy signed bits) v → v < 2 ^ digits2 signed bits) ∧
      InRange (intTy signed bits) (2 ^ digits2 signed bits - 1) := by
  rcases hbits with rfl | rfl | rfl | rfl <;> cases signed <;>
    refine ⟨fun v ⟨a, b⟩ => ?_, ?_, ?_⟩ <;>
    simp [intTy, IntTy.min, digits2] at * <;> omega

end Verif.Text
