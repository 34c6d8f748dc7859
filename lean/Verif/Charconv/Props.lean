import Verif.Charconv.Spec
/-!
# Property theorems for charconv (C16, C17, C18, C19)
-/
namespace Verif.Charconv
open Verif

/-! ## C19: digits -/

theorem clear20_eq (c : Nat) (h : c < 256) : clear20 c = if 32 ≤ c % 64 then c - 32 else c := by
  have key : ∀ c : Fin 256, clear20 c.val = if 32 ≤ c.val % 64 then c.val - 32 else c.val := by
    decide +kernel
  exact key ⟨c, h⟩

theorem takeWhile_self {p : Nat → Bool} {l : List Nat} (h : ∀ c ∈ l, p c = true) : l.takeWhile p = l := by
  have := List.takeWhile_append_of_pos (p := p) (l₁ := l) (l₂ := []) h
  simpa using this

theorem digit_iff (base c d : Nat) : Spec.digit base c = some d ↔
    d < base ∧ ((48 ≤ c ∧ c ≤ 57 ∧ d = c - 48) ∨ (65 ≤ c ∧ c ≤ 90 ∧ d = c - 55) ∨ (97 ≤ c ∧ c ≤ 122 ∧ d = c - 87)) := by
  unfold Spec.digit Spec.digitVal
  by_cases h1 : 48 ≤ c ∧ c ≤ 57
  · simp only [h1, and_self, if_true]
    split <;> simp <;> omega
  · by_cases h2 : 65 ≤ c ∧ c ≤ 90
    · simp only [h1, h2, and_self, if_true, if_false]
      split <;> simp <;> omega
    · by_cases h3 : 97 ≤ c ∧ c ≤ 122
      · simp only [h1, h2, h3, and_self, if_true, if_false]
        split <;> simp <;> omega
      · simp only [h1, h2, h3, if_false]
        simp; omega

/-- C19: `from_char` accepts exactly the digits of the base and gives their value. -/
theorem from_char_spec (base c : Nat) (hb : 2 ≤ base) (hb' : base ≤ 36) (hc : c < 256) :
    fromChar (facet base) c base = Spec.digit base c := by
  apply Option.ext
  intro d
  rw [digit_iff]
  unfold facet
  by_cases h : base > 10
  · simp only [h, if_true, fromChar, fromChar36, asciiIsDigit, isUpper, clear20_eq c hc]
    repeat' split
    all_goals simp at *
    all_goals omega
  · simp only [h, if_false, fromChar, fromChar10, isInBase10]
    repeat' split
    all_goals simp at *
    all_goals omega

theorem digit_isSome (base c : Nat) : (Spec.digit base c).isSome = true ↔
    (48 ≤ c ∧ c ≤ 57 ∧ c - 48 < base) ∨ (65 ≤ c ∧ c ≤ 90 ∧ c - 55 < base) ∨ (97 ≤ c ∧ c ≤ 122 ∧ c - 87 < base) := by
  rw [Option.isSome_iff_exists]
  simp only [digit_iff]
  constructor
  · rintro ⟨d, h⟩; omega
  · rintro (h | h | h)
    · exact ⟨c - 48, by omega⟩
    · exact ⟨c - 55, by omega⟩
    · exact ⟨c - 87, by omega⟩

/-- C19: `is_in_base` accepts exactly the digits of the base. -/
theorem is_in_base_spec (base c : Nat) (hb : 2 ≤ base) (hb' : base ≤ 36) :
    isInBase (facet base) c base = (Spec.digit base c).isSome := by
  rw [Bool.eq_iff_iff, digit_isSome]
  unfold facet
  by_cases h : base > 10
  · simp [h, isInBase, isInBase36, asciiIsDigit, isUpper, isLower]; omega
  · simp [h, isInBase, isInBase10]; omega

/-- C19: formatting a digit and reading it back gives the digit, in either letter case. -/
theorem from_char_to_char (base d : Nat) (upper : Bool) (hb : 2 ≤ base) (hb' : base ≤ 36) (hd : d < base) :
    fromChar (facet base) (toChar (facet base) upper d) base = some d := by
  have hc : toChar (facet base) upper d < 256 := by
    unfold toChar toChar10 toChar36; repeat' split
    all_goals first | omega | (simp; omega)
  rw [from_char_spec base _ hb hb' hc, digit_iff]
  unfold facet toChar toChar10 toChar36
  cases upper
  all_goals repeat' split
  all_goals simp_all
  all_goals omega

/-- C19: `to_char` gives the lower-case digit character. -/
theorem to_char_spec (base d : Nat) (hb' : base ≤ 36) (hd : d < base) :
    toChar (facet base) false d = if d < 10 then 48 + d else 87 + d := by
  unfold facet toChar toChar10 toChar36
  repeat' split
  all_goals simp_all
  all_goals omega

/-- C19: the unchecked conversions agree with the checked one on digits of the base. -/
theorem from_char_raw_spec (c d base : Nat) (h : Spec.digit base c = some d) : fromCharRaw36 c = d := by
  rw [digit_iff] at h
  unfold fromCharRaw36
  repeat' split
  all_goals omega

/-- C19: `isalpha` accepts exactly the letter digits of the base, in either case. -/
theorem is_alpha_spec (c base : Nat) (hc : c < 256) (hb : 11 ≤ base) (hb' : base ≤ 36) :
    isAlpha c base = (isUpper c base || isLower c base) := by
  simp only [isAlpha, isUpper, isLower, clear20_eq c hc]
  rw [Bool.eq_iff_iff]
  split
  all_goals simp
  all_goals omega

example : fromChar (facet 16) 70 16 = some 15 ∧ fromChar (facet 8) 56 8 = none := by decide +kernel

/-! ## Digit sequences -/

/-- Digit values of a number, most significant first. -/
def digits (base n : Nat) (hb : 2 ≤ base) : List Nat :=
  if n / base = 0 then [n % base] else digits base (n / base) hb ++ [n % base]
termination_by n
decreasing_by
  rename_i h
  have : n ≠ 0 := by intro h0; simp [h0] at h
  exact Nat.div_lt_self (by omega) (by omega)

theorem digits_ne_nil (base n : Nat) (hb : 2 ≤ base) : digits base n hb ≠ [] := by
  rw [digits]; split <;> simp

theorem digits_lt (base n : Nat) (hb : 2 ≤ base) : ∀ d ∈ digits base n hb, d < base := by
  fun_induction digits base n hb with
  | case1 n h => intro d hd; simp at hd; subst hd; exact Nat.mod_lt _ (by omega)
  | case2 n h ih =>
    intro d hd
    rcases List.mem_append.mp hd with hd | hd
    · exact ih d hd
    · simp at hd; subst hd; exact Nat.mod_lt _ (by omega)

theorem value_append (base : Nat) (ds : List Nat) (d : Nat) :
    Spec.value base (ds ++ [d]) = Spec.value base ds * base + d := by
  simp [Spec.value, List.foldl_append]

theorem digits_value (base n : Nat) (hb : 2 ≤ base) : Spec.value base (digits base n hb) = n := by
  fun_induction digits base n hb with
  | case1 n h =>
    have := Nat.div_add_mod n base
    rw [h] at this
    simp [Spec.value]; omega
  | case2 n h ih =>
    rw [value_append, ih, Nat.mul_comm]; exact Nat.div_add_mod n base

theorem digits_head (base n : Nat) (hb : 2 ≤ base) : (digits base n hb).head? = some 0 → digits base n hb = [0] := by
  fun_induction digits base n hb with
  | case1 n h => intro he; simp at he; simp [he]
  | case2 n h ih =>
    intro he
    rw [List.head?_append] at he
    have hne := digits_ne_nil base (n / base) hb
    have hh : (digits base (n / base) hb).head? = some 0 := by
      cases hd : digits base (n / base) hb with
      | nil => exact absurd hd hne
      | cons a l => rw [hd] at he; simpa using he
    have := ih hh
    have hv := digits_value base (n / base) hb
    rw [this] at hv
    simp [Spec.value] at hv
    exact absurd hv.symm h

/-- The canonical digit sequence is unique. -/
theorem digits_unique (base n : Nat) (hb : 2 ≤ base) (ds : List Nat) (h1 : ds ≠ []) (h2 : ∀ d ∈ ds, d < base)
    (h3 : ds.head? = some 0 → ds = [0]) (h4 : Spec.value base ds = n) : ds = digits base n hb := by
  fun_induction digits base n hb generalizing ds with
  | case1 n h =>
    obtain ⟨k, d, rfl⟩ : ∃ k d, ds = k ++ [d] := ⟨_, _, (List.dropLast_concat_getLast h1).symm⟩
    rw [value_append] at h4
    have hd : d < base := h2 d (by simp)
    have hk0 : Spec.value base k = 0 := by
      rcases Nat.eq_zero_or_pos (Spec.value base k) with h0 | h0
      · exact h0
      · exfalso
        have hlt := Nat.lt_of_div_eq_zero (by omega) h
        have : base ≤ Spec.value base k * base := Nat.le_mul_of_pos_left _ h0
        omega
    rw [hk0] at h4
    have hk : k = [] := by
      cases k with
      | nil => rfl
      | cons a k =>
        exfalso
        have ha : a = 0 := by
          have hpos : ∀ (k : List Nat) (acc : Nat), acc ≤ k.foldl (fun a d => a * base + d) acc := by
            intro k
            induction k with
            | nil => intro acc; simp
            | cons b k ih =>
              intro acc
              simp only [List.foldl_cons]
              refine Nat.le_trans ?_ (ih _)
              have : acc ≤ acc * base := Nat.le_mul_of_pos_right _ (by omega)
              omega
          have := hpos k a
          simp [Spec.value] at hk0
          omega
        subst ha
        have := h3 (by simp)
        simp at this
    subst hk
    have : n < base := Nat.lt_of_div_eq_zero (by omega) h
    simp; rw [Nat.mod_eq_of_lt this]; omega
  | case2 n h ih =>
    obtain ⟨k, d, rfl⟩ : ∃ k d, ds = k ++ [d] := ⟨_, _, (List.dropLast_concat_getLast h1).symm⟩
    rw [value_append] at h4
    have hd : d < base := h2 d (by simp)
    have hdm : n % base = d := by
      rw [← h4, Nat.add_comm, Nat.add_mul_mod_self_right, Nat.mod_eq_of_lt hd]
    have hdv : n / base = Spec.value base k := by
      rw [← h4, Nat.add_comm, Nat.add_mul_div_right _ _ (by omega), Nat.div_eq_of_lt hd, Nat.zero_add]
    have hk : k ≠ [] := by
      intro hk; subst hk; apply h; rw [hdv]; rfl
    rw [hdm, ← ih k hk (fun x hx => h2 x (by simp [hx])) ?_ hdv.symm]
    intro hh
    have := h3 (by rw [List.head?_append, hh]; rfl)
    have hl := congrArg List.length this
    simp at hl
    exact absurd hl hk

/-- Lower-case numeral of a natural number. -/
def natText (base n : Nat) (hb : 2 ≤ base) : List Nat :=
  (digits base n hb).map (fun d => if d < 10 then 48 + d else 87 + d)

/-- Lower-case numeral of an integer. -/
def text (base : Nat) (v : Int) (hb : 2 ≤ base) : List Nat :=
  if v < 0 then 45 :: natText base v.natAbs hb else natText base v.natAbs hb

theorem natText_isNatNumeral (base n : Nat) (hb : 2 ≤ base) : Spec.IsNatNumeral base n (natText base n hb) :=
  ⟨digits base n hb, digits_ne_nil _ _ _, digits_lt _ _ _, digits_head _ _ _, digits_value _ _ _, rfl⟩

/-- Every integer has exactly one canonical numeral. -/
theorem isNumeral_iff (base : Nat) (v : Int) (hb : 2 ≤ base) (txt : List Nat) :
    Spec.IsNumeral base v txt ↔ txt = text base v hb := by
  have nat : ∀ n t, Spec.IsNatNumeral base n t ↔ t = natText base n hb := by
    intro n t
    constructor
    · rintro ⟨ds, h1, h2, h3, h4, rfl⟩
      rw [digits_unique base n hb ds h1 h2 h3 h4]; rfl
    · rintro rfl; exact natText_isNatNumeral base n hb
  unfold Spec.IsNumeral text
  by_cases hv : v < 0
  · have : (-v).toNat = v.natAbs := by omega
    simp only [hv, if_true, true_and, nat, this]
    constructor
    · rintro (⟨h, _⟩ | ⟨t, rfl, rfl⟩)
      · omega
      · rfl
    · rintro rfl; exact Or.inr ⟨_, rfl, rfl⟩
  · have : v.toNat = v.natAbs := by omega
    simp only [hv, if_false, false_and, or_false, nat, this]
    constructor
    · exact fun h => h.2
    · exact fun h => ⟨by omega, h⟩

/-! ## C16: to_chars -/

/-- The digit loop: with room it writes the digits (and sign) right-aligned, without room it says so. -/
theorem toCharsLoop_spec (base : Nat) (hb : 2 ≤ base) (hb' : base ≤ 36) (tc : Nat → Nat) (neg : Bool) (first last : Nat)
    (m : List Nat) (v : Nat) (h1 : first < last) (h2 : last ≤ m.length) :
    ∃ m' p, Spec.SameOutside m m' first last ∧
      (if (digits base v hb).length < last - first then
        toCharsLoop tc base neg first last m v = some (m', p, .ok) ∧
        p + ((if neg then 1 else 0) + (digits base v hb).length) = last ∧
        Spec.Holds m' p ((if neg then [45] else []) ++ (digits base v hb).map tc)
      else toCharsLoop tc base neg first last m v = some (m', first, .tooLarge)) := by
  induction last generalizing m v with
  | zero => omega
  | succ last ih =>
    unfold toCharsLoop
    have hdig := digits_ne_nil base v hb
    have hdl : 0 < (digits base v hb).length := List.length_pos_iff.mpr hdig
    by_cases hfl : first = last
    · refine ⟨m, last, ⟨rfl, fun _ _ => rfl⟩, ?_⟩
      subst hfl
      rw [if_neg (by omega), if_pos rfl]
    · rw [if_neg hfl, wr_lt (show last < m.length by omega)]
      simp only
      by_cases hz : v / base = 0
      · have hd1 : digits base v hb = [v % base] := by rw [digits, if_pos hz]
        simp only [hz, if_true, hd1, List.length_singleton]
        cases neg with
        | false =>
          refine ⟨m.set last (tc (v % base)), last, ⟨by simp, ?_⟩, ?_⟩
          · intro j hj; rw [List.getElem?_set_ne (by omega)]
          · rw [if_pos (by omega)]
            refine ⟨by simp, by simp, ?_⟩
            intro i hi
            simp at hi; subst hi
            simp [show last < m.length by omega]
        | true =>
          obtain ⟨l, rfl⟩ : ∃ l, last = l + 1 := ⟨last - 1, by omega⟩
          refine ⟨(m.set (l + 1) (tc (v % base))).set l 45, l, ⟨by simp, ?_⟩, ?_⟩
          · intro j hj; rw [List.getElem?_set_ne (by omega), List.getElem?_set_ne (by omega)]
          · rw [if_pos (by omega)]
            have hl : l < (m.set (l + 1) (tc (v % base))).length := by simp; omega
            refine ⟨by simp [wr_lt hl], by simp, ?_⟩
            intro i hi
            simp at hi
            have : i = 0 ∨ i = 1 := by omega
            rcases this with rfl | rfl
            · simp [show l < m.length by omega]
            · rw [List.getElem?_set_ne (by omega)]; simp [show l + 1 < m.length by omega]
      · have hd1 : digits base v hb = digits base (v / base) hb ++ [v % base] := by
          rw [digits, if_neg hz]
        simp only [hz, if_false]
        obtain ⟨m', p, ⟨e0, e1⟩, e2⟩ := ih (m.set last (tc (v % base))) (v / base) (by omega) (by simp; omega)
        refine ⟨m', p, ⟨by simpa using e0, ?_⟩, ?_⟩
        · intro j hj
          rw [e1 j (by omega), List.getElem?_set_ne (by omega)]
        · have hlen : (digits base v hb).length = (digits base (v / base) hb).length + 1 := by
            rw [hd1]; simp
          by_cases hroom : (digits base (v / base) hb).length < last - first
          · rw [if_pos hroom] at e2
            rw [if_pos (by omega)]
            obtain ⟨e3, e4, e5⟩ := e2
            refine ⟨e3, by rw [hlen]; omega, ?_⟩
            intro i hi
            rw [hd1, List.map_append, ← List.append_assoc] at hi ⊢
            by_cases hin : i < ((if neg then [45] else []) ++ (digits base (v / base) hb).map tc).length
            · rw [e5 i hin, List.getElem?_append_left hin]
            · have hil : i = ((if neg then [45] else []) ++ (digits base (v / base) hb).map tc).length := by
                simp at hi hin ⊢; omega
              have hpl : p + i = last := by
                rw [hil]; cases neg <;> simp at e4 ⊢ <;> omega
              rw [List.getElem?_append_right (by omega), hpl, e1 last (by omega), ← hil]
              simp [show last < m.length by omega]
          · rw [if_neg hroom] at e2
            rw [if_neg (by omega)]
            exact e2

theorem text_length (base : Nat) (v : Int) (hb : 2 ≤ base) :
    (text base v hb).length = (if v < 0 then 1 else 0) + (digits base v.natAbs hb).length := by
  unfold text natText; split <;> simp; omega

/-- The value is one of type `t`. -/
def InRange (t : IntTy) (v : Int) : Prop := t.min ≤ v ∧ v ≤ t.max

/-- Lower-case digits produced by the facet are the specification's characters. -/
theorem map_tc (base n : Nat) (hb : 2 ≤ base) (hb' : base ≤ 36) :
    (digits base n hb).map (toChar (facet base) false) = natText base n hb := by
  unfold natText
  apply List.map_congr_left
  intro d hd
  exact to_char_spec base d hb' (digits_lt base n hb d hd)

theorem toCharsOpt_core (t : IntTy) (m : List Nat) (first last : Nat) (v : Int) (base : Nat)
    (hb : 2 ≤ base) (hb' : base ≤ 36) (hv : InRange t v) (hmin : ¬ (t.signed = true ∧ v = t.min))
    (h1 : first < last) (h2 : last ≤ m.length) :
    ∃ m' p, Spec.SameOutside m m' first last ∧
      (if (digits base v.natAbs hb).length < last - first then
        toCharsOpt t false m first last v base = some (m', p, .ok) ∧
        p + (text base v hb).length = last ∧ first ≤ p ∧ Spec.Holds m' p (text base v hb)
      else toCharsOpt t false m first last v base = some (m', first, .tooLarge)) := by
  have hneg : (t.signed && decide (v < 0)) = decide (v < 0) := by
    cases hs : t.signed with
    | true => simp
    | false =>
      have := hv.1
      unfold IntTy.min at this
      simp [hs] at this
      simp; omega
  have hub : ¬ ((decide (v < 0) && decide (-v > t.max)) = true) := by
    simp only [Bool.and_eq_true, decide_eq_true_eq, not_and]
    intro hn hgt
    cases hs : t.signed with
    | true =>
      have := hv.1
      unfold IntTy.min at this hmin
      simp [hs] at this hmin
      omega
    | false =>
      have := hv.1
      unfold IntTy.min at this
      simp [hs] at this
      omega
  obtain ⟨m', p, e1, e2⟩ := toCharsLoop_spec base hb hb' (toChar (facet base) false) (decide (v < 0)) first last m
    v.natAbs h1 h2
  refine ⟨m', p, e1, ?_⟩
  unfold toCharsOpt
  simp only [hneg, hub, Bool.false_eq_true, if_false]
  split
  · rename_i hroom
    rw [if_pos hroom] at e2
    obtain ⟨f1, f2, f3⟩ := e2
    have htl := text_length base v hb
    refine ⟨f1, ?_, ?_, ?_⟩
    · rw [htl]; by_cases hn : v < 0 <;> simp [hn] at f2 ⊢ <;> omega
    · by_cases hn : v < 0 <;> simp [hn] at f2 <;> omega
    · rw [map_tc base _ hb hb'] at f3
      unfold text
      by_cases hn : v < 0 <;> simpa [hn] using f3
  · rename_i hroom
    rw [if_neg hroom] at e2
    exact e2

/-- C16, partial: for every base 2..36 and every value of the type other than a signed minimum, if the numeral
has fewer digits than the buffer has characters, `to_chars` writes the canonical numeral at the start of the
buffer, returns a pointer just past it and touches nothing outside the buffer.  Missing: the signed minimum
(`to_chars_min_undefined`) and a numeral that fills the buffer without a sign (`to_chars_exact_fit_refused`). -/
theorem to_chars_partial (t : IntTy) (m : List Nat) (first last : Nat) (v : Int) (base : Nat)
    (hb : 2 ≤ base) (hb' : base ≤ 36) (hv : InRange t v) (hmin : ¬ (t.signed = true ∧ v = t.min))
    (h2 : last ≤ m.length) (txt : List Nat) (htxt : Spec.IsNumeral base v txt)
    (hfit : txt.length + (if v < 0 then 0 else 1) ≤ last - first) :
    ∃ m', toChars t m first last v base = some (m', first + txt.length, .ok) ∧
      Spec.Holds m' first txt ∧ Spec.SameOutside m m' first last := by
  rw [isNumeral_iff base v hb] at htxt
  subst htxt
  have htl := text_length base v hb
  have hdl : 0 < (digits base v.natAbs hb).length := List.length_pos_iff.mpr (digits_ne_nil base v.natAbs hb)
  have hroom : (digits base v.natAbs hb).length < last - first := by
    split at htl <;> simp_all <;> omega
  obtain ⟨m1, p, ⟨e1, e1'⟩, e2⟩ := toCharsOpt_core t m first last v base hb hb' hv hmin (by omega) h2
  rw [if_pos hroom] at e2
  obtain ⟨f1, f2, f3, f4⟩ := e2
  obtain ⟨m2, g1, g2, g3⟩ := Algorithm.copy_effect m1 p last first (by omega) (by omega) (by omega) (Or.inl f3)
  refine ⟨m2, ?_, ?_, ?_⟩
  · simp only [toChars, f1, g1]; congr 3; omega
  · intro i hi
    rw [g3, if_pos (by omega), show p + (first + i - first) = p + i by omega, f4 i hi]
  · refine ⟨by omega, ?_⟩
    intro j hj
    rw [g3, if_neg (by omega), e1' j hj]

/-- C16: when the numeral does not fit, `value_too_large` is reported, with nothing outside the buffer
touched. -/
theorem to_chars_too_large (t : IntTy) (m : List Nat) (first last : Nat) (v : Int) (base : Nat)
    (hb : 2 ≤ base) (hb' : base ≤ 36) (hv : InRange t v) (hmin : ¬ (t.signed = true ∧ v = t.min))
    (h1 : first < last) (h2 : last ≤ m.length) (txt : List Nat) (htxt : Spec.IsNumeral base v txt)
    (hfit : last - first < txt.length + (if v < 0 then 0 else 1)) :
    ∃ m', toChars t m first last v base = some (m', last, .tooLarge) ∧ Spec.SameOutside m m' first last := by
  rw [isNumeral_iff base v hb] at htxt
  subst htxt
  have htl := text_length base v hb
  have hroom : ¬ (digits base v.natAbs hb).length < last - first := by
    split at htl <;> simp_all <;> omega
  obtain ⟨m1, p, ⟨e1, e1'⟩, e2⟩ := toCharsOpt_core t m first last v base hb hb' hv hmin h1 h2
  rw [if_neg hroom] at e2
  obtain ⟨m2, g1, g2, g3⟩ := Algorithm.copy_effect m1 first last first (by omega) (by omega) (by omega)
    (Or.inl (Nat.le_refl _))
  refine ⟨m2, ?_, by omega, ?_⟩
  · simp only [toChars, e2, g1]; congr 3; omega
  · intro j hj
    rw [g3, if_neg (by omega), e1' j hj]

example : Spec.IsNumeral 10 (-42) [45, 52, 50] ∧ InRange ⟨true, 127⟩ (-42) ∧ 3 + 0 ≤ 3 - 0 :=
  ⟨(isNumeral_iff 10 (-42) (by omega) _).mpr (by decide +kernel), ⟨by decide, by decide⟩, by omega⟩
example : toChars ⟨true, 127⟩ [9, 9, 9, 9] 0 3 (-42) 10 = some ([45, 52, 50, 9], 3, .ok) := by decide +kernel

/-- C16 fails on an exact fit: a non-negative numeral as long as the (non-empty) buffer is refused, for every
type, base and value. -/
theorem to_chars_exact_fit_refused (t : IntTy) (m : List Nat) (first last : Nat) (v : Int) (base : Nat)
    (hb : 2 ≤ base) (hb' : base ≤ 36) (hv : InRange t v) (hpos : 0 ≤ v) (h2 : last ≤ m.length)
    (txt : List Nat) (htxt : Spec.IsNumeral base v txt) (hfit : txt.length = last - first) :
    ∃ m', toChars t m first last v base = some (m', last, .tooLarge) := by
  have hne : 0 < txt.length := by
    rw [isNumeral_iff base v hb] at htxt
    subst htxt
    rw [text_length]
    have := List.length_pos_iff.mpr (digits_ne_nil base v.natAbs hb)
    omega
  obtain ⟨m', e, -⟩ := to_chars_too_large t m first last v base hb hb' hv
    (by rintro ⟨hs, he⟩; unfold IntTy.min at he; simp [hs] at he; omega)
    (by omega) h2 txt htxt (by rw [if_neg (by omega)]; omega)
  exact ⟨m', e⟩

example : toChars ⟨false, 255⟩ [0] 0 1 7 10 = some ([0], 1, .tooLarge) := by decide +kernel

/-- C16 fails on the minimum of a signed type: negating it overflows. -/
theorem to_chars_min_undefined (max : Nat) (m : List Nat) (first last base : Nat) :
    toChars ⟨true, max⟩ m first last (IntTy.min ⟨true, max⟩) base = none := by
  have : (decide (IntTy.min ⟨true, max⟩ < 0) && decide (-(IntTy.min ⟨true, max⟩) > (max : Int))) = true := by
    simp [IntTy.min]; omega
  simp [toChars, toCharsOpt, this]

/-- `to_chars_opt` leaves the canonical numeral at the end of the buffer, returning its beginning. -/
theorem to_chars_opt_partial (t : IntTy) (m : List Nat) (first last : Nat) (v : Int) (base : Nat)
    (hb : 2 ≤ base) (hb' : base ≤ 36) (hv : InRange t v) (hmin : ¬ (t.signed = true ∧ v = t.min))
    (h2 : last ≤ m.length) (txt : List Nat) (htxt : Spec.IsNumeral base v txt)
    (hfit : txt.length + (if v < 0 then 0 else 1) ≤ last - first) :
    ∃ m' p, toCharsOpt t false m first last v base = some (m', p, .ok) ∧ p + txt.length = last ∧ first ≤ p ∧
      Spec.Holds m' p txt ∧ Spec.SameOutside m m' first last := by
  rw [isNumeral_iff base v hb] at htxt
  subst htxt
  have htl := text_length base v hb
  have hdl : 0 < (digits base v.natAbs hb).length := List.length_pos_iff.mpr (digits_ne_nil base v.natAbs hb)
  have hroom : (digits base v.natAbs hb).length < last - first := by
    split at htl <;> simp_all <;> omega
  obtain ⟨m1, p, e1, e2⟩ := toCharsOpt_core t m first last v base hb hb' hv hmin (by omega) h2
  rw [if_pos hroom] at e2
  exact ⟨m1, p, e2.1, e2.2.1, e2.2.2.1, e2.2.2.2, e1⟩

/-! ## to_chars_exp -/

/-- Reversed digit loop: digits least significant first, then reversed in place. -/
theorem revLoop_spec (base : Nat) (hb : 2 ≤ base) (tc : Nat → Nat) (first last : Nat) (m : List Nat)
    (cur v : Nat) (done : List Nat) (h0 : first + done.length = cur) (h1 : cur ≤ last) (h2 : last ≤ m.length)
    (hdone : Spec.Holds m first done) :
    ∃ m', Spec.SameOutside m m' first last ∧
      (if (digits base v hb).length ≤ last - cur then
        revLoop tc base first last m cur v = some (m', cur + (digits base v hb).length, .ok) ∧
        Spec.Holds m' first ((digits base v hb).map tc ++ done.reverse)
      else revLoop tc base first last m cur v = some (m', last, .tooLarge)) := by
  obtain ⟨k, hk⟩ : ∃ k, k = last - cur := ⟨_, rfl⟩
  induction k generalizing m cur v done with
  | zero =>
    have : cur = last := by omega
    subst this
    have hdl := List.length_pos_iff.mpr (digits_ne_nil base v hb)
    refine ⟨m, ⟨rfl, fun _ _ => rfl⟩, ?_⟩
    rw [if_neg (by omega), revLoop, if_pos rfl]
  | succ k ih =>
    have hcl : cur < m.length := by omega
    rw [revLoop, if_neg (by omega), dif_pos hcl]
    have hdone' : Spec.Holds (m.set cur (tc (v % base))) first (done ++ [tc (v % base)]) := by
      intro i hi
      simp at hi
      by_cases hid : i < done.length
      · rw [List.getElem?_set_ne (by omega), hdone i hid, List.getElem?_append_left hid]
      · have : i = done.length := by omega
        subst this
        rw [h0]; simp [hcl]
    by_cases hz : v / base = 0
    · have hd1 : digits base v hb = [v % base] := by rw [digits, if_pos hz]
      obtain ⟨m2, e1, e2, e3⟩ := Algorithm.reverse_effect (m.set cur (tc (v % base))) first (cur + 1)
        (by omega) (by simp; omega)
      refine ⟨m2, ⟨by simpa using e2, ?_⟩, ?_⟩
      · intro j hj
        rw [e3, if_neg (by omega), List.getElem?_set_ne (by omega)]
      · rw [if_pos (by rw [hd1]; simp; omega)]
        simp only [hz, if_true, e1, hd1]
        refine ⟨by simp, ?_⟩
        intro i hi
        simp at hi
        rw [e3, if_pos (by omega), show first + (cur + 1 - 1 - (first + i)) = first + (done.length - i) by omega,
          hdone' (done.length - i) (by simp; omega)]
        have hrev : [v % base].map tc ++ done.reverse = (done ++ [tc (v % base)]).reverse := by simp
        rw [hrev, List.getElem?_reverse (by simp; omega)]
        congr 1
        simp
    · have hd1 : digits base v hb = digits base (v / base) hb ++ [v % base] := by
        rw [digits, if_neg hz]
      have hlen : (digits base v hb).length = (digits base (v / base) hb).length + 1 := by rw [hd1]; simp
      simp only [hz, if_false]
      obtain ⟨m', ⟨e0, e1⟩, e2⟩ := ih (m.set cur (tc (v % base))) (cur + 1) (v / base) (done ++ [tc (v % base)])
        (by simp; omega) (by omega) (by simpa using h2) hdone' (by omega)
      refine ⟨m', ⟨by simpa using e0, ?_⟩, ?_⟩
      · intro j hj
        rw [e1 j hj, List.getElem?_set_ne (by omega)]
      · by_cases hr : (digits base (v / base) hb).length ≤ last - (cur + 1)
        · rw [if_pos hr] at e2
          rw [if_pos (by omega)]
          refine ⟨by rw [e2.1, hlen]; congr 3; omega, ?_⟩
          rw [hd1]
          simpa using e2.2
        · rw [if_neg hr] at e2
          rw [if_neg (by omega)]
          exact e2

/-- The left-to-right variant `to_chars_exp` does accept an exact fit: for every base 2..36 and value other
than a signed minimum it writes the canonical numeral when that fits, and reports `value_too_large` when it
does not, provided a negative value finds room for its sign.  Missing: the signed minimum and an empty buffer
for a negative value (`to_chars_exp_sign_overrun`). -/
theorem to_chars_exp_partial (t : IntTy) (m : List Nat) (first last : Nat) (v : Int) (base : Nat)
    (hb : 2 ≤ base) (hb' : base ≤ 36) (hv : InRange t v) (hmin : ¬ (t.signed = true ∧ v = t.min))
    (h1 : first ≤ last) (h2 : last ≤ m.length) (hsign : v < 0 → first < last)
    (txt : List Nat) (htxt : Spec.IsNumeral base v txt) :
    ∃ m', Spec.SameOutside m m' first last ∧
      (if txt.length ≤ last - first then
        toCharsExp t m first last v base = some (m', first + txt.length, .ok) ∧ Spec.Holds m' first txt
      else toCharsExp t m first last v base = some (m', last, .tooLarge)) := by
  rw [isNumeral_iff base v hb] at htxt
  subst htxt
  have htl := text_length base v hb
  unfold toCharsExp
  by_cases hn : v < 0
  · have hs : t.signed = true := by
      cases hs : t.signed with
      | true => rfl
      | false => have := hv.1; unfold IntTy.min at this; simp [hs] at this; omega
    have hle : ¬ (-v > t.max) := by
      have := hv.1; unfold IntTy.min at this hmin; simp [hs] at this hmin; omega
    have hfl := hsign hn
    have hflen : first < m.length := by omega
    simp only [hs, hn, decide_true, Bool.and_self, if_true, hle, if_false, wr_lt hflen]
    obtain ⟨m', ⟨e0, e1⟩, e2⟩ := revLoop_spec base hb (toChar (facet base) false) (first + 1) last (m.set first 45)
      (first + 1) v.natAbs [] rfl (by omega) (by simpa using h2) (by intro i hi; simp at hi)
    rw [map_tc base _ hb hb'] at e2
    simp only [hn, if_true] at htl
    refine ⟨m', ⟨by simpa using e0, ?_⟩, ?_⟩
    · intro j hj; rw [e1 j (by omega), List.getElem?_set_ne (by omega)]
    · by_cases hr : (digits base v.natAbs hb).length ≤ last - (first + 1)
      · rw [if_pos hr] at e2
        rw [if_pos (by omega)]
        refine ⟨by rw [e2.1]; congr 3; omega, ?_⟩
        have h3 := e2.2
        simp only [List.reverse_nil, List.append_nil] at h3
        intro i hi
        unfold text
        rw [if_pos hn]
        cases i with
        | zero => rw [Nat.add_zero, e1 first (by omega)]; simp [hflen]
        | succ i =>
          have : i < (natText base v.natAbs hb).length := by
            unfold text at hi; rw [if_pos hn] at hi; simpa using hi
          have := h3 i this
          rw [show first + (i + 1) = first + 1 + i by omega, this]; simp
      · rw [if_neg hr] at e2
        rw [if_neg (by omega)]
        exact e2
  · have hc : (t.signed && decide (v < 0)) = false := by simp [hn]
    simp only [hc, Bool.false_eq_true, if_false]
    obtain ⟨m', e1, e2⟩ := revLoop_spec base hb (toChar (facet base) false) first last m first v.natAbs []
      rfl h1 h2 (by intro i hi; simp at hi)
    rw [map_tc base _ hb hb'] at e2
    simp only [hn, if_false, Nat.zero_add] at htl
    refine ⟨m', e1, ?_⟩
    rw [htl]
    split
    · rename_i hr
      rw [if_pos hr] at e2
      refine ⟨e2.1, ?_⟩
      unfold text
      rw [if_neg hn]
      simpa using e2.2
    · rename_i hr
      rw [if_neg hr] at e2
      exact e2

example : toCharsExp ⟨true, 127⟩ [9, 9, 9] 0 3 (-42) 10 = some ([45, 52, 50], 3, .ok) := by decide +kernel
example : toCharsExp ⟨true, 127⟩ [9, 9, 9] 0 2 42 10 = some ([52, 50, 9], 2, .ok) := by decide +kernel

/-! ## C17: from_chars -/

theorem holds_lt {m : List Nat} {a : Nat} {l : List Nat} (h : Spec.Holds m a l) {i : Nat} (hi : i < l.length) :
    a + i < m.length := by
  have := h i hi
  rw [List.getElem?_eq_getElem hi] at this
  exact (List.getElem?_eq_some_iff.mp this).1

theorem holds_cons {m : List Nat} {a c : Nat} {l : List Nat} (h : Spec.Holds m a (c :: l)) :
    ∃ hlt : a < m.length, m[a] = c ∧ Spec.Holds m (a + 1) l := by
  have hlt := holds_lt h (i := 0) (by simp)
  refine ⟨hlt, ?_, ?_⟩
  · have := h 0 (by simp)
    simp at this
    rw [List.getElem?_eq_getElem (by simpa using hlt)] at this
    simpa using this
  · intro i hi
    have := h (i + 1) (by simpa using hi)
    rw [show a + (i + 1) = a + 1 + i by omega] at this
    simpa using this

theorem skipDigits_spec (b : Nat) (m : List Nat) (last cur : Nat) (l : List Nat) (h : Spec.Holds m cur l)
    (hl : cur + l.length = last) :
    skipDigits b m last cur = some (cur + (l.takeWhile (fun c => isInBase b c b)).length) := by
  induction l generalizing cur with
  | nil => simp at hl; subst hl; rw [skipDigits, if_pos rfl]; simp
  | cons c l ih =>
    obtain ⟨hlt, hc, ht⟩ := holds_cons h
    simp at hl
    rw [skipDigits, if_neg (by omega), dif_pos hlt, hc]
    by_cases hd : isInBase b c b = true
    · rw [if_pos hd, ih (cur + 1) ht (by omega)]
      simp [hd]; omega
    · rw [if_neg hd]; simp [hd]

/-- Value of a digit string continued from an accumulator. -/
def accum (base acc : Nat) (cs : List Nat) : Nat := (cs.filterMap (Spec.digit base)).foldl (fun a d => a * base + d) acc

theorem le_accum (base acc : Nat) (hb : 1 ≤ base) (cs : List Nat) : acc ≤ accum base acc cs := by
  unfold accum
  generalize cs.filterMap (Spec.digit base) = ds
  induction ds generalizing acc with
  | nil => simp
  | cons d ds ih =>
    simp only [List.foldl_cons]
    refine Nat.le_trans ?_ (ih _)
    have : acc ≤ acc * base := Nat.le_mul_of_pos_right _ hb
    omega

/-- The parse loop away from the first position. -/
theorem fromLoop_spec (t : IntTy) (base : Nat) (hb : 2 ≤ base) (hb' : base ≤ 36) (m : List Nat)
    (first last : Nat) (neg : Bool) (cur loc : Nat) (l : List Nat) (h : Spec.Holds m cur l)
    (hl : cur + l.length = last) (hcode : ∀ c ∈ l, c < 256) (hloc : loc ≤ t.max)
    (hfirst : cur = first → ∃ c r d, l = c :: r ∧ Spec.digit base c = some d) (hfc : first ≤ cur) :
    let ds := l.takeWhile (fun c => (Spec.digit base c).isSome)
    (accum base loc ds ≤ t.max →
      fromLoop t (facet base) base m first last neg cur loc =
        some ⟨cur + ds.length, .ok, some (if ds.length = l.length ∧ (t.signed && neg) = true
          then -(accum base loc ds : Int) else accum base loc ds)⟩) ∧
    (t.max < accum base loc ds →
      ∃ p, fromLoop t (facet base) base m first last neg cur loc = some ⟨p, .outOfRange, none⟩ ∧
        (base = facet base → p = cur + ds.length)) := by
  induction l generalizing cur loc with
  | nil =>
    simp at hl; subst hl
    rw [fromLoop, if_pos rfl]
    simp [accum]
    omega
  | cons c l ih =>
    obtain ⟨hlt, hc, ht⟩ := holds_cons h
    simp at hl
    have hne : cur ≠ last := by omega
    rw [fromLoop, if_neg hne, dif_pos hlt, hc, from_char_spec base c hb hb' (hcode c (by simp))]
    cases hd : Spec.digit base c with
    | none =>
      have hcf : cur ≠ first := by
        intro he
        obtain ⟨c', r, d, he', hd'⟩ := hfirst he
        cases he'; rw [hd] at hd'; cases hd'
      simp [hd, accum, hcf]
      omega
    | some d =>
      simp only [hd, List.takeWhile_cons, Option.isSome_some, if_true, List.length_cons]
      have hacc : accum base loc (c :: l.takeWhile (fun c => (Spec.digit base c).isSome))
          = accum base (loc * base + d) (l.takeWhile (fun c => (Spec.digit base c).isSome)) := by
        simp [accum, hd]
      rw [hacc]
      have hle := le_accum base (loc * base + d) (by omega) (l.takeWhile (fun c => (Spec.digit base c).isSome))
      by_cases hov : (decide (loc * base > t.max) || decide (loc * base + d > t.max)) = true
      · have hov' : loc * base + d > t.max := by simp at hov; omega
        rw [if_pos hov]
        rw [skipDigits_spec _ m last (cur + 1) l ht (by omega)]
        refine ⟨fun hh => by omega, fun _ => ⟨_, rfl, ?_⟩⟩
        intro hbf
        have hfun : (fun c => isInBase (facet base) c (facet base)) = fun c => (Spec.digit base c).isSome := by
          funext c
          have := is_in_base_spec base c hb hb'
          rw [← hbf] at this ⊢
          exact this
        rw [hfun]; omega
      · have hov' : loc * base + d ≤ t.max := by simp at hov; omega
        rw [if_neg hov]
        have := ih (cur + 1) (loc * base + d) ht (by omega) (fun x hx => hcode x (by simp [hx])) hov'
          (by omega) (by omega)
        obtain ⟨i1, i2⟩ := this
        refine ⟨fun hh => ?_, fun hh => ?_⟩
        · rw [i1 hh]
          simp only [Option.some.injEq, FromRes.mk.injEq, true_and]
          refine ⟨by omega, ?_⟩
          simp only [Nat.add_right_cancel_iff]
        · obtain ⟨p, j1, j2⟩ := i2 hh
          exact ⟨p, j1, fun hbf => by rw [j2 hbf]; omega⟩

/-- Texts on which the code agrees with the documentation: not empty and, for a signed type, either without a
leading `-` or a `-` followed by digits only, naming a value that is not the minimum of the type or below. -/
def Spec.Supported (t : IntTy) (base : Nat) (txt : List Nat) : Prop :=
  txt ≠ [] ∧ (t.signed = true → txt.head? = some 45 → txt.tail ≠ [] ∧
    (∀ c ∈ txt.tail, (Spec.digit base c).isSome = true) ∧
    Spec.value base (txt.tail.filterMap (Spec.digit base)) ≤ t.max)

/-- C17, partial: on a supported text `from_chars` consumes exactly the longest numeral, assigns its value and
points just past it; reports `invalid_argument` when there is no digit, and `result_out_of_range`, leaving the
output unassigned, when the number does not fit.  On overflow the pointer is past the numeral for bases 10 and
36.  Missing: empty input and texts with a `-` not of the supported form (`from_chars_*` theorems below show
the code departs there), and the pointer on overflow in other bases. -/
theorem from_chars_partial (t : IntTy) (m : List Nat) (first last base : Nat) (txt : List Nat)
    (hb : 2 ≤ base) (hb' : base ≤ 36) (h : Spec.Holds m first txt) (hl : first + txt.length = last)
    (hcode : ∀ c ∈ txt, c < 256) (hs : Spec.Supported t base txt) :
    ∃ r, fromChars t m first last base = some r ∧ r.ec = (Spec.parse t base txt).2.1 ∧
      r.value = (Spec.parse t base txt).2.2 ∧
      ((base = 10 ∨ base = 36 ∨ r.ec ≠ .outOfRange) → r.ptr = first + (Spec.parse t base txt).1) := by
  obtain ⟨hne, hsg⟩ := hs
  cases txt with
  | nil => exact absurd rfl hne
  | cons c rest =>
    obtain ⟨hlt, hc, ht⟩ := holds_cons h
    have hfb : (base = 10 ∨ base = 36) → base = facet base := by
      rintro (rfl | rfl) <;> rfl
    by_cases hneg : t.signed = true ∧ c = 45
    · obtain ⟨hsig, rfl⟩ := hneg
      obtain ⟨hr1, hr2, hr3⟩ := hsg hsig rfl
      simp only [List.tail_cons] at hr1 hr2 hr3
      have htw : rest.takeWhile (fun c => (Spec.digit base c).isSome) = rest := by
        exact takeWhile_self hr2
      have := fromLoop_spec t base hb hb' m first last true (first + 1) 0 rest ht (by simp at hl; omega)
        (fun x hx => hcode x (by simp [hx])) (by omega) (by omega) (by omega)
      simp only [htw] at this
      have hval : accum base 0 rest = Spec.value base (rest.filterMap (Spec.digit base)) := rfl
      rw [hval] at this
      have := this.1 hr3
      refine ⟨_, by simp [fromChars, hsig, rd_lt hlt, hc]; exact this, ?_, ?_, ?_⟩
      · simp [Spec.parse, hsig, htw, hr1]; rw [if_pos (by omega)]
      · simp [Spec.parse, hsig, htw, hr1]; rw [if_pos (by omega)]
      · intro _; simp [Spec.parse, hsig, htw, hr1]; rw [if_pos (by omega)]; simp; omega
    · have hneg' : (t.signed && (c :: rest).head? == some 45) = false := by
        cases hsig : t.signed with
        | false => simp
        | true => simp [hsig] at hneg; simp [hneg]
      have hstart : fromChars t m first last base = fromLoop t (facet base) base m first last false first 0 := by
        unfold fromChars
        cases hsig : t.signed with
        | false => simp
        | true => simp [hsig] at hneg; simp [rd_lt hlt, hc, hneg]
      rw [hstart]
      cases hd : Spec.digit base c with
      | none =>
        have hfl : first ≠ last := by simp at hl; omega
        have : fromLoop t (facet base) base m first last false first 0 = some ⟨first, .invalidArgument, none⟩ := by
          rw [fromLoop, if_neg hfl, dif_pos hlt, hc, from_char_spec base c hb hb' (hcode c (by simp)), hd]
          simp
        rw [this]
        have hp : Spec.parse t base (c :: rest) = (0, .invalidArgument, none) := by
          unfold Spec.parse
          simp only [hneg', Bool.false_eq_true, if_false]
          simp [hd]
        refine ⟨_, rfl, ?_, ?_, ?_⟩ <;> simp [hp]
      | some d =>
        have key := fromLoop_spec t base hb hb' m first last false first 0 (c :: rest) h hl hcode (by omega)
          (fun _ => ⟨c, rest, d, rfl, hd⟩) (by omega)
        simp only at key
        have hval : accum base 0 ((c :: rest).takeWhile (fun c => (Spec.digit base c).isSome))
          = Spec.value base (((c :: rest).takeWhile (fun c => (Spec.digit base c).isSome)).filterMap (Spec.digit base)) := rfl
        rw [hval] at key
        have hdsne : (c :: rest).takeWhile (fun c => (Spec.digit base c).isSome) ≠ [] := by simp [hd]
        generalize hds : (c :: rest).takeWhile (fun c => (Spec.digit base c).isSome) = ds at key hdsne
        have hp : Spec.parse t base (c :: rest) =
            if Spec.value base (ds.filterMap (Spec.digit base)) ≤ t.max
            then (ds.length, .ok, some (Spec.value base (ds.filterMap (Spec.digit base)) : Int))
            else (ds.length, .outOfRange, none) := by
          unfold Spec.parse
          simp only [hneg', Bool.false_eq_true, if_false, hds, hdsne, Nat.zero_add]
        rw [hp]
        by_cases hle : Spec.value base (ds.filterMap (Spec.digit base)) ≤ t.max
        · rw [key.1 hle, if_pos hle]
          refine ⟨_, rfl, rfl, by simp, by simp⟩
        · obtain ⟨p, k1, k2⟩ := key.2 (by omega)
          rw [k1, if_neg hle]
          refine ⟨_, rfl, rfl, rfl, ?_⟩
          rintro (hh | hh | hh)
          · exact k2 (hfb (Or.inl hh))
          · exact k2 (hfb (Or.inr hh))
          · exact absurd rfl hh

example : Spec.Supported ⟨true, 127⟩ 10 [45, 49, 50] ∧ Spec.Supported ⟨true, 127⟩ 10 [49, 50, 120] := by
  refine ⟨⟨by simp, fun _ _ => ⟨by simp, by decide, by decide⟩⟩, ⟨by simp, by simp⟩⟩
example : Spec.parse ⟨true, 127⟩ 10 [49, 50, 120] = (2, .ok, some 12) := by decide +kernel

/-- C17 fails: a negative number followed by another character loses its sign (`"-5 "` gives 5), for every
signed type, base and digit string that fits, and any following character that is not a digit. -/
theorem from_chars_sign_lost (t : IntTy) (m : List Nat) (first last base : Nat) (ds rest : List Nat) (c : Nat)
    (hb : 2 ≤ base) (hb' : base ≤ 36) (hsig : t.signed = true)
    (h : Spec.Holds m first (45 :: ds ++ c :: rest)) (hl : first + (45 :: ds ++ c :: rest).length = last)
    (hcode : ∀ x ∈ ds ++ c :: rest, x < 256) (hds : ∀ x ∈ ds, (Spec.digit base x).isSome = true)
    (hc : Spec.digit base c = none) (hfit : Spec.value base (ds.filterMap (Spec.digit base)) ≤ t.max) :
    fromChars t m first last base =
      some ⟨first + 1 + ds.length, .ok, some (Spec.value base (ds.filterMap (Spec.digit base)))⟩ := by
  obtain ⟨hlt, hc', ht⟩ := holds_cons (l := ds ++ c :: rest) h
  have htw : (ds ++ c :: rest).takeWhile (fun c => (Spec.digit base c).isSome) = ds := by
    rw [List.takeWhile_append_of_pos (by simpa using hds)]; simp [hc]
  have key := fromLoop_spec t base hb hb' m first last true (first + 1) 0 (ds ++ c :: rest) ht
    (by simp at hl ⊢; omega) hcode (by omega) (by omega) (by omega)
  simp only [htw] at key
  have := key.1 hfit
  simp only [fromChars, hsig, if_true, rd_lt hlt, hc']
  rw [this]
  simp [accum, Spec.value]

/-- C17 fails on an empty range: success with value 0 is reported instead of `invalid_argument` (an unsigned
type shown; a signed type also reads the character beyond the range). -/
theorem from_chars_empty (max : Nat) (m : List Nat) (first base : Nat) :
    fromChars ⟨false, max⟩ m first first base = some ⟨first, .ok, some 0⟩ := by
  simp [fromChars, fromLoop]

/-! ## C18: round trip -/

theorem digit_char (base d : Nat) (hb' : base ≤ 36) (hd : d < base) :
    Spec.digit base (if d < 10 then 48 + d else 87 + d) = some d := by
  rw [digit_iff]
  split <;> omega

theorem filterMap_natText (base n : Nat) (hb : 2 ≤ base) (hb' : base ≤ 36) :
    (natText base n hb).filterMap (Spec.digit base) = digits base n hb := by
  unfold natText
  have := digits_lt base n hb
  generalize digits base n hb = ds at this
  induction ds with
  | nil => rfl
  | cons d ds ih =>
    simp only [List.map_cons, List.filterMap_cons, digit_char base d hb' (this d (by simp))]
    rw [ih (fun x hx => this x (by simp [hx]))]

theorem natText_digit (base n : Nat) (hb : 2 ≤ base) (hb' : base ≤ 36) :
    ∀ c ∈ natText base n hb, (Spec.digit base c).isSome = true ∧ c < 256 ∧ c ≠ 45 := by
  intro c hc
  unfold natText at hc
  obtain ⟨d, hd, rfl⟩ := List.mem_map.mp hc
  have hlt := digits_lt base n hb d hd
  rw [digit_char base d hb' hlt]
  refine ⟨rfl, ?_, ?_⟩ <;> split <;> omega

/-- C18, partial: every value of the type except a signed minimum survives `to_chars` then `from_chars` of
exactly the text written, in each base 2..36, provided the buffer has room (one spare character for a
non-negative value); the whole text is consumed.  Missing: the signed minimum (`to_chars_min_undefined`). -/
theorem round_trip_partial (t : IntTy) (m : List Nat) (first last : Nat) (v : Int) (base : Nat)
    (hb : 2 ≤ base) (hb' : base ≤ 36) (hv : InRange t v) (hmin : ¬ (t.signed = true ∧ v = t.min))
    (h2 : last ≤ m.length) (txt : List Nat) (htxt : Spec.IsNumeral base v txt)
    (hfit : txt.length + (if v < 0 then 0 else 1) ≤ last - first) :
    ∃ m' p, toChars t m first last v base = some (m', p, .ok) ∧
      fromChars t m' first p base = some ⟨p, .ok, some v⟩ := by
  obtain ⟨m', e1, e2, -⟩ := to_chars_partial t m first last v base hb hb' hv hmin h2 txt htxt hfit
  refine ⟨m', _, e1, ?_⟩
  rw [isNumeral_iff base v hb] at htxt
  subst htxt
  have hnd := natText_digit base v.natAbs hb hb'
  have hfm := filterMap_natText base v.natAbs hb hb'
  have hval := digits_value base v.natAbs hb
  have hne : natText base v.natAbs hb ≠ [] := by
    unfold natText; simpa using digits_ne_nil base v.natAbs hb
  have htw : (natText base v.natAbs hb).takeWhile (fun c => (Spec.digit base c).isSome) = natText base v.natAbs hb :=
    takeWhile_self (fun c hc => (hnd c hc).1)
  by_cases hn : v < 0
  · have hs : t.signed = true := by
      cases hs : t.signed with
      | true => rfl
      | false => have := hv.1; unfold IntTy.min at this; simp [hs] at this; omega
    have hle : v.natAbs ≤ t.max := by
      have := hv.1; unfold IntTy.min at this hmin; simp [hs] at this hmin; omega
    have htx : text base v hb = 45 :: natText base v.natAbs hb := by unfold text; rw [if_pos hn]
    rw [htx] at e2 ⊢
    obtain ⟨r, f1, f2, f3, f4⟩ := from_chars_partial t m' first _ base _ hb hb' e2 rfl
      (by intro c hc; rcases List.mem_cons.mp hc with rfl | hc; omega; exact (hnd c hc).2.1)
      ⟨by simp, fun _ _ => ⟨by simpa using hne, fun c hc => (hnd c hc).1, by simpa [hfm, hval] using hle⟩⟩
    have hp : Spec.parse t base (45 :: natText base v.natAbs hb) =
        (1 + (natText base v.natAbs hb).length, .ok, some v) := by
      simp only [Spec.parse, hs, Bool.true_and, List.head?_cons, beq_self_eq_true, if_true, List.tail_cons, htw, hne,
        if_false, hfm, hval]
      rw [if_pos (by omega)]
      congr 3; omega
    rw [hp] at f2 f3 f4
    rw [f1]
    have h4 := f4 (Or.inr (Or.inr (by rw [f2]; simp)))
    cases r
    simp only at f2 f3 h4
    subst f2 f3 h4
    simp; omega
  · have hle : v.natAbs ≤ t.max := by have := hv.2; omega
    have htx : text base v hb = natText base v.natAbs hb := by unfold text; rw [if_neg hn]
    rw [htx] at e2 ⊢
    have hhd : (natText base v.natAbs hb).head? ≠ some 45 := by
      intro hh
      exact (hnd 45 (List.mem_of_mem_head? hh)).2.2 rfl
    obtain ⟨r, f1, f2, f3, f4⟩ := from_chars_partial t m' first _ base _ hb hb' e2 rfl
      (by intro c hc; exact (hnd c hc).2.1)
      ⟨hne, fun _ hh => absurd hh hhd⟩
    have hp : Spec.parse t base (natText base v.natAbs hb) =
        ((natText base v.natAbs hb).length, .ok, some v) := by
      have hneg : (t.signed && (natText base v.natAbs hb).head? == some 45) = false := by
        simp [hhd]
      simp only [Spec.parse, hneg, Bool.false_eq_true, if_false, htw, hne, hfm, hval, Nat.zero_add]
      rw [if_pos hle]
      congr 3; omega
    rw [hp] at f2 f3 f4
    rw [f1]
    have h4 := f4 (Or.inr (Or.inr (by rw [f2]; simp)))
    cases r
    simp only at f2 f3 h4
    subst f2 f3 h4
    rfl

example : fromChars ⟨true, 127⟩ [45, 52, 50, 9] 0 3 10 = some ⟨3, .ok, some (-42)⟩ := by decide +kernel

end Verif.Charconv
