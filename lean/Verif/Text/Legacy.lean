import Verif.Text.Sto
import Mathlib.Tactic.Tauto
import Mathlib.Data.List.TakeDrop
/-!
# C99: text that is checked and then converted, and the older `from_chars`

`validateString<T>` says whether a text may be converted to `T`, `fromString<T>` converts it; both take a
null-terminated string, here the list of characters from its start to the end of its buffer.
`legacy::from_chars` takes a range and hands its start to `strtol`.  Reading past the end of the buffer is undefined
(`none`).  Characters are codes; a code above 127 is not a digit (as in the C libraries whose `isdigit` is a table;
the C standard leaves `isdigit` of a negative `char` undefined).
-/
namespace Verif.Text
open Verif Verif.Charconv Verif.Streams

/-! ## The model -/

/-- the C library's `isdigit` (string_convert.cpp:45) -/
def isdigitC (c : Nat) : Bool := 48 ≤ c && c ≤ 57

/-- `validateString<int>`, internal/string_convert.cpp:40-49: a `do … while` over the characters; `true` stands for
the null pointer, which means accepted -/
def validateInt : List Nat → Option Bool
  | [] => none
  | c :: t =>
    if isdigitC c then
      match t with
      | [] => none
      | x :: u => if x = 0 then some true else validateInt (x :: u)
    else some false

/-- the C library's `strlen` (string_convert.cpp:34) -/
def strlenC : List Nat → Option Nat
  | [] => none
  | c :: t => if c = 0 then some 0 else (strlenC t).map (· + 1)

/-- `validateString<char>`, internal/string_convert.cpp:31-37 -/
def validateChar (m : List Nat) : Option Bool := (strlenC m).map fun n => !(decide (1 < n))

/-- `validateString<unsigned char>`, internal/string_convert.h:156-159 -/
def validateUchar (m : List Nat) : Option Bool := validateInt m

/-- `validateString<unsigned short>`, internal/string_convert.cpp:74-82: accepted if `strtoul` found a number -/
def validateUshort (m : List Nat) : Option Bool := (subject 10 m).map Option.isSome

/-- `fromString<int>`, internal/string_convert.h:38-42: `atoi`, undefined by the C standard if the number is no
`int` (of `ib` bits) -/
def fromInt (ib : Nat) (m : List Nat) : Option Int :=
  match subject 10 m with
  | none => none
  | some none => some 0
  | some (some (neg, v, _)) =>
    let M := 2 ^ (ib - 1)
    if neg then if v ≤ M then some (-(v : Int)) else none
    else if v < M then some (v : Int) else none

/-- `fromString<unsigned char>`, internal/string_convert.h:32-36: the `int` cast to `unsigned char` -/
def fromUchar (ib : Nat) (m : List Nat) : Option Nat := (fromInt ib m).map fun v => (v % 256).toNat

/-- `fromString<unsigned long>`, internal/string_convert.h:49-52 -/
def fromUlong (lb : Nat) (m : List Nat) : Option Nat := (stoul lb 10 m).map (·.1)

/-- `fromString<unsigned short>`, internal/string_convert.h:64-67: the `unsigned long` cast to 16 bits -/
def fromUshort (lb : Nat) (m : List Nat) : Option Nat := (stoul lb 10 m).map fun (v, _) => v % 65536

/-- `fromString<char>`, internal/string_convert.h:59-62 -/
def fromCharStr (m : List Nat) : Option Nat := m.head?

/-- What `legacy::from_chars` leaves behind: the returned pointer (counted from `first`), the error code, and
`value`. -/
structure LegacyRes where
  ptr : Nat
  ec : Ec
  value : Int
deriving DecidableEq, Repr

/-- `legacy::from_chars(first, first + last, value, base)`, internal/string_convert.cpp:172-194.  `strtol` gets the
address of the parameter `last` to store the end of the number in, so the `last` passed in is never looked at;
`errno` is `ERANGE`, which is `result_out_of_range`, if the number is no `long`, and 0 otherwise. -/
def legacyFromChars (lb base : Nat) (m : List Nat) (_last : Nat) : Option LegacyRes :=
  match subject base m with
  | none => none
  | some none => some ⟨0, .invalidArgument, 0⟩
  | some (some (neg, v, n)) =>
    let M := 2 ^ (lb - 1)
    if neg then if v ≤ M then some ⟨n, .ok, -(v : Int)⟩ else some ⟨n, .outOfRange, -(M : Int)⟩
    else if v < M then some ⟨n, .ok, v⟩ else some ⟨n, .outOfRange, (M : Int) - 1⟩

/-! ## Specification -/

/-- a decimal number: digits only, at least one -/
def Spec.Decimal (text : List Nat) : Prop := text ≠ [] ∧ ∀ c ∈ text, 48 ≤ c ∧ c ≤ 57

/-- the number decimal digits spell -/
def Spec.decimal (text : List Nat) : Nat := Charconv.Spec.value 10 (text.map (· - 48))

/-! ## Lemmas -/

theorem isdigitC_iff (c : Nat) : isdigitC c = true ↔ 48 ≤ c ∧ c ≤ 57 := by simp [isdigitC]

theorem digit_ten (c : Nat) (h : 48 ≤ c ∧ c ≤ 57) : Charconv.Spec.digit 10 c = some (c - 48) := by
  unfold Charconv.Spec.digit Charconv.Spec.digitVal
  rw [if_pos h]
  simp only [show c - 48 < 10 by omega, if_true]

theorem decimal_reads (text : List Nat) (h : Spec.Decimal text) :
    Spec.Reads 10 text false (Spec.decimal text) text.length := by
  refine ⟨[], [], [], text, [], 10, by simp, by simp, by simp, .inl ⟨by decide, by decide, rfl, rfl⟩, h.1, ?_, by simp, ?_, by simp⟩
  · intro c hc
    rw [digit_ten c (h.2 c hc)]; rfl
  · unfold Spec.decimal
    congr 1
    have h2 := h.2
    clear h
    induction text with
    | nil => rfl
    | cons c t ih =>
      rw [List.filterMap_cons, digit_ten c (h2 c (by simp))]
      simp only [List.map_cons]
      rw [ih (fun c hc => h2 c (by simp [hc]))]

theorem decimal_zero {text : List Nat} (h : Spec.Decimal text) : 0 ∉ text := fun hc => by have := h.2 0 hc; omega

theorem strlenC_spec (text junk : List Nat) (h0 : 0 ∉ text) : strlenC (text ++ 0 :: junk) = some text.length := by
  induction text with
  | nil => simp [strlenC]
  | cons c t ih =>
    have hc : c ≠ 0 := fun h => h0 (by simp [h])
    simp only [List.cons_append, strlenC, hc, if_false]
    rw [ih (fun h => h0 (by simp [h]))]
    simp

/-! ## `int` and `unsigned char` -/

/-- C99: the check for `int` accepts exactly the texts made of decimal digits, at least one. -/
theorem validate_int_spec (text junk : List Nat) (h0 : 0 ∉ text) :
    ∃ b, validateInt (text ++ 0 :: junk) = some b ∧ validateUchar (text ++ 0 :: junk) = some b ∧
      (b = true ↔ Spec.Decimal text) := by
  have main : ∃ b, validateInt (text ++ 0 :: junk) = some b ∧ (b = true ↔ Spec.Decimal text) := by
    induction text with
    | nil => exact ⟨false, by rw [List.nil_append, validateInt.eq_def]; simp [isdigitC], by simp [Spec.Decimal]⟩
    | cons c t ih =>
      by_cases hc : isdigitC c = true
      · cases t with
        | nil =>
          refine ⟨true, by simp [validateInt, hc], ?_⟩
          simp only [true_iff]
          exact ⟨by simp, by simpa using (isdigitC_iff c).1 hc⟩
        | cons d t =>
          obtain ⟨b, h1, h2⟩ := ih (fun h => h0 (by simp at h ⊢; tauto))
          have hd : d ≠ 0 := fun h => h0 (by simp [h])
          refine ⟨b, ?_, ?_⟩
          · rw [← h1]
            simp only [List.cons_append]
            rw [validateInt.eq_def (c :: _)]
            simp [hc, hd]
          · rw [h2]
            constructor
            · intro h
              refine ⟨by simp, fun x hx => ?_⟩
              rcases List.mem_cons.1 hx with rfl | hx
              · exact (isdigitC_iff _).1 hc
              · exact h.2 x hx
            · intro h
              exact ⟨by simp, fun x hx => h.2 x (by simp at hx ⊢; tauto)⟩
      · refine ⟨false, by cases t <;> simp [validateInt, hc], ?_⟩
        simp only [Bool.false_eq_true, false_iff]
        intro h
        exact hc ((isdigitC_iff c).2 (h.2 c (by simp)))
  obtain ⟨b, h1, h2⟩ := main
  exact ⟨b, h1, h1, h2⟩

theorem validate_decimal (text junk : List Nat) (h : Spec.Decimal text) : validateInt (text ++ 0 :: junk) = some true := by
  obtain ⟨b, h1, -, h2⟩ := validate_int_spec text junk (decimal_zero h)
  rw [h1, h2.2 h]

theorem fromInt_decimal (ib : Nat) (text junk : List Nat) (h : Spec.Decimal text) :
    fromInt ib (text ++ 0 :: junk) = if Spec.decimal text < 2 ^ (ib - 1) then some (Spec.decimal text : Int) else none := by
  rw [fromInt, subject_reads 10 (.inr (by decide)) text junk (decimal_zero h) _ _ _ (decimal_reads text h)]
  rfl

/-- C99, `int`: an accepted text whose number is an `int` is converted to that number.  (Missing:
`checked_int_undefined`, `checked_int_negative`.) -/
theorem checked_int_partial (ib : Nat) (text junk : List Nat) (h0 : 0 ∉ text)
    (h : validateInt (text ++ 0 :: junk) = some true) (hr : Spec.decimal text < 2 ^ (ib - 1)) :
    fromInt ib (text ++ 0 :: junk) = some (Spec.decimal text : Int) := by
  obtain ⟨b, h1, -, h2⟩ := validate_int_spec text junk h0
  have hd : Spec.Decimal text := h2.1 (by rw [h1] at h; exact Option.some.inj h)
  rw [fromInt_decimal ib text junk hd, if_pos hr]

/-- **Violation.**  The check accepts digits spelling any number, however large, and converting one that is no `int`
is undefined. -/
theorem checked_int_undefined (ib : Nat) (text junk : List Nat) (h : Spec.Decimal text) (hr : 2 ^ (ib - 1) ≤ Spec.decimal text) :
    validateInt (text ++ 0 :: junk) = some true ∧ fromInt ib (text ++ 0 :: junk) = none ∧ fromUchar ib (text ++ 0 :: junk) = none := by
  have := fromInt_decimal ib text junk h
  rw [if_neg (by omega)] at this
  exact ⟨validate_decimal text junk h, this, by rw [fromUchar, this]; rfl⟩

/-- **Violation.**  The check for `int` refuses every negative number, although it is converted correctly. -/
theorem checked_int_negative (ib : Nat) (ds junk : List Nat) (h : Spec.Decimal ds) (hr : Spec.decimal ds ≤ 2 ^ (ib - 1)) :
    validateInt ((45 :: ds) ++ 0 :: junk) = some false ∧ fromInt ib ((45 :: ds) ++ 0 :: junk) = some (-(Spec.decimal ds : Int)) := by
  refine ⟨by rw [List.cons_append, validateInt.eq_def]; simp [isdigitC], ?_⟩
  obtain ⟨ws, sg, pre, ds', rest, r, e, h1, h2, h3, h4, h5, h6, h7, h8⟩ := decimal_reads ds h
  have hr' : Spec.Reads 10 (45 :: ds) true (Spec.decimal ds) (ds.length + 1) := by
    refine ⟨[], [45], [], ds, [], 10, by simp, by simp, by simp, .inl ⟨by decide, by decide, rfl, rfl⟩, h.1, ?_, by simp, ?_, ?_⟩
    · intro c hc
      rw [digit_ten c (h.2 c hc)]; rfl
    · unfold Spec.decimal
      congr 1
      have h2 := h.2
      clear h1 h2 h3 h4 h5 h6 h7 h8 e hr
      have h2 := h.2
      clear h
      induction ds with
      | nil => rfl
      | cons c t ih =>
        rw [List.filterMap_cons, digit_ten c (h2 c (by simp))]
        simp only [List.map_cons]
        rw [ih (fun c hc => h2 c (by simp [hc]))]
    · simp; omega
  rw [fromInt, subject_reads 10 (.inr (by decide)) (45 :: ds) junk (by simpa using decimal_zero h) _ _ _ hr']
  simp [hr]

/-- C99, `unsigned char`: what an accepted text is converted to where its number is an `int`: the number itself
exactly if it is at most 255.  (So 256 and above are accepted and changed.) -/
theorem checked_uchar_partial (ib : Nat) (text junk : List Nat) (h0 : 0 ∉ text)
    (h : validateUchar (text ++ 0 :: junk) = some true) (hr : Spec.decimal text < 2 ^ (ib - 1)) :
    ∃ v, fromUchar ib (text ++ 0 :: junk) = some v ∧ v < 256 ∧ v = Spec.decimal text % 256 ∧
      (v = Spec.decimal text ↔ Spec.decimal text ≤ 255) := by
  refine ⟨Spec.decimal text % 256, ?_, Nat.mod_lt _ (by decide), rfl, ?_⟩
  · rw [fromUchar, checked_int_partial ib text junk h0 h hr]
    simp only [Option.map_some, Option.some.injEq]
    omega
  · have := Nat.mod_lt (Spec.decimal text) (show 256 > 0 by decide)
    have := Nat.mod_add_div (Spec.decimal text) 256
    omega

/-! ## `unsigned short`, `unsigned long` and `char` -/

/-- C99, `unsigned short`: the check accepts exactly the texts that start with a number, white space and sign
admitted, whatever follows the number. -/
theorem validate_ushort_spec (text junk : List Nat) (h0 : 0 ∉ text) :
    ∃ b, validateUshort (text ++ 0 :: junk) = some b ∧ (b = true ↔ ∃ neg v n, Spec.Reads 10 text neg v n) := by
  rcases subject_total 10 (.inr (by decide)) text junk h0 with ⟨h1, h2⟩ | ⟨neg, v, n, h1, h2⟩
  · refine ⟨false, by rw [validateUshort, h1]; rfl, ?_⟩
    simp only [Bool.false_eq_true, false_iff]
    rintro ⟨neg, v, n, h⟩
    exact h2 neg v n h
  · exact ⟨true, by rw [validateUshort, h2]; rfl, by simp only [true_iff]; exact ⟨neg, v, n, h1⟩⟩

/-- C99: a text starting with a number that is an `unsigned long` is converted to `unsigned long` as that number (a
negative one modulo `2 ^ lb`), and to `unsigned short` as that number modulo `2 ^ 16`: the number itself exactly if
it is an `unsigned short`.  (So negative numbers and numbers above 65535 are accepted and changed.) -/
theorem checked_ushort_partial (lb : Nat) (hlb : 16 ≤ lb) (text junk : List Nat) (h0 : 0 ∉ text) (neg : Bool) (v n : Nat)
    (h : Spec.Reads 10 text neg v n) (hr : v < 2 ^ lb) :
    validateUshort (text ++ 0 :: junk) = some true ∧
    (∃ w, fromUlong lb (text ++ 0 :: junk) = some w ∧ w < 2 ^ lb ∧ (w : Int) = Spec.signed neg v % 2 ^ lb) ∧
    ∃ w, fromUshort lb (text ++ 0 :: junk) = some w ∧ w < 65536 ∧ (w : Int) = Spec.signed neg v % 65536 ∧
      ((w : Int) = Spec.signed neg v ↔ 0 ≤ Spec.signed neg v ∧ Spec.signed neg v ≤ 65535) := by
  have hp := Nat.two_pow_pos lb
  obtain ⟨w, h1, h2, h3⟩ := stoul_partial lb 10 (.inr (by decide)) text junk h0 neg v n h (by simp only [intTy]; simp; omega)
  refine ⟨?_, ⟨w, by rw [fromUlong, h1]; rfl, h2, h3⟩, w % 65536, by rw [fromUshort, h1]; rfl, Nat.mod_lt _ (by decide), ?_⟩
  · rw [validateUshort, subject_reads 10 (.inr (by decide)) text junk h0 neg v n h]; rfl
  · have hd : (65536 : Int) ∣ 2 ^ lb := by
      have h := Nat.pow_dvd_pow 2 hlb
      have h' := Int.natCast_dvd_natCast.2 h
      simpa using h'
    have e : ((w % 65536 : Nat) : Int) = Spec.signed neg v % 65536 := by
      rw [Int.natCast_emod, h3]
      exact Int.emod_emod_of_dvd _ hd
    refine ⟨e, ?_⟩
    rw [e]
    omega

/-- C99, `char`: the check accepts exactly the texts of at most one character; one character is converted to itself,
the empty text to the terminator. -/
theorem checked_char_spec (text junk : List Nat) (h0 : 0 ∉ text) :
    ∃ b, validateChar (text ++ 0 :: junk) = some b ∧ (b = true ↔ text.length ≤ 1) ∧
      (∀ c, text = [c] → fromCharStr (text ++ 0 :: junk) = some c) ∧ (text = [] → fromCharStr (text ++ 0 :: junk) = some 0) := by
  refine ⟨_, by rw [validateChar, strlenC_spec text junk h0]; rfl, by simp, ?_, ?_⟩
  · rintro c rfl; rfl
  · rintro rfl; rfl

/-! ## `legacy::from_chars` -/

/-- the text has no leading white space, no `+`, and no `0x` before hexadecimal digits -/
def Spec.Plain (base : Nat) (text : List Nat) : Prop :=
  (∀ c, text.head? = some c → ¬ Spec.Blank c ∧ c ≠ 43) ∧
  (base = 16 → ¬ Spec.HexAhead (if text.head? = some 45 then text.tail else text))

theorem takeWhile_head {p : Nat → Bool} {l : List Nat} (h : l.takeWhile p = []) : ∀ c, l.head? = some c → p c = false := by
  intro c hc
  cases l with
  | nil => simp at hc
  | cons a l =>
    simp only [List.head?_cons, Option.some.injEq] at hc
    subst hc
    by_cases hp : p a = true
    · simp [hp] at h
    · simpa using hp

theorem takeWhile_mem {p : Nat → Bool} {l : List Nat} {c : Nat} (h : c ∈ l.takeWhile p) : p c = true := by
  induction l with
  | nil => simp at h
  | cons a l ih =>
    by_cases hp : p a = true
    · rw [List.takeWhile_cons_of_pos hp] at h
      rcases List.mem_cons.1 h with rfl | h
      · exact hp
      · exact ih h
    · rw [List.takeWhile_cons_of_neg hp] at h; simp at h

theorem dropWhile_head {p : Nat → Bool} (l : List Nat) : ∀ c, (l.dropWhile p).head? = some c → p c = false := by
  intro c hc
  induction l with
  | nil => simp at hc
  | cons a l ih =>
    by_cases hp : p a = true
    · rw [List.dropWhile_cons_of_pos hp] at hc; exact ih hc
    · rw [List.dropWhile_cons_of_neg hp] at hc
      simp only [List.head?_cons, Option.some.injEq] at hc
      subst hc
      simpa using hp

theorem plain_reads (base : Nat) (hb : 2 ≤ base) (text : List Nat) (hp : Spec.Plain base text) (body : List Nat) (neg : Bool)
    (hneg : neg = true ↔ text.head? = some 45) (hbody : body = if neg then text.tail else text)
    (ds : List Nat) (hds : ds = body.takeWhile fun c => (Charconv.Spec.digit base c).isSome) (hne : ds ≠ []) :
    Spec.Reads base text neg (Charconv.Spec.value base (ds.filterMap (Charconv.Spec.digit base))) ((if neg then 1 else 0) + ds.length) := by
  have e : body = ds ++ body.dropWhile (fun c => (Charconv.Spec.digit base c).isSome) := by
    rw [hds, List.takeWhile_append_dropWhile]
  have hx : base = 16 → ¬ Spec.HexAhead body := by
    intro h16
    have := hp.2 h16
    rw [hbody]
    by_cases hn : neg = true
    · rw [if_pos (hneg.1 hn)] at this; rwa [if_pos hn]
    · rw [if_neg (fun h => hn (hneg.2 h))] at this; rwa [if_neg hn]
  refine ⟨[], if neg then [45] else [], [], ds, body.dropWhile (fun c => (Charconv.Spec.digit base c).isSome), base, ?_, by simp, ?_, ?_, hne, ?_, ?_, rfl, ?_⟩
  · rw [List.nil_append, List.nil_append, ← e, hbody]
    by_cases hn : neg = true
    · rw [if_pos hn, if_pos hn]
      have := hneg.1 hn
      cases text with
      | nil => simp at this
      | cons a t => simp at this; simp [this]
    · rw [if_neg hn, if_neg hn]; rfl
  · cases neg <;> simp
  · rw [← e]
    by_cases h16 : base = 16
    · exact .inr (.inr (.inl ⟨h16, rfl, hx h16, h16⟩))
    · exact .inl ⟨by omega, h16, rfl, rfl⟩
  · intro c hc
    rw [hds] at hc
    exact takeWhile_mem hc
  · intro c hc
    simpa using dropWhile_head body c hc
  · cases neg <;> simp <;> omega

theorem plain_no_reads (base : Nat) (hb : 2 ≤ base) (text : List Nat) (hp : Spec.Plain base text) (body : List Nat)
    (hbody : body = if text.head? = some 45 then text.tail else text)
    (hds : body.takeWhile (fun c => (Charconv.Spec.digit base c).isSome) = []) (neg : Bool) (v n : Nat) :
    ¬ Spec.Reads base text neg v n := by
  rintro ⟨ws, sg, pre, ds, rest, r, e, hws, hsg, hr, hne, hd, -, -, -⟩
  have hw : ws = [] := by
    cases ws with
    | nil => rfl
    | cons a ws => exact absurd (hws a (by simp)) (hp.1 a (by rw [e]; rfl)).1
  subst hw
  rw [List.nil_append] at e
  obtain ⟨d, ds', rfl⟩ := List.exists_cons_of_ne_nil hne
  have hdig := hd d (by simp)
  have hb45 : body = pre ++ ((d :: ds') ++ rest) := by
    rw [hbody]
    cases neg with
    | true =>
      simp only [if_true] at hsg
      subst hsg
      rw [e]; simp
    | false =>
      simp only [Bool.false_eq_true, if_false] at hsg
      rcases hsg with rfl | rfl
      · rw [List.nil_append] at e
        rw [if_neg, e]
        rw [e]
        intro h
        have hrange : pre ++ (d :: ds' ++ rest) = 45 :: (pre ++ (d :: ds' ++ rest)).tail := by
          cases hh : pre ++ (d :: ds' ++ rest) with
          | nil => simp at hh
          | cons a l => rw [hh] at h; simp at h; simp [h]
        rcases hr with ⟨-, -, rfl, -⟩ | ⟨-, hpre, -⟩ | ⟨-, rfl, -⟩ | ⟨-, rfl, -⟩
        · simp at h; subst h; obtain ⟨x, hx⟩ := Option.isSome_iff_exists.1 hdig; have := digit_range hx; omega
        · rcases hpre with rfl | rfl <;> simp at h
        · simp at h; subst h; obtain ⟨x, hx⟩ := Option.isSome_iff_exists.1 hdig; have := digit_range hx; omega
        · simp at h; subst h; obtain ⟨x, hx⟩ := Option.isSome_iff_exists.1 hdig; have := digit_range hx; omega
      · exact absurd rfl (hp.1 43 (by rw [e]; rfl)).2
  have hnohex : base = 16 → ¬ Spec.HexAhead body := by rw [hbody]; exact hp.2
  have hno := takeWhile_head hds
  rcases hr with ⟨-, -, rfl, rfl⟩ | ⟨h0, hpre, rfl⟩ | ⟨rfl, rfl, -, rfl⟩ | ⟨rfl, -⟩
  · have := hno d (by rw [hb45]; rfl)
    rw [this] at hdig; simp at hdig
  · have h16 : base = 16 := by omega
    refine hnohex h16 ?_
    rw [hb45]
    rcases hpre with rfl | rfl
    · exact ⟨120, d, ds' ++ rest, rfl, .inl rfl, hdig⟩
    · exact ⟨88, d, ds' ++ rest, rfl, .inr rfl, hdig⟩
  · have := hno d (by rw [hb45]; rfl)
    rw [this] at hdig; simp at hdig
  · omega

/-- C99, `legacy::from_chars`: where the range is followed at once by a terminator and its text has no leading white
space, `+` or `0x`, the pointer and the error code are the ones `from_chars` is documented to return, and so is the
value of a number that is a `long`.  (Missing: `legacy_from_chars_past_end`, `legacy_from_chars_unterminated`,
`legacy_from_chars_lenient`, `legacy_from_chars_overwrites`.) -/
theorem legacy_from_chars_partial (lb base : Nat) (hb : 2 ≤ base) (hb' : base ≤ 36) (text junk : List Nat) (h0 : 0 ∉ text)
    (hp : Spec.Plain base text) :
    ∃ r, legacyFromChars lb base (text ++ 0 :: junk) text.length = some r ∧
      r.ptr = (Charconv.Spec.parse (intTy true lb) base text).1 ∧ r.ec = (Charconv.Spec.parse (intTy true lb) base text).2.1 ∧
      ∀ v, (Charconv.Spec.parse (intTy true lb) base text).2.2 = some v → r.value = v := by
  have hM := Nat.two_pow_pos (lb - 1)
  have hmax : (intTy true lb).max + 1 = 2 ^ (lb - 1) := by simp only [intTy, if_true]; omega
  have hmax' : (intTy true lb).max = 2 ^ (lb - 1) - 1 := by omega
  by_cases hn : text.head? = some 45
  · have hneg : ((intTy true lb).signed && text.head? == some 45) = true := by simp [intTy, hn]
    by_cases hds : text.tail.takeWhile (fun c => (Charconv.Spec.digit base c).isSome) = []
    · have hs : subject base (text ++ 0 :: junk) = some none := by
        rcases subject_total base (.inr ⟨hb, hb'⟩) text junk h0 with ⟨h, -⟩ | ⟨neg, v, n, h, -⟩
        · exact h
        · exact absurd h (plain_no_reads base hb text hp _ rfl (by rw [if_pos hn]; exact hds) neg v n)
      have hpar : Charconv.Spec.parse (intTy true lb) base text = (0, .invalidArgument, none) := by
        simp only [Charconv.Spec.parse, hneg, if_true, hds]
      rw [legacyFromChars, hs, hpar]
      exact ⟨_, rfl, rfl, rfl, by simp⟩
    · have hs := subject_reads base (.inr ⟨hb, hb'⟩) text junk h0 _ _ _
        (plain_reads base hb text hp text.tail true (by simp [hn]) (by simp) _ rfl hds)
      rw [legacyFromChars, hs]
      simp only [Charconv.Spec.parse, hneg, if_true, hds, if_false, hmax]
      by_cases hv : Charconv.Spec.value base (List.filterMap (Charconv.Spec.digit base)
          (List.takeWhile (fun c => (Charconv.Spec.digit base c).isSome) text.tail)) ≤ 2 ^ (lb - 1)
      · rw [if_pos hv, if_pos hv]
        exact ⟨_, rfl, rfl, rfl, by simp⟩
      · rw [if_neg hv, if_neg hv]
        exact ⟨_, rfl, rfl, rfl, by simp⟩
  · have hneg : ((intTy true lb).signed && text.head? == some 45) = false := by simp [hn]
    by_cases hds : text.takeWhile (fun c => (Charconv.Spec.digit base c).isSome) = []
    · have hs : subject base (text ++ 0 :: junk) = some none := by
        rcases subject_total base (.inr ⟨hb, hb'⟩) text junk h0 with ⟨h, -⟩ | ⟨neg, v, n, h, -⟩
        · exact h
        · exact absurd h (plain_no_reads base hb text hp _ rfl (by rw [if_neg hn]; exact hds) neg v n)
      have hpar : Charconv.Spec.parse (intTy true lb) base text = (0, .invalidArgument, none) := by
        simp only [Charconv.Spec.parse, hneg, Bool.false_eq_true, if_false, hds, if_true]
      rw [legacyFromChars, hs, hpar]
      exact ⟨_, rfl, rfl, rfl, by simp⟩
    · have hs := subject_reads base (.inr ⟨hb, hb'⟩) text junk h0 _ _ _
        (plain_reads base hb text hp text false (by simp [hn]) (by simp) _ rfl hds)
      rw [legacyFromChars, hs]
      simp only [Charconv.Spec.parse, hneg, Bool.false_eq_true, if_false, hds, hmax']
      by_cases hv : Charconv.Spec.value base (List.filterMap (Charconv.Spec.digit base)
          (List.takeWhile (fun c => (Charconv.Spec.digit base c).isSome) text)) < 2 ^ (lb - 1)
      · rw [if_pos hv, if_pos (by omega)]
        exact ⟨_, rfl, rfl, rfl, by simp⟩
      · rw [if_neg hv, if_neg (by omega)]
        exact ⟨_, rfl, rfl, rfl, by simp⟩

/-- all digits of the base: neither white space nor sign nor prefix -/
theorem digits_plain (base : Nat) (text : List Nat) (h : ∀ c ∈ text, (Charconv.Spec.digit base c).isSome) : Spec.Plain base text := by
  have hr : ∀ c ∈ text, (48 ≤ c ∧ c ≤ 57) ∨ (65 ≤ c ∧ c ≤ 90) ∨ (97 ≤ c ∧ c ≤ 122) := by
    intro c hc
    obtain ⟨d, hd⟩ := Option.isSome_iff_exists.1 (h c hc)
    exact digit_range hd
  have h45 : text.head? ≠ some 45 := by
    intro hc
    have := hr 45 (List.mem_of_head? hc)
    omega
  refine ⟨fun c hc => ?_, fun h16 => ?_⟩
  · have := hr c (List.mem_of_head? hc)
    refine ⟨fun hb => ?_, by omega⟩
    simp only [Spec.Blank, List.mem_cons, List.not_mem_nil, or_false] at hb
    omega
  · rw [if_neg h45]
    rintro ⟨x, y, u, rfl, hx, -⟩
    have := h x (by simp)
    subst h16
    rcases hx with rfl | rfl <;> simp [Charconv.Spec.digit, Charconv.Spec.digitVal] at this

/-- **Violation.**  `legacy::from_chars` does not stop at the end of the range: if the characters behind it are
digits too, it reads them as well, returns a pointer beyond the range, and a number made of all of them. -/
theorem legacy_from_chars_past_end (lb base : Nat) (hb : 2 ≤ base) (hb' : base ≤ 36) (range behind junk : List Nat)
    (h1 : ∀ c ∈ range, (Charconv.Spec.digit base c).isSome) (h2 : ∀ c ∈ behind, (Charconv.Spec.digit base c).isSome)
    (hne : behind ≠ [])
    (hfit : Charconv.Spec.value base ((range ++ behind).filterMap (Charconv.Spec.digit base)) < 2 ^ (lb - 1)) :
    legacyFromChars lb base (range ++ (behind ++ 0 :: junk)) range.length =
      some ⟨range.length + behind.length, .ok, Charconv.Spec.value base ((range ++ behind).filterMap (Charconv.Spec.digit base))⟩ := by
  have hall : ∀ c ∈ range ++ behind, (Charconv.Spec.digit base c).isSome := by
    intro c hc
    rcases List.mem_append.1 hc with h | h
    · exact h1 c h
    · exact h2 c h
  have h0 : 0 ∉ range ++ behind := fun h => by have := hall 0 h; rw [digit_zero_char] at this; simp at this
  have htw : (range ++ behind).takeWhile (fun c => (Charconv.Spec.digit base c).isSome) = range ++ behind :=
    takeWhile_self hall
  have h45 : (range ++ behind).head? ≠ some 45 := by
    intro hc
    obtain ⟨d, hd⟩ := Option.isSome_iff_exists.1 (hall 45 (List.mem_of_head? hc))
    have := digit_range hd
    omega
  have hs := subject_reads base (.inr ⟨hb, hb'⟩) (range ++ behind) junk h0 _ _ _
    (plain_reads base hb _ (digits_plain base _ hall) (range ++ behind) false (by simpa using h45) (by simp) _ htw.symm (by simp [hne]))
  rw [← List.append_assoc, legacyFromChars, hs]
  simp only [Bool.false_eq_true, if_false, hfit, if_true, List.length_append, Nat.zero_add]

/-- **Violation.**  It needs a terminator that a range need not have: a range of digits (or white space, a sign and
digits) that ends where its buffer ends makes it read past the buffer. -/
theorem legacy_from_chars_unterminated (lb base : Nat) (hb : 2 ≤ base) (hb' : base ≠ 16) (ws sg ds : List Nat)
    (hws : ∀ c ∈ ws, Spec.Blank c) (hsg : sg = [] ∨ sg = [43] ∨ sg = [45]) (hds : ∀ c ∈ ds, (Charconv.Spec.digit base c).isSome)
    (last : Nat) : legacyFromChars lb base (ws ++ (sg ++ ds)) last = none := by
  have h := stol_unterminated lb base hb hb' ws sg ds hws hsg hds
  rw [legacyFromChars]
  rw [stol] at h
  revert h
  cases subject base (ws ++ (sg ++ ds)) with
  | none => simp
  | some o =>
    cases o with
    | none => simp
    | some p => obtain ⟨neg, v, n⟩ := p; cases neg <;> simp

/-- **Violation.**  It accepts what `from_chars` must refuse: white space and `+` before a number. -/
theorem legacy_from_chars_lenient (lb base : Nat) (hb : 2 ≤ base) (hb' : base ≤ 36) (ws sg ds junk : List Nat)
    (hws : ∀ c ∈ ws, Spec.Blank c) (hsg : sg = [] ∨ sg = [43]) (hx : ws ++ sg ≠ [])
    (hds : ∀ c ∈ ds, (Charconv.Spec.digit base c).isSome) (hne : ds ≠ [])
    (hfit : Charconv.Spec.value base (ds.filterMap (Charconv.Spec.digit base)) < 2 ^ (lb - 1)) :
    legacyFromChars lb base (ws ++ (sg ++ ds) ++ 0 :: junk) (ws ++ (sg ++ ds)).length =
      some ⟨(ws ++ (sg ++ ds)).length, .ok, Charconv.Spec.value base (ds.filterMap (Charconv.Spec.digit base))⟩ ∧
    Charconv.Spec.parse (intTy true lb) base (ws ++ (sg ++ ds)) = (0, .invalidArgument, none) := by
  have hpl := digits_plain base ds hds
  have hr : Spec.Reads base (ws ++ (sg ++ ds)) false (Charconv.Spec.value base (ds.filterMap (Charconv.Spec.digit base)))
      (ws.length + sg.length + 0 + ds.length) := by
    refine ⟨ws, sg, [], ds, [], base, by simp, hws, by simpa using hsg, ?_, hne, hds, by simp, rfl, rfl⟩
    rw [List.append_nil]
    by_cases h16 : base = 16
    · refine .inr (.inr (.inl ⟨h16, rfl, ?_, h16⟩))
      have := hpl.2 h16
      rwa [if_neg] at this
      intro hc
      obtain ⟨d, hd⟩ := Option.isSome_iff_exists.1 (hds 45 (List.mem_of_head? hc))
      have := digit_range hd
      omega
    · exact .inl ⟨by omega, h16, rfl, rfl⟩
  have hb0 : ∀ c ∈ ws, c = 32 ∨ (9 ≤ c ∧ c ≤ 13) := by
    intro c hc
    have := hws c hc
    simp only [Spec.Blank, List.mem_cons, List.not_mem_nil, or_false] at this
    omega
  have h0 : 0 ∉ ws ++ (sg ++ ds) := by
    intro h
    rcases List.mem_append.1 h with h | h
    · have := hb0 0 h; omega
    · rcases List.mem_append.1 h with h | h
      · rcases hsg with rfl | rfl <;> simp at h
      · have := hds 0 h; rw [digit_zero_char] at this; simp at this
  refine ⟨?_, ?_⟩
  · rw [legacyFromChars, subject_reads base (.inr ⟨hb, hb'⟩) _ junk h0 _ _ _ hr]
    simp [hfit]
    omega
  · obtain ⟨c, t, e, hc⟩ : ∃ c t, ws ++ (sg ++ ds) = c :: t ∧ (c = 43 ∨ c = 32 ∨ (9 ≤ c ∧ c ≤ 13)) := by
      cases ws with
      | cons a ws => exact ⟨a, ws ++ (sg ++ ds), rfl, .inr (hb0 a (by simp))⟩
      | nil =>
        rcases hsg with rfl | rfl
        · simp at hx
        · exact ⟨43, ds, rfl, .inl rfl⟩
    have hnd : Charconv.Spec.digit base c = none := by
      cases h : Charconv.Spec.digit base c with
      | none => rfl
      | some d => have := digit_range h; omega
    have hc45 : c ≠ 45 := by omega
    rw [e]
    simp [Charconv.Spec.parse, hc45, hnd]

/-- **Violation.**  On an error `value` is overwritten, with 0 if there was no number and with the nearest `long` if
it was out of range; `from_chars` must leave it alone. -/
theorem legacy_from_chars_overwrites (lb base : Nat) (hb : base = 0 ∨ (2 ≤ base ∧ base ≤ 36)) (text junk : List Nat) (h0 : 0 ∉ text) (last : Nat) :
    ((∀ neg v n, ¬ Spec.Reads base text neg v n) → legacyFromChars lb base (text ++ 0 :: junk) last = some ⟨0, .invalidArgument, 0⟩) ∧
    (∀ neg v n, Spec.Reads base text neg v n → ¬ InRange (intTy true lb) (Spec.signed neg v) →
      legacyFromChars lb base (text ++ 0 :: junk) last = some ⟨n, .outOfRange, if neg then (intTy true lb).min else (intTy true lb).max⟩) := by
  have hp := Nat.two_pow_pos (lb - 1)
  refine ⟨fun h => ?_, fun neg v n h hr => ?_⟩
  · rcases subject_total base hb text junk h0 with ⟨hs, -⟩ | ⟨neg, v, n, hr, -⟩
    · rw [legacyFromChars, hs]
    · exact absurd hr (h neg v n)
  · rw [legacyFromChars, subject_reads base hb text junk h0 neg v n h]
    have hcast : ((2 ^ (lb - 1) : Nat) : Int) = (2 : Int) ^ (lb - 1) := by simp
    generalize hM : 2 ^ (lb - 1) = M at *
    cases neg with
    | true =>
      have : ¬ v ≤ M := by
        intro hv; apply hr
        simp only [InRange, intTy, IntTy.min, Spec.signed, if_true, hM]; omega
      simp only [if_true, this, if_false, intTy, IntTy.min, hM]
      congr 2
      omega
    | false =>
      have : ¬ v < M := by
        intro hv; apply hr
        simp only [InRange, intTy, IntTy.min, Spec.signed, if_true, hM, Bool.false_eq_true, if_false]; omega
      simp only [Bool.false_eq_true, if_false, this, intTy, if_true, hM]
      congr 2
      omega

/-! ## Cases that meet the hypotheses -/

example : Spec.Decimal [52, 50] ∧ Spec.decimal [52, 50] = 42 := ⟨⟨by simp, by simp⟩, by decide⟩
example : validateInt [52, 50, 0] = some true ∧ validateInt [45, 52, 0] = some false ∧ validateInt [0] = some false := by decide
example : fromInt 16 [52, 50, 0, 9] = some 42 ∧ fromInt 16 [52, 48, 48, 48, 48, 0] = none := by decide +kernel
example : fromUchar 16 [51, 48, 48, 0] = some 44 := by decide +kernel
example : fromUshort 32 [45, 49, 0] = some 65535 := by decide +kernel
example : legacyFromChars 32 10 [49, 50, 51, 52, 0] 2 = some ⟨4, .ok, 1234⟩ := by decide +kernel
example : legacyFromChars 32 10 [32, 43, 49, 0] 3 = some ⟨3, .ok, 1⟩ := by decide +kernel
example : Spec.Plain 16 [45, 49, 102] := by
  refine ⟨by simp [Spec.Blank], fun _ => ?_⟩
  rintro ⟨x, h, u, e, -⟩
  simp at e
example : legacyFromChars 16 10 [57, 57, 57, 57, 57, 0] 5 = some ⟨5, .outOfRange, 32767⟩ := by decide +kernel

end Verif.Text
