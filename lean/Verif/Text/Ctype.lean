import Verif.Text.ToString
import Verif.Strings.Props
/-!
# Character classification and raw character sequences

C52: `ctype<char>::is(mask, ch)` says whether `ch` belongs to any of the categories in `mask`, and the
free functions `isupper`, `islower`, `isalpha`, `isdigit`, `isspace` recognise their ASCII categories.
C53: `char_traits<char>::find`, `length` and `compare` behave like `memchr`, `strlen` and `memcmp`.
-/
namespace Verif.Text
open Verif Verif.Charconv

/-! ## Specification: the ASCII categories -/

inductive Spec.Category where | space | digit | alpha | punct | upper | lower | xdigit
deriving DecidableEq, Repr

/-- membership of the character code `c` in a category of the C locale -/
def Spec.Category.has : Spec.Category → Nat → Prop
  | .space, c => c = 32 ∨ (9 ≤ c ∧ c ≤ 13)
  | .digit, c => 48 ≤ c ∧ c ≤ 57
  | .upper, c => 65 ≤ c ∧ c ≤ 90
  | .lower, c => 97 ≤ c ∧ c ≤ 122
  | .alpha, c => (65 ≤ c ∧ c ≤ 90) ∨ (97 ≤ c ∧ c ≤ 122)
  | .xdigit, c => (48 ≤ c ∧ c ≤ 57) ∨ (65 ≤ c ∧ c ≤ 70) ∨ (97 ≤ c ∧ c ≤ 102)
  | .punct, c => (33 ≤ c ∧ c ≤ 47) ∨ (58 ≤ c ∧ c ≤ 64) ∨ (91 ≤ c ∧ c ≤ 96) ∨ (123 ≤ c ∧ c ≤ 126)

/-! ## The model -/

/-- The bit of each category, internal/locale/ctype.h:23-29. -/
def bit : Spec.Category → BitVec 8
  | .space => 0x01 | .digit => 0x02 | .alpha => 0x04 | .punct => 0x08
  | .upper => 0x10 | .lower => 0x20 | .xdigit => 0x40

/-- `isspace`, internal/locale/ctype.h:52-67. -/
def ctIsspace (c : Nat) : Bool :=
  c == 32 || c == 13 || c == 10 || c == 12 || c == 9 || c == 11

/-- `isupper`, internal/locale/ctype.h:69-72. -/
def ctIsupper (c : Nat) : Bool := 65 ≤ c && c ≤ 90

/-- `islower`, internal/locale/ctype.h:74-77 (both bounds are `'a'`). -/
def ctIslower (c : Nat) : Bool := 97 ≤ c && c ≤ 97

/-- `is(mask, ch)`, internal/locale/ctype.h:86-111; `is_in_base` with the facets of base 16 and 10. -/
def ctIs (m : BitVec 8) (c : Nat) : Bool :=
  if m &&& 0x01 ≠ 0 ∧ ctIsspace c then true
  else
    let tail : Bool :=
      if m &&& 0x10 ≠ 0 then ctIsupper c
      else if m &&& 0x20 ≠ 0 then ctIslower c
      else false
    if m &&& 0x40 ≠ 0 then if isInBase 16 c 16 then true else tail
    else if m &&& 0x02 ≠ 0 then if isInBase 10 c 10 then true else tail
    else tail

/-- `estd::isupper(int)`, cctype.h:9-12. -/
def cIsupper (c : Int) : Bool := 65 ≤ c && c ≤ 90
/-- `estd::islower(int)`, cctype.h:14-17. -/
def cIslower (c : Int) : Bool := 97 ≤ c && c ≤ 122
/-- `estd::isalpha(int)`, cctype.h:19-22. -/
def cIsalpha (c : Int) : Bool := cIsupper c || cIslower c
/-- `estd::isspace(int)`, cctype.h:24-27, internal/cctype.h:10-13. -/
def cIsspace (c : Int) : Bool := c == 32
/-- `estd::isdigit(int)`, cctype.h:29-32, internal/cctype.h:5-8. -/
def cIsdigit (c : Int) : Bool := 48 ≤ c && c ≤ 57

/-! ## C52 -/

theorem inBase16 (c : Nat) : isInBase 16 c 16 = true ↔ Spec.Category.xdigit.has c := by
  simp [isInBase, isInBase36, asciiIsDigit, isUpper, isLower, Spec.Category.has]; omega

theorem inBase10 (c : Nat) : isInBase 10 c 10 = true ↔ Spec.Category.digit.has c := by
  simp [isInBase, isInBase10, Spec.Category.has]

theorem ctIsspace_iff (c : Nat) : ctIsspace c = true ↔ Spec.Category.space.has c := by
  simp [ctIsspace, Spec.Category.has]; omega

theorem ctIsupper_iff (c : Nat) : ctIsupper c = true ↔ Spec.Category.upper.has c := by
  simp [ctIsupper, Spec.Category.has]

theorem ctIslower_iff (c : Nat) : ctIslower c = true ↔ c = 97 := by
  simp [ctIslower]; omega

/-- What `is` decides, for every mask and character. -/
theorem ctype_is_exact (m : BitVec 8) (c : Nat) :
    ctIs m c = true ↔
      (m &&& bit .space ≠ 0 ∧ Spec.Category.space.has c) ∨
      (m &&& bit .xdigit ≠ 0 ∧ Spec.Category.xdigit.has c) ∨
      (m &&& bit .digit ≠ 0 ∧ Spec.Category.digit.has c) ∨
      (m &&& bit .upper ≠ 0 ∧ Spec.Category.upper.has c) ∨
      (m &&& bit .lower ≠ 0 ∧ m &&& bit .upper = 0 ∧ c = 97) := by
  have hsub : Spec.Category.digit.has c → Spec.Category.xdigit.has c := fun h => .inl h
  rw [← ctIsspace_iff, ← ctIsupper_iff, ← inBase16, ← inBase10, ← ctIslower_iff]
  rw [← inBase16, ← inBase10] at hsub
  unfold ctIs
  show _ ↔ (m &&& 0x01 ≠ 0 ∧ _) ∨ (m &&& 0x40 ≠ 0 ∧ _) ∨ (m &&& 0x02 ≠ 0 ∧ _) ∨ (m &&& 0x10 ≠ 0 ∧ _) ∨
    (m &&& 0x20 ≠ 0 ∧ m &&& 0x10 = 0 ∧ _)
  generalize ctIsspace c = a at *
  generalize ctIsupper c = b at *
  generalize ctIslower c = d at *
  generalize isInBase 16 c 16 = e at *
  generalize isInBase 10 c 10 = f at *
  have key : ∀ (p1 p2 p3 p4 p5 a b d e f : Bool), (f = true → e = true) →
      ((if p1 = true ∧ a then true
        else
          let tail : Bool := if p4 = true then b else if p5 = true then d else false
          if p2 = true then if e then true else tail
          else if p3 = true then if f then true else tail
          else tail) = true ↔
        (p1 = true ∧ a = true) ∨ (p2 = true ∧ e = true) ∨ (p3 = true ∧ f = true) ∨ (p4 = true ∧ b = true) ∨
          (p5 = true ∧ ¬ p4 = true ∧ d = true)) := by
    intro p1 p2 p3 p4 p5 a b d e f h
    cases p1 <;> cases p2 <;> cases p3 <;> cases p4 <;> cases p5 <;> simp <;> cases e <;> cases f <;> simp_all
  have := key (decide (m &&& 0x01 ≠ 0)) (decide (m &&& 0x40 ≠ 0)) (decide (m &&& 0x02 ≠ 0))
    (decide (m &&& 0x10 ≠ 0)) (decide (m &&& 0x20 ≠ 0)) a b d e f hsub
  simpa only [decide_eq_true_eq, ne_eq, Decidable.not_not] using this

/-- Whatever `is` accepts does belong to one of the categories asked for. -/
theorem ctype_is_sound (m : BitVec 8) (c : Nat) (h : ctIs m c = true) :
    ∃ k, m &&& bit k ≠ 0 ∧ k.has c := by
  rcases (ctype_is_exact m c).mp h with h | h | h | h | ⟨h5, -, rfl⟩
  · exact ⟨_, h⟩
  · exact ⟨_, h⟩
  · exact ⟨_, h⟩
  · exact ⟨_, h⟩
  · exact ⟨.lower, h5, by decide, by decide⟩

/-- Masks made of the space, digit, upper and hexadecimal digit bits are decided correctly for every
character.  (Missing: masks with `lower`, `alpha` or `punct`, see `ctype_is_missed`.) -/
theorem ctype_is_partial (m : BitVec 8) (c : Nat)
    (hm : ∀ k, m &&& bit k ≠ 0 → k = .space ∨ k = .digit ∨ k = .upper ∨ k = .xdigit) :
    ctIs m c = true ↔ ∃ k, m &&& bit k ≠ 0 ∧ k.has c := by
  refine ⟨ctype_is_sound m c, fun ⟨k, hk, hc⟩ => ?_⟩
  rw [ctype_is_exact]
  rcases hm k hk with rfl | rfl | rfl | rfl
  · exact .inl ⟨hk, hc⟩
  · exact .inr (.inr (.inl ⟨hk, hc⟩))
  · exact .inr (.inr (.inr (.inl ⟨hk, hc⟩)))
  · exact .inr (.inl ⟨hk, hc⟩)

/-- the hypotheses, concretely: space or hexadecimal digit; 'f' is in, 'g' is not -/
example : (∀ k, (0x41 : BitVec 8) &&& bit k ≠ 0 → k = .space ∨ k = .digit ∨ k = .upper ∨ k = .xdigit) ∧
    ctIs 0x41 102 = true ∧ ctIs 0x41 103 = false :=
  ⟨fun k h => by cases k <;> revert h <;> decide, by decide, by decide⟩

/-- **Violation.**  Asked for letters or punctuation alone, `is` refuses every character; asked for
lower case, every letter but `a`; asked for upper or lower case, every lower case letter. -/
theorem ctype_is_missed (c : Nat) :
    ctIs (bit .alpha) c = false ∧ ctIs (bit .punct) c = false ∧
    (ctIs (bit .lower) c = true ↔ c = 97) ∧
    (Spec.Category.lower.has c → ctIs (bit .upper ||| bit .lower) c = false) := by
  refine ⟨?_, ?_, ?_, fun h => ?_⟩
  · rw [Bool.eq_false_iff, ne_eq, ctype_is_exact]; simp [bit]
  · rw [Bool.eq_false_iff, ne_eq, ctype_is_exact]; simp [bit]
  · rw [ctype_is_exact]; simp [bit]
  · rw [Bool.eq_false_iff, ne_eq, ctype_is_exact]
    simp [bit, Spec.Category.has] at h ⊢
    omega

/-- The free functions, for every `int`; `isspace` of blanks only (missing: the other white space,
see `cctype_isspace_misses`). -/
theorem cctype_partial (c : Int) :
    (cIsupper c = true ↔ 0 ≤ c ∧ Spec.Category.upper.has c.toNat) ∧
    (cIslower c = true ↔ 0 ≤ c ∧ Spec.Category.lower.has c.toNat) ∧
    (cIsalpha c = true ↔ 0 ≤ c ∧ Spec.Category.alpha.has c.toNat) ∧
    (cIsdigit c = true ↔ 0 ≤ c ∧ Spec.Category.digit.has c.toNat) ∧
    (cIsspace c = true → 0 ≤ c ∧ Spec.Category.space.has c.toNat) := by
  simp [cIsupper, cIslower, cIsalpha, cIsdigit, cIsspace, Spec.Category.has]
  omega

/-- **Violation.**  `isspace(int)` refuses tabs, line ends, form feeds; the locale's `is(space, …)`
accepts them. -/
theorem cctype_isspace_misses (c : Nat) (h : Spec.Category.space.has c) (hb : c ≠ 32) :
    cIsspace c = false ∧ ctIs (bit .space) c = true := by
  refine ⟨by simp [cIsspace]; omega, ?_⟩
  rw [ctype_is_exact]
  exact .inl ⟨by decide, h⟩

example : Spec.Category.space.has 9 := .inr ⟨by omega, by omega⟩

/-! ## C53: char_traits

`length` and `compare` are modelled in Strings/Model.lean (`cLength`, `traitsCompare`). -/

/-- `char_traits<char>::find`, traits/char_traits.h:40-49, from position `p`; `none` reads outside,
`some none` is the null pointer. -/
def traitsFind (m : List Int) (ch : Int) : (p count : Nat) → Option (Option Nat)
  | _, 0 => some none
  | p, count + 1 =>
    match rd m p with
    | none => none
    | some x => if x = ch then some (some p) else traitsFind m ch (p + 1) count

/-- C53: `find` returns the first position in the range that holds the character, null when there is
none. -/
theorem traits_find_spec (m : List Int) (ch : Int) (p count : Nat) (h : p + count ≤ m.length) :
    ∃ r, traitsFind m ch p count = some r ∧
      match r with
      | some q => p ≤ q ∧ q < p + count ∧ m[q]? = some ch ∧ ∀ j, p ≤ j → j < q → m[j]? ≠ some ch
      | none => ∀ j, p ≤ j → j < p + count → m[j]? ≠ some ch := by
  induction count generalizing p with
  | zero => exact ⟨none, rfl, fun j h1 h2 => by omega⟩
  | succ n ih =>
    rw [traitsFind, rd_lt (show p < m.length by omega)]
    by_cases hx : m[p]'(by omega) = ch
    · refine ⟨some p, by simp [hx], Nat.le_refl _, by omega, ?_, fun j h1 h2 => by omega⟩
      rw [List.getElem?_eq_getElem (by omega), hx]
    · have hp : m[p]? ≠ some ch := by
        rw [List.getElem?_eq_getElem (by omega)]; simpa using hx
      obtain ⟨r, e1, e2⟩ := ih (p + 1) (by omega)
      refine ⟨r, by simp [hx, e1], ?_⟩
      cases r with
      | none =>
        intro j h1 h2
        by_cases hj : j = p
        · rw [hj]; exact hp
        · exact e2 j (by omega) (by omega)
      | some q =>
        obtain ⟨f1, f2, f3, f4⟩ := e2
        refine ⟨by omega, by omega, f3, fun j h1 h2 => ?_⟩
        by_cases hj : j = p
        · rw [hj]; exact hp
        · exact f4 j (by omega) h2

example : traitsFind [97, 98, 97] 97 1 2 = some (some 2) := by decide

/-- Only the characters up to the match are looked at, so a count larger than the array is fine when
the character is there. -/
theorem traits_find_early (m : List Int) (ch : Int) (p q count : Nat) (hpq : p ≤ q) (hq : m[q]? = some ch)
    (hc : q < p + count) : ∃ r, traitsFind m ch p count = some (some r) ∧ r ≤ q := by
  induction count generalizing p with
  | zero => omega
  | succ n ih =>
    have hlt : q < m.length := (List.getElem?_eq_some_iff.mp hq).1
    rw [traitsFind, rd_lt (show p < m.length by omega)]
    by_cases hx : m[p]'(by omega) = ch
    · exact ⟨p, by simp [hx], hpq⟩
    · have hne : p ≠ q := by
        intro h; subst h
        rw [List.getElem?_eq_getElem (by omega)] at hq
        exact hx (Option.some.inj hq)
      obtain ⟨r, e1, e2⟩ := ih (p + 1) (by omega) (by omega)
      exact ⟨r, by simp [hx, e1], e2⟩

/-- C53: `length` of a C string is the number of characters before its terminator. -/
theorem traits_length_spec (c t : List Int) (h : Strings.Spec.CString c t) : Strings.cLength c 0 = some t.length :=
  Strings.cLength_spec c t h

/-- C53: `compare` is the lexicographic order of the first `count` characters (as plain `char`s, so
with a signed `char` the codes from 128 come first). -/
theorem traits_compare_spec (a b : List Int) (n : Nat) (ha : n ≤ a.length) (hb : n ≤ b.length) :
    Strings.traitsCompare a b 0 n = some (Strings.Spec.lexSign (a.take n) (b.take n)) := by
  have := Strings.traitsCompare_spec a b 0 n (by omega) (by omega)
  simpa using this

example : Strings.Spec.CString [104, 105, 0, 9] [104, 105] := ⟨⟨[9], rfl⟩, by decide⟩
example : Strings.traitsCompare [1, 2, 3] [1, 5, 0] 0 3 = some (-1) := by decide

end Verif.Text
