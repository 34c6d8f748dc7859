import Verif.Text.ToString
/-!
# C97: numbers read from strings with `stol`, `stoul` and `stoi`

The functions hand the characters of a null-terminated string to the C library's `strtol` or `strtoul`; `strtol`
is modelled here from its description in the C standard.  The memory is the list of characters from the start of
the string to the end of its buffer; reading past its end is undefined (`none`).
-/
namespace Verif.Text
open Verif Verif.Charconv Verif.Streams

/-! ## The model -/

/-- the C library's `isspace` in the "C" locale, called by `strtol` (string.h:89) -/
def cspace (c : Nat) : Bool := c == 32 || (9 ≤ c && c ≤ 13)

/-- the digits `strtol` accepts in a base (string.h:89), letters in either case -/
def cdigit (base c : Nat) : Option Nat :=
  let d := if 48 ≤ c ∧ c ≤ 57 then c - 48 else if 65 ≤ c ∧ c ≤ 90 then c - 55
    else if 97 ≤ c ∧ c ≤ 122 then c - 87 else base
  if d < base then some d else none

/-- `strtol` (string.h:89) skips white space: how many characters, and what follows -/
def skipSpace : List Nat → Nat → Option (List Nat × Nat)
  | [], _ => none
  | c :: t, n => if cspace c then skipSpace t (n + 1) else some (c :: t, n)

/-- `strtol` (string.h:89): the optional sign -/
def takeSign : List Nat → Option (Bool × List Nat × Nat)
  | [] => none
  | c :: t => if c = 45 then some (true, t, 1) else if c = 43 then some (false, t, 1) else some (false, c :: t, 0)

/-- `strtol` (string.h:89): `0x` or `0X` followed by a hexadecimal digit -/
def hexAhead : List Nat → Option Bool
  | [] => none
  | c :: t =>
    if c = 48 then
      match t with
      | [] => none
      | x :: u => if x = 120 ∨ x = 88 then
          match u with
          | [] => none
          | h :: _ => some (cdigit 16 h).isSome
        else some false
    else some false

/-- `strtol` (string.h:89): the base the digits are read in, what follows its prefix, and the length of the prefix -/
def radix (base : Nat) (m : List Nat) : Option (Nat × List Nat × Nat) :=
  if base = 0 ∨ base = 16 then
    match hexAhead m with
    | none => none
    | some true => some (16, m.drop 2, 2)
    | some false => some (if base = 16 then 16 else if m.head? = some 48 then 8 else 10, m, 0)
  else some (base, m, 0)

/-- `strtol` (string.h:89): the digits, their value and their number -/
def takeDigits (base : Nat) : List Nat → Nat → Nat → Option (Nat × Nat)
  | [], _, _ => none
  | c :: t, v, n =>
    match cdigit base c with
    | some d => takeDigits base t (v * base + d) (n + 1)
    | none => some (v, n)

/-- `strtol` (string.h:89): sign, magnitude and end of the number at the start of the memory; `some none` if there is
no number.  A base that is neither 0 nor between 2 and 36 is undefined: the C library need not set `end`
(string.h:88, 92). -/
def subject (base : Nat) (m : List Nat) : Option (Option (Bool × Nat × Nat)) :=
  if base = 1 ∨ 36 < base then none else
  match skipSpace m 0 with
  | none => none
  | some (m1, n1) =>
    match takeSign m1 with
    | none => none
    | some (neg, m2, n2) =>
      match radix base m2 with
      | none => none
      | some (r, m3, n3) =>
        match takeDigits r m3 0 0 with
        | none => none
        | some (v, n) => some (if n = 0 then none else some (neg, v, n1 + n2 + n3 + n))

/-- `stol(str, &pos, base)`, string.h:76-95, where `long` has `lb` bits: the value and `pos`.  Without a number
`strtol` gives 0 and `end == data`; out of range it gives the nearest `long`.  `errno` is not looked at. -/
def stol (lb base : Nat) (m : List Nat) : Option (Int × Nat) :=
  match subject base m with
  | none => none
  | some none => some (0, 0)
  | some (some (neg, v, n)) =>
    let M := 2 ^ (lb - 1)
    if neg then some (if v ≤ M then -(v : Int) else -(M : Int), n)
    else some (if v < M then (v : Int) else (M : Int) - 1, n)

/-- `stoul(str, &pos, base)`, string.h:97-119: `strtoul` negates modulo `2 ^ lb` after a `-` -/
def stoul (lb base : Nat) (m : List Nat) : Option (Nat × Nat) :=
  match subject base m with
  | none => none
  | some none => some (0, 0)
  | some (some (neg, v, n)) =>
    let M := 2 ^ lb
    if v < M then some (if neg then (M - v) % M else v, n) else some (M - 1, n)

/-- `stoi(str, &pos, base)`, string.h:126-132, where `int` has `ib` bits: the `long` cast to `int` -/
def stoi (lb ib base : Nat) (m : List Nat) : Option (Int × Nat) :=
  (stol lb base m).map fun (v, n) => (v.bmod (2 ^ ib), n)

/-! ## Specification -/

/-- white space -/
def Spec.Blank (c : Nat) : Prop := c ∈ [32, 9, 10, 11, 12, 13]

/-- a text starts like a hexadecimal number with its prefix -/
def Spec.HexAhead (t : List Nat) : Prop :=
  ∃ x h u, t = 48 :: x :: h :: u ∧ (x = 120 ∨ x = 88) ∧ (Charconv.Spec.digit 16 h).isSome

/-- Asked for `base`, a number written as `pre` and then `after` has its digits in base `r`: base 16 admits the
prefix `0x`, base 0 means hexadecimal after `0x`, octal after `0`, decimal otherwise. -/
def Spec.Radix (base : Nat) (pre after : List Nat) (r : Nat) : Prop :=
  (base ≠ 0 ∧ base ≠ 16 ∧ pre = [] ∧ r = base) ∨
  ((base = 0 ∨ base = 16) ∧ (pre = [48, 120] ∨ pre = [48, 88]) ∧ r = 16) ∨
  (base = 16 ∧ pre = [] ∧ ¬ Spec.HexAhead after ∧ r = 16) ∨
  (base = 0 ∧ pre = [] ∧ ¬ Spec.HexAhead after ∧ r = if after.head? = some 48 then 8 else 10)

/-- `text` starts with white space, a sign and a number: negative if `neg`, of magnitude `v`, taking up `n`
characters in all; no digit follows. -/
def Spec.Reads (base : Nat) (text : List Nat) (neg : Bool) (v n : Nat) : Prop :=
  ∃ ws sg pre ds rest r, text = ws ++ (sg ++ (pre ++ (ds ++ rest))) ∧
    (∀ c ∈ ws, Spec.Blank c) ∧ (if neg then sg = [45] else sg = [] ∨ sg = [43]) ∧
    Spec.Radix base pre (ds ++ rest) r ∧ ds ≠ [] ∧ (∀ c ∈ ds, (Charconv.Spec.digit r c).isSome) ∧
    (∀ c, rest.head? = some c → Charconv.Spec.digit r c = none) ∧
    v = Charconv.Spec.value r (ds.filterMap (Charconv.Spec.digit r)) ∧
    n = ws.length + sg.length + pre.length + ds.length

/-- the value with its sign -/
def Spec.signed (neg : Bool) (v : Nat) : Int := if neg then -(v : Int) else v

/-! ## The steps of `strtol` -/

theorem cdigit_eq (base c : Nat) : cdigit base c = Charconv.Spec.digit base c := by
  unfold cdigit Charconv.Spec.digit Charconv.Spec.digitVal
  by_cases h1 : 48 ≤ c ∧ c ≤ 57
  · simp [h1]
  · by_cases h2 : 65 ≤ c ∧ c ≤ 90
    · simp [h1, h2]
    · by_cases h3 : 97 ≤ c ∧ c ≤ 122
      · simp [h1, h2, h3]
      · simp [h1, h2, h3]

theorem cspace_iff (c : Nat) : cspace c = true ↔ Spec.Blank c := by
  simp only [cspace, Spec.Blank, List.mem_cons, List.not_mem_nil, or_false, Bool.or_eq_true, beq_iff_eq, Bool.and_eq_true, decide_eq_true_eq]
  omega

theorem digit_range {r c d : Nat} (h : Charconv.Spec.digit r c = some d) :
    (48 ≤ c ∧ c ≤ 57) ∨ (65 ≤ c ∧ c ≤ 90) ∨ (97 ≤ c ∧ c ≤ 122) := by
  unfold Charconv.Spec.digit Charconv.Spec.digitVal at h
  by_cases h1 : 48 ≤ c ∧ c ≤ 57
  · exact .inl h1
  · by_cases h2 : 65 ≤ c ∧ c ≤ 90
    · exact .inr (.inl h2)
    · by_cases h3 : 97 ≤ c ∧ c ≤ 122
      · exact .inr (.inr h3)
      · simp [h1, h2, h3] at h

theorem skipSpace_run (ws : List Nat) (t : List Nat) (c n : Nat) (hw : ∀ c ∈ ws, Spec.Blank c) (hc : ¬ Spec.Blank c) :
    skipSpace (ws ++ c :: t) n = some (c :: t, n + ws.length) := by
  induction ws generalizing n with
  | nil =>
    have : ¬ (cspace c = true) := fun h => hc ((cspace_iff c).1 h)
    simp [skipSpace, this]
  | cons a ws ih =>
    have : cspace a = true := (cspace_iff a).2 (hw a (by simp))
    simp only [List.cons_append, skipSpace, this, if_true]
    rw [ih (n + 1) (fun c hc => hw c (by simp [hc]))]
    simp only [List.length_cons]
    congr 2
    omega

theorem takeDigits_run (r : Nat) (ds : List Nat) (c : Nat) (t : List Nat) (v n : Nat)
    (hd : ∀ c ∈ ds, (Charconv.Spec.digit r c).isSome) (hc : Charconv.Spec.digit r c = none) :
    takeDigits r (ds ++ c :: t) v n =
      some ((ds.filterMap (Charconv.Spec.digit r)).foldl (fun a d => a * r + d) v, n + ds.length) := by
  induction ds generalizing v n with
  | nil => simp [takeDigits, cdigit_eq, hc]
  | cons a ds ih =>
    obtain ⟨d, ha⟩ := Option.isSome_iff_exists.1 (hd a (by simp))
    simp only [List.cons_append, takeDigits, cdigit_eq, ha]
    rw [ih _ _ (fun c hc => hd c (by simp [hc]))]
    rw [List.filterMap_cons, ha]
    simp only [List.foldl_cons, List.length_cons]
    congr 2
    omega

theorem digit_zero_char (r : Nat) : Charconv.Spec.digit r 0 = none := by
  cases h : Charconv.Spec.digit r 0 with
  | none => rfl
  | some d => have := digit_range h; omega

/-- the first character of what is left, counting the terminator -/
theorem headed (l : List Nat) (junk : List Nat) : ∃ c t, l ++ 0 :: junk = c :: t ∧ (l.head? = some c ∨ (l = [] ∧ c = 0)) := by
  cases l with
  | nil => exact ⟨0, junk, rfl, .inr ⟨rfl, rfl⟩⟩
  | cons c l => exact ⟨c, l ++ 0 :: junk, rfl, .inl rfl⟩

theorem hexAhead_spec (l junk : List Nat) (h0 : 0 ∉ l) :
    ∃ b, hexAhead (l ++ 0 :: junk) = some b ∧ (b = true ↔ Spec.HexAhead l) := by
  match l, h0 with
  | [], _ => exact ⟨false, by simp [hexAhead], by simp [Spec.HexAhead]⟩
  | [a], _ =>
    refine ⟨false, ?_, by simp [Spec.HexAhead]⟩
    by_cases ha : a = 48 <;> simp [hexAhead, ha]
  | [a, x], _ =>
    refine ⟨false, ?_, by simp [Spec.HexAhead]⟩
    by_cases ha : a = 48
    · by_cases hx : x = 120 ∨ x = 88
      · simp [hexAhead, ha, hx, cdigit_eq, digit_zero_char]
      · simp [hexAhead, ha, hx]
    · simp [hexAhead, ha]
  | a :: x :: h :: u, _ =>
    by_cases ha : a = 48
    · by_cases hx : x = 120 ∨ x = 88
      · refine ⟨(cdigit 16 h).isSome, by simp [hexAhead, ha, hx], ?_⟩
        rw [cdigit_eq]
        constructor
        · intro hh
          exact ⟨x, h, u, by rw [ha], hx, hh⟩
        · rintro ⟨x', h', u', he, -, hh⟩
          simp only [List.cons.injEq] at he
          rw [he.2.2.1]
          exact hh
      · refine ⟨false, by simp [hexAhead, ha, hx], ?_⟩
        simp only [Bool.false_eq_true, false_iff]
        rintro ⟨x', h', u', he, hx', -⟩
        simp only [List.cons.injEq] at he
        rw [he.2.1] at hx
        exact hx hx'
    · refine ⟨false, by simp [hexAhead, ha], ?_⟩
      simp only [Bool.false_eq_true, false_iff]
      rintro ⟨x', h', u', he, -, -⟩
      simp only [List.cons.injEq] at he
      exact ha he.1

theorem skipSpace_spec (l junk : List Nat) (n : Nat) :
    ∃ ws l', l = ws ++ l' ∧ (∀ c ∈ ws, Spec.Blank c) ∧ skipSpace (l ++ 0 :: junk) n = some (l' ++ 0 :: junk, n + ws.length) := by
  induction l generalizing n with
  | nil => exact ⟨[], [], rfl, by simp, by simp [skipSpace, cspace]⟩
  | cons a l ih =>
    by_cases ha : cspace a = true
    · obtain ⟨ws, l', e, h1, h2⟩ := ih (n + 1)
      refine ⟨a :: ws, l', by rw [e]; rfl, ?_, ?_⟩
      · intro c hc
        rcases List.mem_cons.1 hc with rfl | hc
        · exact (cspace_iff _).1 ha
        · exact h1 c hc
      · simp only [List.cons_append, skipSpace, ha, if_true, h2, List.length_cons]
        congr 2
        omega
    · exact ⟨[], a :: l, rfl, by simp, by simp [skipSpace, ha]⟩

theorem takeSign_spec (l junk : List Nat) :
    ∃ neg sg l', l = sg ++ l' ∧ (if neg = true then sg = [45] else sg = [] ∨ sg = [43]) ∧
      takeSign (l ++ 0 :: junk) = some (neg, l' ++ 0 :: junk, sg.length) := by
  cases l with
  | nil => exact ⟨false, [], [], rfl, by simp, by simp [takeSign]⟩
  | cons a l =>
    by_cases h1 : a = 45
    · exact ⟨true, [45], l, by simp [h1], by simp, by simp [takeSign, h1]⟩
    · by_cases h2 : a = 43
      · exact ⟨false, [43], l, by simp [h2], by simp, by simp [takeSign, h2]⟩
      · exact ⟨false, [], a :: l, rfl, by simp, by simp [takeSign, h1, h2]⟩

theorem radix_spec (base : Nat) (l junk : List Nat) (h0 : 0 ∉ l) :
    ∃ r pre l', l = pre ++ l' ∧ Spec.Radix base pre l' r ∧ radix base (l ++ 0 :: junk) = some (r, l' ++ 0 :: junk, pre.length) := by
  by_cases hb : base = 0 ∨ base = 16
  · obtain ⟨b, hh, hbi⟩ := hexAhead_spec l junk h0
    cases b with
    | true =>
      obtain ⟨x, h, u, rfl, hx, hd⟩ := hbi.1 rfl
      refine ⟨16, [48, x], h :: u, rfl, .inr (.inl ⟨hb, ?_, rfl⟩), ?_⟩
      · rcases hx with rfl | rfl
        · exact .inl rfl
        · exact .inr rfl
      · rw [radix, if_pos hb, hh]
        rfl
    | false =>
      have hn : ¬ Spec.HexAhead l := fun h => by have := hbi.2 h; simp at this
      have hhead : ∀ c, c ≠ 0 → ((l ++ 0 :: junk).head? = some c ↔ l.head? = some c) := by
        intro c hc
        cases l with
        | nil => simp; omega
        | cons a l => simp
      refine ⟨if base = 16 then 16 else if l.head? = some 48 then 8 else 10, [], l, rfl, ?_, ?_⟩
      · rcases hb with rfl | rfl
        · exact .inr (.inr (.inr ⟨rfl, rfl, hn, by simp⟩))
        · exact .inr (.inr (.inl ⟨rfl, rfl, hn, by simp⟩))
      · rw [radix, if_pos hb, hh]
        simp only [hhead 48 (by omega)]
        rfl
  · refine ⟨base, [], l, rfl, .inl ⟨fun h => hb (.inl h), fun h => hb (.inr h), rfl, rfl⟩, ?_⟩
    rw [radix, if_neg hb]
    rfl

theorem takeDigits_spec (r : Nat) (l junk : List Nat) :
    ∃ ds rest, l = ds ++ rest ∧ (∀ c ∈ ds, (Charconv.Spec.digit r c).isSome) ∧
      (∀ c, rest.head? = some c → Charconv.Spec.digit r c = none) ∧
      takeDigits r (l ++ 0 :: junk) 0 0 = some (Charconv.Spec.value r (ds.filterMap (Charconv.Spec.digit r)), ds.length) := by
  have key : ∃ ds rest, l = ds ++ rest ∧ (∀ c ∈ ds, (Charconv.Spec.digit r c).isSome) ∧
      (∀ c, rest.head? = some c → Charconv.Spec.digit r c = none) := by
    induction l with
    | nil => exact ⟨[], [], rfl, by simp, by simp⟩
    | cons a l ih =>
      cases ha : Charconv.Spec.digit r a with
      | none =>
        refine ⟨[], a :: l, rfl, by simp, ?_⟩
        intro c hc
        simp only [List.head?_cons, Option.some.injEq] at hc
        rw [← hc]
        exact ha
      | some d =>
        obtain ⟨ds, rest, e, h1, h2⟩ := ih
        refine ⟨a :: ds, rest, by rw [e]; rfl, ?_, h2⟩
        intro c hc
        rcases List.mem_cons.1 hc with rfl | hc
        · rw [ha]; rfl
        · exact h1 c hc
  obtain ⟨ds, rest, rfl, h1, h2⟩ := key
  refine ⟨ds, rest, rfl, h1, h2, ?_⟩
  obtain ⟨c, t, e, hc⟩ := headed rest junk
  rw [List.append_assoc, e, takeDigits_run r ds c t 0 0 h1]
  · simp [Charconv.Spec.value]
  · rcases hc with hc | ⟨-, rfl⟩
    · exact h2 c hc
    · exact digit_zero_char r

/-- what `strtol` does on a number -/
theorem subject_reads (base : Nat) (hb : base = 0 ∨ (2 ≤ base ∧ base ≤ 36)) (text junk : List Nat) (h0 : 0 ∉ text)
    (neg : Bool) (v n : Nat) (h : Spec.Reads base text neg v n) :
    subject base (text ++ 0 :: junk) = some (some (neg, v, n)) := by
  obtain ⟨ws, sg, pre, ds, rest, r, rfl, hws, hsg, hr, hne, hds, hrest, rfl, rfl⟩ := h
  obtain ⟨d0, ds', rfl⟩ := List.exists_cons_of_ne_nil hne
  obtain ⟨dv, hd0⟩ := Option.isSome_iff_exists.1 (hds d0 (by simp))
  have hd0r := digit_range hd0
  -- digits
  have hdig : takeDigits r (d0 :: ds' ++ rest ++ 0 :: junk) 0 0 =
      some (Charconv.Spec.value r ((d0 :: ds').filterMap (Charconv.Spec.digit r)), (d0 :: ds').length) := by
    obtain ⟨c, t, e, hc⟩ := headed rest junk
    rw [List.append_assoc, e, takeDigits_run r (d0 :: ds') c t 0 0 hds]
    · simp [Charconv.Spec.value]
    · rcases hc with hc | ⟨-, rfl⟩
      · exact hrest c hc
      · exact digit_zero_char r
  -- base
  have hrad : radix base (pre ++ (d0 :: ds' ++ rest) ++ 0 :: junk) = some (r, d0 :: ds' ++ rest ++ 0 :: junk, pre.length) := by
    have h0' : 0 ∉ d0 :: ds' ++ rest := fun hm => h0 (by
      simp only [List.mem_append] at hm ⊢
      exact .inr (.inr (.inr hm)))
    rcases hr with ⟨hb0, hb16, rfl, rfl⟩ | ⟨hb, hp, rfl⟩ | ⟨rfl, rfl, hn, rfl⟩ | ⟨rfl, rfl, hn, rfl⟩
    · rw [radix, if_neg (by omega)]; rfl
    · have hs : (cdigit 16 d0).isSome = true := by rw [cdigit_eq, hd0]; rfl
      rw [radix, if_pos hb]
      rcases hp with rfl | rfl <;> simp [hexAhead, hs]
    · obtain ⟨b, hh, hbi⟩ := hexAhead_spec (d0 :: ds' ++ rest) junk h0'
      cases b with
      | true => exact absurd (hbi.1 rfl) hn
      | false =>
        rw [List.nil_append, radix, if_pos (by omega), hh]
        rfl
    · obtain ⟨b, hh, hbi⟩ := hexAhead_spec (d0 :: ds' ++ rest) junk h0'
      cases b with
      | true => exact absurd (hbi.1 rfl) hn
      | false =>
        rw [List.nil_append, radix, if_pos (by omega), hh]
        simp
  -- the first character after the sign
  obtain ⟨a, tl, ha, har⟩ : ∃ a tl, pre ++ (d0 :: ds' ++ rest) ++ 0 :: junk = a :: tl ∧ a ≠ 45 ∧ a ≠ 43 ∧ ¬ Spec.Blank a := by
    have hnb : ∀ a, (48 ≤ a ∧ a ≤ 57) ∨ (65 ≤ a ∧ a ≤ 90) ∨ (97 ≤ a ∧ a ≤ 122) → a ≠ 45 ∧ a ≠ 43 ∧ ¬ Spec.Blank a := by
      intro a h
      refine ⟨by omega, by omega, ?_⟩
      simp only [Spec.Blank, List.mem_cons, List.not_mem_nil, or_false]
      omega
    cases pre with
    | nil => exact ⟨d0, _, rfl, hnb d0 hd0r⟩
    | cons p pre =>
      refine ⟨p, _, rfl, hnb p ?_⟩
      rcases hr with ⟨-, -, h, -⟩ | ⟨-, h, -⟩ | ⟨-, h, -⟩ | ⟨-, h, -⟩
      · cases h
      · rcases h with h | h <;> (simp only [List.cons.injEq] at h; omega)
      · cases h
      · cases h
  -- the sign
  have hsgn : takeSign (sg ++ (pre ++ (d0 :: ds' ++ rest) ++ 0 :: junk)) =
      some (neg, pre ++ (d0 :: ds' ++ rest) ++ 0 :: junk, sg.length) := by
    cases neg with
    | true =>
      simp only [if_true] at hsg
      subst hsg
      simp [takeSign]
    | false =>
      rcases hsg with rfl | rfl
      · rw [List.nil_append, ha, takeSign, if_neg har.1, if_neg har.2.1]
        rfl
      · simp [takeSign]
  -- white space
  have hsp : skipSpace (ws ++ (sg ++ (pre ++ (d0 :: ds' ++ rest) ++ 0 :: junk))) 0 =
      some (sg ++ (pre ++ (d0 :: ds' ++ rest) ++ 0 :: junk), ws.length) := by
    obtain ⟨c, tl', hc, hcb⟩ : ∃ c tl', sg ++ (pre ++ (d0 :: ds' ++ rest) ++ 0 :: junk) = c :: tl' ∧ ¬ Spec.Blank c := by
      cases neg with
      | true =>
        simp only [if_true] at hsg
        subst hsg
        exact ⟨45, _, rfl, by simp [Spec.Blank]⟩
      | false =>
        rcases hsg with rfl | rfl
        · exact ⟨a, tl, by rw [List.nil_append, ha], har.2.2⟩
        · exact ⟨43, _, rfl, by simp [Spec.Blank]⟩
    rw [hc, skipSpace_run ws tl' c 0 hws hcb]
    simp
  have hassoc : ws ++ (sg ++ (pre ++ (d0 :: ds' ++ rest))) ++ 0 :: junk =
      ws ++ (sg ++ (pre ++ (d0 :: ds' ++ rest) ++ 0 :: junk)) := by
    simp only [List.append_assoc]
  rw [subject, if_neg (by omega), hassoc, hsp]
  simp only [hsgn, hrad, hdig]
  simp only [List.length_cons, Nat.add_eq_zero_iff, Nat.one_ne_zero, and_false, if_false]

/-- what `strtol` does on any text -/
theorem subject_total (base : Nat) (hb : base = 0 ∨ (2 ≤ base ∧ base ≤ 36)) (text junk : List Nat) (h0 : 0 ∉ text) :
    (subject base (text ++ 0 :: junk) = some none ∧ ∀ neg v n, ¬ Spec.Reads base text neg v n) ∨
    ∃ neg v n, Spec.Reads base text neg v n ∧ subject base (text ++ 0 :: junk) = some (some (neg, v, n)) := by
  obtain ⟨ws, l1, e1, hws, hs1⟩ := skipSpace_spec text junk 0
  obtain ⟨neg, sg, l2, e2, hsg, hs2⟩ := takeSign_spec l1 junk
  have h02 : 0 ∉ l2 := fun hm => h0 (by rw [e1, e2]; simp [hm])
  obtain ⟨r, pre, l3, e3, hr, hs3⟩ := radix_spec base l2 junk h02
  obtain ⟨ds, rest, e4, hds, hrest, hs4⟩ := takeDigits_spec r l3 junk
  have hsub : subject base (text ++ 0 :: junk) = some (if ds.length = 0 then none else
      some (neg, Charconv.Spec.value r (ds.filterMap (Charconv.Spec.digit r)), 0 + ws.length + sg.length + pre.length + ds.length)) := by
    rw [subject, if_neg (by omega), hs1]
    simp only [hs2, hs3, hs4]
  by_cases hd : ds = []
  · refine .inl ?_
    have hnone : subject base (text ++ 0 :: junk) = some none := by rw [hsub, hd]; rfl
    refine ⟨hnone, fun neg v n h => ?_⟩
    rw [subject_reads base hb text junk h0 neg v n h] at hnone
    simp at hnone
  · refine .inr ⟨neg, _, ws.length + sg.length + pre.length + ds.length, ⟨ws, sg, pre, ds, rest, r, ?_, hws, hsg, ?_, hd, hds, hrest, rfl, rfl⟩, ?_⟩
    · rw [e1, e2, e3, e4]
    · rw [← e4]; exact hr
    · have hl : ds.length ≠ 0 := fun h => hd (List.length_eq_zero_iff.1 h)
      rw [hsub, if_neg hl]
      simp only [Nat.zero_add]

/-! ## C97 -/

/-- C97, `stol`: for every text in a null-terminated string that starts with a number (after white space and a
sign) whose value is a `long`, in every base: the result is that value and `pos` the number of characters used.
(Missing: values no `long` can hold, `stol_saturates`; texts without a number, `sto_no_number`.) -/
theorem stol_partial (lb base : Nat) (hb : base = 0 ∨ (2 ≤ base ∧ base ≤ 36)) (text junk : List Nat) (h0 : 0 ∉ text)
    (neg : Bool) (v n : Nat) (h : Spec.Reads base text neg v n) (hr : InRange (intTy true lb) (Spec.signed neg v)) :
    stol lb base (text ++ 0 :: junk) = some (Spec.signed neg v, n) := by
  rw [stol, subject_reads base hb text junk h0 neg v n h]
  have hp := Nat.two_pow_pos (lb - 1)
  simp only [InRange, intTy, IntTy.min, if_true, Spec.signed] at hr
  cases neg with
  | true =>
    simp only [if_true] at hr
    simp only [if_true, Spec.signed]
    rw [if_pos (by omega)]
  | false =>
    simp only [Bool.false_eq_true, if_false] at hr
    simp only [Bool.false_eq_true, if_false, Spec.signed]
    rw [if_pos (by omega)]

/-- **Violation.**  A number no `long` can hold is not reported (the standard library throws): the nearest `long`
is returned, with the same `pos` as for a good number. -/
theorem stol_saturates (lb base : Nat) (hb : base = 0 ∨ (2 ≤ base ∧ base ≤ 36)) (text junk : List Nat) (h0 : 0 ∉ text)
    (neg : Bool) (v n : Nat) (h : Spec.Reads base text neg v n) (hr : ¬ InRange (intTy true lb) (Spec.signed neg v)) :
    stol lb base (text ++ 0 :: junk) = some (if neg then (intTy true lb).min else (intTy true lb).max, n) := by
  rw [stol, subject_reads base hb text junk h0 neg v n h]
  have hp := Nat.two_pow_pos (lb - 1)
  simp only [InRange, intTy, IntTy.min, if_true, Spec.signed] at hr
  cases neg with
  | true =>
    simp only [if_true] at hr
    simp only [if_true, intTy, IntTy.min]
    rw [if_neg (by omega)]
    congr 2
    omega
  | false =>
    simp only [Bool.false_eq_true, if_false] at hr
    simp only [Bool.false_eq_true, if_false, intTy, if_true]
    rw [if_neg (by omega)]
    congr 2
    omega

/-- C97, `stoul`: a number that is an `unsigned long` is returned as it is; after a `-` its negative modulo
`2 ^ lb`, as the C standard says. -/
theorem stoul_partial (lb base : Nat) (hb : base = 0 ∨ (2 ≤ base ∧ base ≤ 36)) (text junk : List Nat) (h0 : 0 ∉ text)
    (neg : Bool) (v n : Nat) (h : Spec.Reads base text neg v n) (hr : v ≤ (intTy false lb).max) :
    ∃ w, stoul lb base (text ++ 0 :: junk) = some (w, n) ∧ w < 2 ^ lb ∧ (w : Int) = (Spec.signed neg v) % 2 ^ lb := by
  rw [stoul, subject_reads base hb text junk h0 neg v n h]
  have hp := Nat.two_pow_pos lb
  have hcast : ((2 : Int) ^ lb) = ((2 ^ lb : Nat) : Int) := by simp
  rw [hcast]
  simp only [intTy, Bool.false_eq_true, if_false, Nat.sub_zero] at hr
  generalize 2 ^ lb = M at *
  simp only [if_pos (show v < M by omega), Spec.signed]
  cases neg with
  | true =>
    refine ⟨(M - v) % M, rfl, Nat.mod_lt _ hp, ?_⟩
    simp only [if_true]
    rw [Int.natCast_emod, Int.natCast_sub (by omega), show ((M : Int) - v) = -(v : Int) + M by omega, Int.add_emod_right]
  | false =>
    refine ⟨v, rfl, by omega, ?_⟩
    simp only [Bool.false_eq_true, if_false]
    exact (Int.emod_eq_of_lt (by omega) (by omega)).symm

/-- **Violation.**  `stoul` of a number too large is the largest `unsigned long`, even after a `-`, unreported. -/
theorem stoul_saturates (lb base : Nat) (hb : base = 0 ∨ (2 ≤ base ∧ base ≤ 36)) (text junk : List Nat) (h0 : 0 ∉ text)
    (neg : Bool) (v n : Nat) (h : Spec.Reads base text neg v n) (hr : (intTy false lb).max < v) :
    stoul lb base (text ++ 0 :: junk) = some ((intTy false lb).max, n) := by
  rw [stoul, subject_reads base hb text junk h0 neg v n h]
  have hp := Nat.two_pow_pos lb
  simp only [intTy, Bool.false_eq_true, if_false, Nat.sub_zero] at hr ⊢
  rw [if_neg (by omega)]

/-- **Violation.**  A text that does not start with a number is not reported (the standard library throws): all
three functions return 0.  Only `pos`, which is then 0, tells. -/
theorem sto_no_number (lb ib base : Nat) (hb : base = 0 ∨ (2 ≤ base ∧ base ≤ 36)) (text junk : List Nat) (h0 : 0 ∉ text)
    (h : ∀ neg v n, ¬ Spec.Reads base text neg v n) :
    stol lb base (text ++ 0 :: junk) = some (0, 0) ∧ stoul lb base (text ++ 0 :: junk) = some (0, 0) ∧
    stoi lb ib base (text ++ 0 :: junk) = some (0, 0) := by
  have hs : subject base (text ++ 0 :: junk) = some none := by
    rcases subject_total base hb text junk h0 with ⟨h, -⟩ | ⟨neg, v, n, h', -⟩
    · exact h
    · exact absurd h' (h neg v n)
  refine ⟨by rw [stol, hs], by rw [stoul, hs], ?_⟩
  rw [stoi, stol, hs]
  simp

/-- `pos` tells the two apart: it is 0 exactly when the text does not start with a number. -/
theorem sto_pos_tells (lb base : Nat) (hb : base = 0 ∨ (2 ≤ base ∧ base ≤ 36)) (text junk : List Nat) (h0 : 0 ∉ text) :
    ∃ v n, stol lb base (text ++ 0 :: junk) = some (v, n) ∧ n ≤ text.length ∧
      (0 < n ↔ ∃ neg v n, Spec.Reads base text neg v n) := by
  rcases subject_total base hb text junk h0 with ⟨hs, hn⟩ | ⟨neg, v, n, hr, hs⟩
  · refine ⟨0, 0, by rw [stol, hs], by omega, ?_⟩
    simp only [Nat.lt_irrefl, false_iff]
    rintro ⟨neg, v, n, h⟩
    exact hn neg v n h
  · have hlen : 0 < n ∧ n ≤ text.length := by
      obtain ⟨ws, sg, pre, ds, rest, r, rfl, -, -, -, hne, -, -, -, rfl⟩ := hr
      have := List.length_pos_iff.2 hne
      simp only [List.length_append]
      omega
    rw [stol, hs]
    cases neg with
    | true => exact ⟨_, n, rfl, hlen.2, ⟨fun _ => ⟨_, _, _, hr⟩, fun _ => hlen.1⟩⟩
    | false => exact ⟨_, n, rfl, hlen.2, ⟨fun _ => ⟨_, _, _, hr⟩, fun _ => hlen.1⟩⟩

/-- C97, `stoi`: a number that is an `int` (and a `long`) is returned as it is.  (Missing: `stoi_wraps`.) -/
theorem stoi_partial (lb ib base : Nat) (hb : base = 0 ∨ (2 ≤ base ∧ base ≤ 36)) (hib : 1 ≤ ib) (text junk : List Nat) (h0 : 0 ∉ text)
    (neg : Bool) (v n : Nat) (h : Spec.Reads base text neg v n) (hl : InRange (intTy true lb) (Spec.signed neg v))
    (hi : InRange (intTy true ib) (Spec.signed neg v)) :
    stoi lb ib base (text ++ 0 :: junk) = some (Spec.signed neg v, n) := by
  rw [stoi, stol_partial lb base hb text junk h0 neg v n h hl]
  generalize Spec.signed neg v = x at *
  simp only [InRange, intTy, IntTy.min, if_true] at hi
  have hp := Nat.two_pow_pos (ib - 1)
  have hpow : 2 ^ ib = 2 * 2 ^ (ib - 1) := by
    rw [← Nat.pow_succ', Nat.succ_eq_add_one, Nat.sub_add_cancel hib]
  rw [hpow]
  simp only [Option.map_some, Option.some.injEq, Prod.mk.injEq, and_true]
  generalize 2 ^ (ib - 1) = M at *
  rw [Int.bmod_eq_of_le] <;> omega

/-- **Violation.**  Where `long` is wider than `int`, `stoi` of a number that is a `long` but no `int` returns a
different number, unreported: the one that agrees modulo `2 ^ ib`. -/
theorem stoi_wraps (lb ib base : Nat) (hb : base = 0 ∨ (2 ≤ base ∧ base ≤ 36)) (hib : 1 ≤ ib) (text junk : List Nat) (h0 : 0 ∉ text)
    (neg : Bool) (v n : Nat) (h : Spec.Reads base text neg v n) (hl : InRange (intTy true lb) (Spec.signed neg v))
    (hi : ¬ InRange (intTy true ib) (Spec.signed neg v)) :
    ∃ w : Int, stoi lb ib base (text ++ 0 :: junk) = some (w, n) ∧ w ≠ Spec.signed neg v ∧ InRange (intTy true ib) w ∧
      w % 2 ^ ib = Spec.signed neg v % 2 ^ ib := by
  rw [stoi, stol_partial lb base hb text junk h0 neg v n h hl]
  generalize Spec.signed neg v = x at *
  have hp := Nat.two_pow_pos (ib - 1)
  have hpow : 2 ^ ib = 2 * 2 ^ (ib - 1) := by
    rw [← Nat.pow_succ', Nat.succ_eq_add_one, Nat.sub_add_cancel hib]
  have hcast : ((2 : Int) ^ ib) = ((2 ^ ib : Nat) : Int) := by simp
  have hin : InRange (intTy true ib) (x.bmod (2 ^ ib)) := by
    rw [hpow]
    simp only [InRange, intTy, IntTy.min, if_true]
    generalize 2 ^ (ib - 1) = M at *
    have h1 := Int.bmod_lt (x := x) (m := 2 * M) (by omega)
    have h2 := Int.le_bmod (x := x) (m := 2 * M) (by omega)
    omega
  refine ⟨x.bmod (2 ^ ib), rfl, fun e => hi (e ▸ hin), hin, ?_⟩
  rw [hcast]
  exact Int.bmod_emod ..

/-- every numeral is a number `strtol` reads to its end -/
theorem numeral_reads (base : Nat) (hb : 2 ≤ base) (hb' : base ≤ 36) (v : Int) (txt : List Nat)
    (h : Charconv.Spec.IsNumeral base v txt) : Spec.Reads base txt (decide (v < 0)) v.natAbs txt.length := by
  have main : ∀ k t, Charconv.Spec.IsNatNumeral base k t →
      t ≠ [] ∧ (∀ c ∈ t, (Charconv.Spec.digit base c).isSome) ∧
      Charconv.Spec.value base (t.filterMap (Charconv.Spec.digit base)) = k ∧ Spec.Radix base [] t base := by
    rintro k t ⟨ds, hne, hlt, -, hv, rfl⟩
    have hdig : ∀ d, d < base → Charconv.Spec.digit base (if d < 10 then 48 + d else 87 + d) = some d := by
      intro d hd
      unfold Charconv.Spec.digit Charconv.Spec.digitVal
      by_cases h10 : d < 10
      · rw [if_pos h10, if_pos (by omega), Nat.add_sub_cancel_left]
        simp [hd]
      · rw [if_neg h10, if_neg (by omega), if_neg (by omega), if_pos (by omega), Nat.add_sub_cancel_left]
        simp [hd]
    refine ⟨by simpa using hne, ?_, ?_, ?_⟩
    · intro c hc
      obtain ⟨d, hd, rfl⟩ := List.mem_map.1 hc
      rw [hdig d (hlt d hd)]
      rfl
    · rw [List.filterMap_map, ← hv]
      congr 1
      clear hne hv
      induction ds with
      | nil => rfl
      | cons d ds ih =>
        rw [List.filterMap_cons]
        have := hdig d (hlt d (by simp))
        simp only [Function.comp_def] at ih ⊢
        rw [this]
        simp only
        rw [ih (fun d hd => hlt d (by simp [hd]))]
    · by_cases h16 : base = 16
      · refine .inr (.inr (.inl ⟨h16, rfl, ?_, h16⟩))
        rintro ⟨x, h, u, e, hx, -⟩
        have hm : x ∈ ds.map (fun d => if d < 10 then 48 + d else 87 + d) := by rw [e]; simp
        obtain ⟨d, hd, rfl⟩ := List.mem_map.1 hm
        have := hlt d hd
        split at hx <;> omega
      · exact .inl ⟨by omega, h16, rfl, rfl⟩
  rcases h with ⟨hv, ht⟩ | ⟨hv, t, rfl, ht⟩
  · obtain ⟨h1, h2, h3, h4⟩ := main _ _ ht
    refine ⟨[], [], [], txt, [], base, by simp, by simp, ?_, by simpa using h4, h1, h2, by simp, ?_, by simp⟩
    · simp [show ¬ v < 0 by omega]
    · rw [h3]; omega
  · obtain ⟨h1, h2, h3, h4⟩ := main _ _ ht
    refine ⟨[], [45], [], t, [], base, by simp, by simp, ?_, by simpa using h4, h1, h2, by simp, ?_, ?_⟩
    · simp [hv]
    · rw [h3]; omega
    · simp; omega

/-- C97, the round trip: the numeral of every `long`, in every base from 2 to 36, reads back as that `long`, to the
end of the text. -/
theorem stol_numeral (lb base : Nat) (hb : 2 ≤ base) (hb' : base ≤ 36) (v : Int) (hv : InRange (intTy true lb) v) (txt junk : List Nat)
    (h : Charconv.Spec.IsNumeral base v txt) : stol lb base (txt ++ 0 :: junk) = some (v, txt.length) := by
  have hs : Spec.signed (decide (v < 0)) v.natAbs = v := by
    unfold Spec.signed
    by_cases h : v < 0
    · simp only [h, decide_true, if_true]; omega
    · simp only [h, decide_false, Bool.false_eq_true, if_false]; omega
  have := stol_partial lb base (.inr ⟨hb, hb'⟩) txt junk (numeral_no_zero h) _ _ _ (numeral_reads base hb hb' v txt h) (by rw [hs]; exact hv)
  rw [hs] at this
  exact this

/-- C97, with C50: what `to_string` wrote into a caller's string, `stol` reads back. -/
theorem to_string_stol (bits : Nat) (v : Int) (hv : InRange (intTy true bits) v) (hmin : v ≠ (intTy true bits).min)
    (m : List Nat) (txt : List Nat) (ht : Charconv.Spec.IsNumeral 10 v txt)
    (hfit : txt.length + (if v < 0 then 0 else 1) ≤ m.length - 1) :
    ∃ m', toStringInto true bits v m = some m' ∧ stol bits 10 m' = some (v, txt.length) := by
  obtain ⟨m', h1, -, h2, h3, h4⟩ := to_string_into_partial true bits v hv (fun h => hmin h.2) m txt ht hfit
  refine ⟨m', h1, ?_⟩
  have he : m' = txt ++ 0 :: m'.drop (txt.length + 1) := by
    apply List.ext_getElem?
    intro i
    by_cases hi : i < txt.length
    · have := h2 i hi
      rw [Nat.zero_add] at this
      rw [this, List.getElem?_append_left hi]
    · rw [List.getElem?_append_right (by omega)]
      by_cases hi' : i = txt.length
      · subst hi'
        rw [Nat.zero_add] at h3
        rw [h3, Nat.sub_self]
        rfl
      · rw [show i - txt.length = (i - txt.length - 1) + 1 by omega, List.getElem?_cons_succ, List.getElem?_drop]
        congr 1
        omega
  rw [he]
  exact stol_numeral bits 10 (by omega) (by omega) v hv txt _ ht

/-- **Violation.**  The functions read on past a buffer that holds no terminator if it ends in a number: nothing
bounds them by the size of the string. -/
theorem stol_unterminated (lb base : Nat) (hb : 2 ≤ base) (hb' : base ≠ 16) (ws sg ds : List Nat) (hws : ∀ c ∈ ws, Spec.Blank c)
    (hsg : sg = [] ∨ sg = [43] ∨ sg = [45]) (hds : ∀ c ∈ ds, (Charconv.Spec.digit base c).isSome) :
    stol lb base (ws ++ (sg ++ ds)) = none := by
  have hd : ∀ v n, takeDigits base ds v n = none := by
    induction ds with
    | nil => intro v n; rfl
    | cons a ds ih =>
      intro v n
      obtain ⟨d, ha⟩ := Option.isSome_iff_exists.1 (hds a (by simp))
      simp only [takeDigits, cdigit_eq, ha]
      exact ih (fun c hc => hds c (by simp [hc])) _ _
  have hall : ∀ ws n, (∀ c ∈ ws, Spec.Blank c) → skipSpace ws n = none := by
    intro ws
    induction ws with
    | nil => intro n _; rfl
    | cons a ws ih =>
      intro n h
      have : cspace a = true := (cspace_iff a).2 (h a (by simp))
      simp only [skipSpace, this, if_true]
      exact ih _ (fun c hc => h c (by simp [hc]))
  have hrad : radix base ds = some (base, ds, 0) := by rw [radix, if_neg (by omega)]
  have hsub : subject base (ws ++ (sg ++ ds)) = none := by
    rw [subject]
    split
    · rfl
    · cases hsd : sg ++ ds with
      | nil => rw [List.append_nil, hall ws 0 hws]
      | cons c t =>
        have hcb : ¬ Spec.Blank c ∧ ∃ neg n, takeSign (c :: t) = some (neg, ds, n) := by
          rcases hsg with rfl | rfl | rfl
          · rw [List.nil_append] at hsd
            obtain ⟨d, hd⟩ := Option.isSome_iff_exists.1 (hds c (by rw [hsd]; simp))
            have := digit_range hd
            refine ⟨?_, false, 0, ?_⟩
            · simp only [Spec.Blank, List.mem_cons, List.not_mem_nil, or_false]; omega
            · rw [takeSign, if_neg (by omega), if_neg (by omega), hsd]
          · simp only [List.cons_append, List.nil_append, List.cons.injEq] at hsd
            obtain ⟨rfl, rfl⟩ := hsd
            exact ⟨by simp [Spec.Blank], false, 1, by simp [takeSign]⟩
          · simp only [List.cons_append, List.nil_append, List.cons.injEq] at hsd
            obtain ⟨rfl, rfl⟩ := hsd
            exact ⟨by simp [Spec.Blank], true, 1, by simp [takeSign]⟩
        obtain ⟨hcb, neg, n, hts⟩ := hcb
        rw [skipSpace_run ws t c 0 hws hcb]
        simp only [hts, hrad, hd]
  rw [stol, hsub]

/-- `"  -0x1Fz"` in base 16, `"4294967298"` for `stoi`, `"x"` without a number. -/
example : stol 64 16 [32, 32, 45, 48, 120, 49, 70, 122, 0, 7] = some (-31, 7) := by decide +kernel
example : stoi 64 32 10 [52, 50, 57, 52, 57, 54, 55, 50, 57, 56, 0] = some (2, 10) := by decide +kernel
example : stol 64 10 [120, 0] = some (0, 0) ∧ stol 64 0 [48, 120, 0] = some (0, 1) := by decide +kernel
example : Spec.Reads 10 [32, 45, 52, 50, 122] true 42 4 :=
  ⟨[32], [45], [], [52, 50], [122], 10, rfl, by simp [Spec.Blank], by simp, .inl ⟨by decide, by decide, rfl, rfl⟩, by simp,
    by decide, by simp only [List.head?_cons, Option.some.injEq]; rintro c rfl; rfl, by decide, by decide⟩
example : ∀ neg v n, ¬ Spec.Reads 10 [120] neg v n := by
  rcases subject_total 10 (.inr (by decide)) [120] [] (by simp) with ⟨-, h⟩ | ⟨neg, v, n, -, h⟩
  · exact h
  · have : subject 10 ([120] ++ 0 :: []) = some none := by decide
    rw [this] at h
    simp at h
example : stol 64 10 [32, 49, 50] = none := by decide +kernel
example : toStringInto true 64 (-42) [1, 2, 3, 4] = some [45, 52, 50, 0] := by decide +kernel

end Verif.Text
