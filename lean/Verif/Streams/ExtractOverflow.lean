import Verif.Streams.ExtractText
import Verif.Charconv.Faults
/-!
# C62: where the stream stands after a number that does not fit

`src/estd/internal/locale/num_get.h:50-74`, `src/estd/internal/locale/iterated/num_get.h:202-260`: after the first digit that makes the
number leave the range the parser goes on over everything that is *not* a digit.
-/
namespace Verif.Streams
open Verif

/-- the first digit after which the number leaves the range: `ds` still fits, `ds` and `d` do not -/
structure Spec.Overflows (t : Charconv.IntTy) (base : Nat) (neg : Bool) (ds : List Ch) (d : Ch) : Prop where
  sign : neg = true → t.signed = true
  digits : ∀ x ∈ ds ++ [d], (Charconv.Spec.digit base x.toNat).isSome = true
  fits : Charconv.Spec.value base ((ds.map BitVec.toNat).filterMap (Charconv.Spec.digit base)) ≤ if neg then t.max + 1 else t.max
  leaves : (if neg then t.max + 1 else t.max) <
    Charconv.Spec.value base (((ds ++ [d]).map BitVec.toNat).filterMap (Charconv.Spec.digit base))

/-- not a digit of the base -/
def Spec.nonDigit (base : Nat) (x : Ch) : Bool := (Charconv.Spec.digit base x.toNat).isNone

theorem accum_mono (base : Nat) (hb : 1 ≤ base) (as bs : List Nat) :
    Charconv.accum base 0 as ≤ Charconv.accum base 0 (as ++ bs) := by
  have : Charconv.accum base 0 (as ++ bs) = Charconv.accum base (Charconv.accum base 0 as) bs := by
    simp [Charconv.accum, List.filterMap_append, List.foldl_append]
  rw [this]; exact Charconv.le_accum base _ hb bs

theorem takeWhile_digits (p : Nat → Bool) (as rest : List Nat) (h : ∀ x ∈ as, p x = true) :
    ∃ more, (as ++ rest).takeWhile p = as ++ more :=
  ⟨_, List.takeWhile_append_of_pos h⟩

/-- what the parser says of a number that does not fit -/
theorem numGet_overflow (t : Charconv.IntTy) (base : Nat) (hb : 2 ≤ base) (hb' : base ≤ 36) (neg : Bool) (ds : List Ch) (d : Ch)
    (rest : List Ch) (ho : Spec.Overflows t base neg ds d) :
    ∃ st, Charconv.numGet t base ((((if neg then [0x2D] else []) ++ ds ++ d :: rest : List Ch)).map BitVec.toNat) =
      (⟨st, true, if neg then t.min else t.max⟩,
        (if neg then 1 else 0) + ds.length + 1 + (rest.takeWhile (Spec.nonDigit base)).length,
        rest.all (Spec.nonDigit base)) := by
  have hmap : (((if neg then [0x2D] else []) ++ ds ++ d :: rest : List Ch)).map BitVec.toNat =
      (if neg then [45] else []) ++ ds.map BitVec.toNat ++ d.toNat :: rest.map BitVec.toNat := by
    cases neg <;> simp
  have hcode : ∀ l : List Ch, ∀ c ∈ l.map BitVec.toNat, c < 256 := by
    intro l c hc; obtain ⟨y, _, rfl⟩ := List.mem_map.mp hc; exact y.isLt
  have hd1 : ∀ c ∈ ds.map BitVec.toNat, (Charconv.Spec.digit base c).isSome = true := by
    intro c hc; obtain ⟨y, hy, rfl⟩ := List.mem_map.mp hc; exact ho.digits y (by simp [hy])
  have hd2 := ho.digits d (by simp)
  have hpos := Charconv.num_get_overflow_position t base hb hb' neg ho.sign (ds.map BitVec.toNat) d.toNat
    (rest.map BitVec.toNat) hd1 hd2 (by
      intro c hc
      exact hcode (ds ++ d :: rest) c (by simpa using hc)) ho.fits (by have := ho.leaves; simpa using this)
  have hsup : Charconv.Spec.NumGetSupported t base
      ((if neg then [45] else []) ++ ds.map BitVec.toNat ++ d.toNat :: rest.map BitVec.toNat) := by
    refine ⟨by simp, fun _ hh => ?_⟩
    have h45 : ∀ x, (Charconv.Spec.digit base x).isSome = true → x ≠ 45 := by
      rintro x hx rfl; simp [Charconv.Spec.digit, Charconv.Spec.digitVal] at hx
    cases neg with
    | true =>
      cases hq : ds.map BitVec.toNat with
      | nil => exact ⟨_, _, by simp only [if_true, List.cons_append, List.nil_append, List.tail_cons]; rfl, hd2⟩
      | cons a as =>
        exact ⟨_, _, by simp only [if_true, List.cons_append, List.nil_append, List.tail_cons]; rfl, hd1 a (by rw [hq]; simp)⟩
    | false =>
      cases hq : ds.map BitVec.toNat with
      | nil => rw [hq] at hh; simp at hh; exact absurd hh (h45 _ hd2)
      | cons a as => rw [hq] at hh; simp at hh; exact absurd hh (h45 _ (hd1 a (by rw [hq]; simp)))
  have hnum := Charconv.num_get_partial t base _ hb hb' (by
    rw [← hmap]; exact hcode _) hsup
  have hpar : ∃ n, Charconv.Spec.parse t base
      ((if neg then [45] else []) ++ ds.map BitVec.toNat ++ d.toNat :: rest.map BitVec.toNat) = (n, .outOfRange, none) := by
    obtain ⟨more, hm⟩ := takeWhile_digits (fun c => (Charconv.Spec.digit base c).isSome) (ds.map BitVec.toNat ++ [d.toNat])
      (rest.map BitVec.toNat) (by
        intro x hx
        rcases List.mem_append.mp hx with hx | hx
        · exact hd1 x hx
        · rw [List.mem_singleton.mp hx]; exact hd2)
    have hle := accum_mono base (by omega) (ds.map BitVec.toNat ++ [d.toNat]) more
    have hl := ho.leaves
    rw [show Charconv.Spec.value base (((ds ++ [d]).map BitVec.toNat).filterMap (Charconv.Spec.digit base)) =
      Charconv.accum base 0 (ds.map BitVec.toNat ++ [d.toNat]) by simp [Charconv.accum, Charconv.Spec.value]] at hl
    have hmm : (ds.map BitVec.toNat ++ d.toNat :: rest.map BitVec.toNat).takeWhile
        (fun c => (Charconv.Spec.digit base c).isSome) = ds.map BitVec.toNat ++ [d.toNat] ++ more := by
      rw [← hm]; simp
    have hval : ∀ l, Charconv.Spec.value base (l.filterMap (Charconv.Spec.digit base)) = Charconv.accum base 0 l := fun _ => rfl
    cases neg with
    | true =>
      have hs := ho.sign rfl
      unfold Charconv.Spec.parse
      simp only [if_true, List.cons_append, List.nil_append, List.head?_cons, List.tail_cons, hs, beq_self_eq_true,
        Bool.and_self, hmm, hval]
      simp only [if_true] at hl
      rw [if_neg (by simp), if_neg (by omega)]
      exact ⟨_, rfl⟩
    | false =>
      have hneg : (t.signed && (ds.map BitVec.toNat ++ d.toNat :: rest.map BitVec.toNat).head? == some 45) = false := by
        have h45 : ∀ x, (Charconv.Spec.digit base x).isSome = true → x ≠ 45 := by
          rintro x hx rfl; simp [Charconv.Spec.digit, Charconv.Spec.digitVal] at hx
        cases hq : ds.map BitVec.toNat with
        | nil => have := h45 _ hd2; simp [this]
        | cons a as => have := h45 _ (hd1 a (by rw [hq]; simp)); simp [this]
      unfold Charconv.Spec.parse
      simp only [Bool.false_eq_true, if_false, List.nil_append, hneg, hmm, hval]
      simp only [Bool.false_eq_true, if_false] at hl
      rw [if_neg (by simp), if_neg (by omega)]
      exact ⟨_, rfl⟩
  obtain ⟨n, hpar⟩ := hpar
  rw [hpar] at hnum
  obtain ⟨st, hst⟩ := hnum
  refine ⟨st, ?_⟩
  rw [hmap]
  have hh : (if t.signed = true ∧ ((if neg then [45] else []) ++ ds.map BitVec.toNat ++
      d.toNat :: rest.map BitVec.toNat).head? = some 45 then t.min else (t.max : Int)) = if neg then t.min else t.max := by
    cases neg with
    | true => simp [ho.sign rfl]
    | false =>
      have h45 : ∀ x, (Charconv.Spec.digit base x).isSome = true → x ≠ 45 := by
        rintro x hx rfl; simp [Charconv.Spec.digit, Charconv.Spec.digitVal] at hx
      cases hq : ds.map BitVec.toNat with
      | nil => have := h45 _ hd2; simp [this]
      | cons a as => have := h45 _ (hd1 a (by rw [hq]; simp)); simp [this]
  refine Prod.ext (by rw [hst, hh]) ?_
  rw [hpos]
  simp only [List.length_map, List.takeWhile_map, List.all_map]
  rfl

/-- a parser that has failed and not stopped has met a number that does not fit -/
theorem fail_state (t : Charconv.IntTy) (base : Nat) (l : List Nat) : ∀ (s : Charconv.NumState) (i : Nat),
    (s.fail = true → s.st = .overflow) → (Charconv.numLoop t base s i l).2.2 = true →
    (Charconv.numLoop t base s i l).1.fail = true → (Charconv.numLoop t base s i l).1.st = .overflow := by
  induction l with
  | nil => intro s i h _ hf; exact h hf
  | cons x l ih =>
    intro s i h he hf
    obtain ⟨⟨s', dn⟩, hs⟩ : ∃ p, Charconv.numStep t base s x = p := ⟨_, rfl⟩
    simp only [Charconv.numLoop, hs] at he hf ⊢
    cases dn with
    | true => simp at he
    | false =>
      simp only at he hf ⊢
      refine ih s' (i + 1) (fun hf' => ?_) he hf
      have hnom : ∀ pos (u : Charconv.NumState), u.fail = false →
          ∀ u', Charconv.nominal t base pos u x = (u', false) → u'.fail = true → u'.st = .overflow := by
        intro pos u hu u' hh hff
        unfold Charconv.nominal at hh
        split at hh
        · split at hh <;> simp at hh <;> subst hh
          · simp [hu] at hff
          · rfl
        · simp at hh
      have hsf : s.st ≠ .overflow → s.fail = false := by
        intro hne
        cases hq : s.fail
        · rfl
        · exact absurd (h hq) hne
      unfold Charconv.numStep at hs
      cases hst : s.st <;> simp only [hst] at hs
      · have hf0 := hsf (by simp [hst])
        split at hs
        · simp at hs; subst hs; simp [hf0] at hf'
        · split at hs
          · simp at hs
          · rename_i s'' hh
            simp at hs; subst hs
            exact hnom _ ⟨.nomPos, s.fail, 0⟩ hf0 _ hh hf'
      · exact hnom _ _ (hsf (by simp [hst])) _ hs hf'
      · exact hnom _ _ (hsf (by simp [hst])) _ hs hf'
      · simp at hs; rw [← hs.1]; exact hst

/-- **Violation.** After a number that does not fit, `in >> v` stands neither behind the number nor at its start: it has gone
on from the first digit `d` that made the number leave the range, over everything that is not a digit.  Text behind the
number is taken along up to the next digit or, with `eofbit`, to the end; digits of the number behind `d` stay.  The variable
holds the nearest limit, `failbit` is set. -/
theorem extract_overflow_stands (c : ISCfg) (octal : Bool) (t : Charconv.IntTy) (base : Nat) (s : IS) (value : Int) (h : s.Ok c)
    (hg : s.ios.good = true) (hb : baseOf octal t.signed s.ios.flags = some base) (neg : Bool) (white ds rest : List Ch) (d : Ch)
    (hr : s.rest = white ++ ((if neg then [0x2D] else []) ++ ds ++ d :: rest)) (hw : ∀ x ∈ white, Spec.White x)
    (ho : Spec.Overflows t base neg ds d) :
    ∃ s', s.extractInt c octal t value = some (s', if neg then t.min else t.max) ∧
      s'.rest = rest.dropWhile (Spec.nonDigit base) ∧
      s'.ios = s.ios.setstate c.ios (failbit ||| if rest.all (Spec.nonDigit base) then eofbit else 0) := by
  have hb2 := base_bounds hb
  have hnw : ∀ x r, (if neg then [0x2D] else []) ++ ds ++ d :: rest = x :: r → isSpace x = false := by
    intro x r hx
    cases hq : isSpace x
    · rfl
    · exfalso
      have hwx := (isSpace_iff x).mp hq
      cases neg with
      | true => simp at hx; rw [← hx.1] at hq; revert hq; decide
      | false =>
        have : x ∈ ds ++ [d] := by
          cases ds with
          | nil => simp at hx; simp [hx.1]
          | cons a as => simp at hx; simp [hx.1]
        exact digit_not_white (ho.digits x this) hwx
  have ht : ((if neg then [0x2D] else []) ++ ds ++ d :: rest).takeWhile isSpace = [] ∧
      ((if neg then [0x2D] else []) ++ ds ++ d :: rest).dropWhile isSpace = (if neg then [0x2D] else []) ++ ds ++ d :: rest := by
    cases hq : (if neg then [0x2D] else []) ++ ds ++ d :: rest with
    | nil => simp
    | cons x r => simp [List.takeWhile_cons, List.dropWhile_cons, hnw x r hq]
  have e1 : s.rest.takeWhile isSpace = white := by
    rw [hr, List.takeWhile_append_of_pos (fun x hm => (isSpace_iff x).mpr (hw x hm)), ht.1, List.append_nil]
  have e2 : s.rest.dropWhile isSpace = (if neg then [0x2D] else []) ++ ds ++ d :: rest := by
    rw [hr, List.dropWhile_append_of_pos (fun x hm => (isSpace_iff x).mpr (hw x hm)), ht.2]
  have hstep := extract_step c octal t base s value h hg hb (by rw [e2]; simp)
  obtain ⟨st, hn⟩ := numGet_overflow t base hb2.1 hb2.2 neg ds d rest ho
  rw [e1, e2, hn] at hstep
  refine ⟨_, hstep, ?_, by simp⟩
  rw [rest_consumed c s, hr]
  have hdw : rest.dropWhile (Spec.nonDigit base) = rest.drop (rest.takeWhile (Spec.nonDigit base)).length :=
    (drop_takeWhile_length _ _).symm
  rw [hdw, List.drop_append]
  have : white.length + ((if neg = true then 1 else 0) + ds.length + 1 + (rest.takeWhile (Spec.nonDigit base)).length) -
      white.length = (if neg = true then 1 else 0) + ds.length + 1 + (rest.takeWhile (Spec.nonDigit base)).length := by omega
  simp only [this]
  rw [List.drop_eq_nil_of_le (by omega), List.nil_append]
  cases neg with
  | true =>
    rw [show (if true = true then [0x2D] else []) ++ ds ++ d :: rest = ((0x2D :: ds) ++ [d]) ++ rest by simp, List.drop_append,
      List.drop_eq_nil_of_le (by simp; omega)]
    simp
    try (congr 1; omega)
  | false =>
    rw [show (if false = true then [0x2D] else []) ++ ds ++ d :: rest = (ds ++ [d]) ++ rest by simp, List.drop_append,
      List.drop_eq_nil_of_le (by simp)]
    simp
    try (congr 1; omega)

/-- the text of the theorem: a limit exceeded, a gap, more digits -/
def Spec.overText : List Ch := [0x20, 0x33, 0x30, 0x30, 0x2C, 0x20, 0x37, 0x21]

example : (IS.init Spec.overText).rest = [0x20] ++ ((if false then [0x2D] else []) ++ [0x33, 0x30] ++ 0x30 :: [0x2C, 0x20, 0x37, 0x21]) ∧
    Spec.White 0x20 ∧ Spec.Overflows ⟨false, 255⟩ 10 false [0x33, 0x30] 0x30 ∧
    (IS.init Spec.overText).extractInt ⟨⟨⟨false, true⟩, .span⟩, ⟨true⟩⟩ true ⟨false, 255⟩ 7 =
      some (⟨⟨Spec.overText, 6⟩, ⟨dec ||| right, failbit, 0⟩, 0⟩, 255) :=
  ⟨by decide, (isSpace_iff _).mp (by decide),
    ⟨by decide, by decide, by decide, by decide⟩, by decide +kernel⟩

/-! ## 0xFF behind such a number -/

/-- the library's own traits (traits/char_traits.h:19-87) with a signed `char`, over a span -/
def ownSigned : InCfg := ⟨⟨true, true⟩, .span⟩

theorem inAvail_pos (b : In) (h0 : b.pos < b.data.length) (h1 : b.data.length < 32768) : b.inAvail ownSigned ≠ -1 := by
  unfold In.inAvail Traits.intType In.xinAvail ownSigned
  simp only [if_true]
  rw [Int.emod_eq_of_lt (by omega) (by omega), if_pos (by omega)]
  omega

theorem toInt_own (x : Ch) (h : x ≠ 0xFF) : ownSigned.tr.toInt x ≠ eofCode := by
  revert x; decide +kernel

/-- one step over a character that is not 0xFF, with another behind it -/
theorem next_own (b : In) (x y : Ch) (r : List Ch) (h1 : b.data.length < 32768) (hl : b.data.drop b.pos = x :: y :: r)
    (hx : x ≠ 0xFF) :
    b.sgetc ownSigned = some (ownSigned.tr.toInt x) ∧
    BufIt.next ownSigned ⟨b, false⟩ = some ⟨⟨b.data, b.pos + 1⟩, false⟩ ∧ b.data.drop (b.pos + 1) = y :: r := by
  have hd : b.data.drop (b.pos + 1) = y :: r := by rw [← List.drop_drop, hl]; rfl
  have hlen : b.pos + 1 < b.data.length := by
    have := congrArg List.length hd; simp at this; omega
  have e0 : b.data[b.pos]? = some x := by rw [getElem?_of_drop hl]; rfl
  have e1 : b.data[b.pos + 1]? = some y := by rw [getElem?_of_drop hd]; rfl
  have hg : b.sgetc ownSigned = some (ownSigned.tr.toInt x) := by
    unfold In.sgetc
    rw [if_neg (by simp only [In.xinAvail, ownSigned]; omega)]
    simp [In.xsgetc, rd, e0]
  have hg' : (⟨b.data, b.pos + 1⟩ : In).sgetc ownSigned = some (ownSigned.tr.toInt y) := by
    unfold In.sgetc
    rw [if_neg (by simp only [In.xinAvail, ownSigned]; omega)]
    simp [In.xsgetc, rd, e1]
  refine ⟨hg, ?_, hd⟩
  have hbump : b.gbump 1 = ⟨b.data, b.pos + 1⟩ := by
    rw [gbump_pos b 1 (by omega) (by omega)]; congr 1
  unfold BufIt.next In.snextc In.sbumpc
  simp only [Bool.false_eq_true, if_false, hg, ne_eq, toInt_own x hx, not_false_eq_true, if_true, hbump, hg']
  have := inAvail_pos ⟨b.data, b.pos + 1⟩ hlen h1
  simp [this]

/-- over a text without 0xFF at which the parser does not stop, the loop gets nowhere if it does not behind it -/
theorem numExtract_through (t : Charconv.IntTy) (base : Nat) (y : Ch) (r : List Ch) : ∀ (l : List Ch) (b : In) (s : Charconv.NumState),
    b.data.length < 32768 → b.data.drop b.pos = l ++ y :: r → (∀ x ∈ l, x ≠ 0xFF) →
    (Charconv.numLoop t base s 0 (l.map BitVec.toNat)).2.2 = true →
    (∀ k, numExtract ownSigned t base k ⟨⟨b.data, b.pos + l.length⟩, false⟩
      (Charconv.numLoop t base s 0 (l.map BitVec.toNat)).1 = .more) →
    ∀ k, numExtract ownSigned t base k ⟨b, false⟩ s = .more := by
  intro l
  induction l with
  | nil => intro b s _ _ _ _ h; simpa [Charconv.numLoop] using h
  | cons x l ih =>
    intro b s h1 hl hx he hm k
    cases k with
    | zero => rfl
    | succ k =>
      obtain ⟨z, r', hz⟩ : ∃ z r', l ++ y :: r = z :: r' := by cases l <;> simp
      obtain ⟨g1, g2, g3⟩ := next_own b x z r' h1 (by rw [hl, List.cons_append, hz]) (hx x (by simp))
      obtain ⟨⟨s', dn⟩, hs⟩ : ∃ p, Charconv.numStep t base s x.toNat = p := ⟨_, rfl⟩
      simp only [List.map_cons, Charconv.numLoop, hs] at he hm
      cases dn with
      | true => simp at he
      | false =>
        simp only at he hm
        rw [numLoop_shift t base _ s' (0 + 1)] at he hm
        rw [numExtract]
        simp only [BufIt.equal, Bool.false_and, Bool.false_eq_true, if_false, Bool.not_false, Bool.not_true, Bool.and_false,
          BufIt.deref, g1, toChar_toInt, hs, g2]
        refine ih ⟨b.data, b.pos + 1⟩ s' h1 (by rw [g3, hz]) (fun x hx' => hx x (by simp [hx'])) he ?_ k
        intro k
        have := hm k
        simpa [Nat.add_assoc, Nat.add_comm 1] using this

/-- **Violation.** With the library's own traits and a signed `char`, a number that does not fit and behind which, before any
digit, the character 0xFF comes, is never read: the loop takes 0xFF for the end of the file, but there are characters left, so
it asks again, for ever.  Whatever the type, base and the rest of the text. -/
theorem extract_overflow_hangs (t : Charconv.IntTy) (base : Nat) (hb : 2 ≤ base) (hb' : base ≤ 36) (b : In)
    (hlen : b.data.length < 32768) (neg : Bool) (ds gap rest : List Ch) (d : Ch) (ho : Spec.Overflows t base neg ds d)
    (hl : b.data.drop b.pos = (if neg then [0x2D] else []) ++ ds ++ d :: (gap ++ 0xFF :: rest))
    (hgap : ∀ x ∈ gap, x ≠ 0xFF ∧ Spec.nonDigit base x = true) (k : Nat) :
    numExtract ownSigned t base k ⟨b, false⟩ ⟨.start, false, 0⟩ = .more := by
  obtain ⟨st, hn⟩ := numGet_overflow t base hb hb' neg ds d gap ho
  have hnd : Charconv.Spec.digit base (0xFF : Ch).toNat = none := by
    simp [Charconv.Spec.digit, Charconv.Spec.digitVal]
  have hne : ∀ x ∈ (if neg then [0x2D] else []) ++ ds ++ d :: gap, x ≠ (0xFF : Ch) := by
    intro x hx hxe
    subst hxe
    simp only [List.mem_append, List.mem_cons] at hx
    rcases hx with (hx | hx) | hx | hx
    · cases neg <;> simp at hx
    · have := ho.digits _ (List.mem_append_left [d] hx); rw [hnd] at this; simp at this
    · have := ho.digits d (by simp); rw [← hx, hnd] at this; simp at this
    · exact (hgap _ hx).1 rfl
  have hall : gap.all (Spec.nonDigit base) = true := by
    rw [List.all_eq_true]; exact fun x hx => (hgap x hx).2
  have hstate : (Charconv.numLoop t base ⟨.start, false, 0⟩ 0
      (((if neg then [0x2D] else []) ++ ds ++ d :: gap).map BitVec.toNat)).1 =
      ⟨.overflow, true, if neg then t.min else t.max⟩ := by
    have h1 : Charconv.numLoop t base ⟨.start, false, 0⟩ 0
      (((if neg then [0x2D] else []) ++ ds ++ d :: gap).map BitVec.toNat) = _ := hn
    have h2 := fail_state t base (((if neg then [0x2D] else []) ++ ds ++ d :: gap).map BitVec.toNat) ⟨.start, false, 0⟩ 0
      (by simp) (by rw [h1]; exact hall) (by rw [h1])
    rw [h1] at h2 ⊢
    simp only at h2
    rw [h2]
  refine numExtract_through t base 0xFF rest ((if neg then [0x2D] else []) ++ ds ++ d :: gap) b ⟨.start, false, 0⟩ hlen
    (by rw [hl]; simp) hne ?_ ?_ k
  · have : Charconv.numGet t base _ = _ := hn
    unfold Charconv.numGet at this
    rw [this]; exact hall
  · rw [hstate]
    have hd : b.data.drop (b.pos + ((if neg then [0x2D] else []) ++ ds ++ d :: gap).length) = 0xFF :: rest := by
      rw [← List.drop_drop, hl, show (if neg then [0x2D] else []) ++ ds ++ d :: (gap ++ 0xFF :: rest) =
        ((if neg then [0x2D] else []) ++ ds ++ d :: gap) ++ 0xFF :: rest by simp, List.drop_left]
    generalize b.pos + ((if neg then [0x2D] else []) ++ ds ++ d :: gap).length = p at hd
    have hp : p < b.data.length := by
      have := congrArg List.length hd; simp at this; omega
    have e0 : b.data[p]? = some 0xFF := by rw [getElem?_of_drop hd]; rfl
    obtain ⟨f1, f2, f3⟩ := ff_reads_as_eof .span ⟨b.data, p⟩ hp e0 (by simp)
    have hav := inAvail_pos ⟨b.data, p⟩ hp hlen
    have hff : (toChar eofCode).toNat = 255 := by decide
    intro k
    induction k with
    | zero => rfl
    | succ k ih =>
      have hnx : BufIt.next ownSigned ⟨⟨b.data, p⟩, false⟩ = some ⟨⟨b.data, p⟩, false⟩ := by
        unfold BufIt.next
        rw [show (⟨b.data, p⟩ : In).snextc ownSigned = _ from f3]
        simp [hav]
      have hst : Charconv.numStep t base ⟨.overflow, true, if neg then t.min else t.max⟩ 255 =
          (⟨.overflow, true, if neg then t.min else t.max⟩, false) := by
        simp only [Charconv.numStep, Charconv.from_char_spec base 255 hb hb' (by omega)]
        have : Charconv.Spec.digit base 255 = none := by simp [Charconv.Spec.digit, Charconv.Spec.digitVal]
        rw [this]; rfl
      rw [numExtract]
      simp only [BufIt.equal, Bool.false_and, Bool.false_eq_true, if_false, Bool.not_false, Bool.not_true, Bool.and_false,
        BufIt.deref, show (⟨b.data, p⟩ : In).sgetc ownSigned = _ from f1, hff, hst, hnx]
      exact ih

example : Spec.Overflows ⟨true, 127⟩ 10 true [0x31, 0x32] 0x39 ∧
    (⟨[0x2D, 0x31, 0x32, 0x39, 0x20, 0xFF, 0x37], 0⟩ : In).data.drop 0 =
      (if true then [0x2D] else []) ++ [0x31, 0x32] ++ 0x39 :: ([0x20] ++ 0xFF :: [0x37]) :=
  ⟨⟨by decide, by decide, by decide, by decide⟩, by decide⟩

end Verif.Streams
