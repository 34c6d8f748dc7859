import Verif.Streams.ExtractBool
import Verif.Streams.FloatFmt
import Mathlib.Tactic.Tauto

/-!
# C81: extraction of floating-point numbers (`in >> x` for `float` and `double`)

Modelled from `src/estd/istream.h`, `src/estd/internal/locale/num_get.h` and
`src/estd/internal/locale/iterated/num_get.h`, over the input stream of `Streams/Istream.lean` (non-blocking policy) and
the formats of `Streams/FloatFmt.lean`.  Every operation rounds to the type itself (`FLT_EVAL_METHOD` 0).
-/
namespace Verif.Streams
open Verif

/-! ## Model -/

/-- state of the parser: `state_`, `decimal_place_` (8 bits), failbit in `err`, and the output
(internal/locale/iterated/num_get.h:41-64) -/
structure FpState where
  st : Charconv.NSt
  place : Nat
  fail : Bool
  v : Fl

/-- `raise_and_add` for floating point, internal/locale/iterated/num_get.h:89-102 (the value) -/
def fpRaise (F : Fmt) (pos : Bool) (v : Fl) (n : Nat) : Fl :=
  F.add (F.mul v 10) (if pos then (n : Rat) else -(n : Rat))

/-- `++state_.decimal_place_` of 8 bits unless it is 0, internal/locale/iterated/num_get.h:104-108 -/
def placeNext (d : Nat) : Nat := if d ≠ 0 then (d + 1) % 256 else d

/-- `nominal`, internal/locale/iterated/num_get.h:120-158, for floating point; the Boolean is the return value -/
def fpNominal (F : Fmt) (pos : Bool) (s : FpState) (c : Nat) : FpState × Bool :=
  match Charconv.fromChar (Charconv.facet 10) c 10 with
  | some n => ({ s with v := fpRaise F pos s.v n, place := placeNext s.place }, false)
  | none => if c = 46 then ({ s with place := 1 }, false) else (s, true)

/-- `get<false>(c, err, v)`, internal/locale/iterated/num_get.h:202-260; `true` means processing is complete.  The state
`Overflow` is not entered: `raise_and_add` returns true (110). -/
def fpStep (F : Fmt) (s : FpState) (c : Nat) : FpState × Bool :=
  match s.st with
  | .start =>
    if c = 45 then ({ s with st := .nomNeg }, false)
    else
      match fpNominal F true { s with st := .nomPos } c with
      | (s', true) => ({ s' with fail := true }, true)
      | (s', false) => (s', false)
  | .nomPos => fpNominal F true s c
  | .nomNeg => fpNominal F false s c
  | .overflow => (s, (Charconv.fromChar (Charconv.facet 10) c 10).isSome)

/-- `for(int i = …; --i;) divider *= base`, internal/locale/iterated/num_get.h:173-179, in that many rounds -/
def fpDivider (F : Fmt) : Nat → Fl
  | 0 => .fin 1
  | k + 1 => F.mul (fpDivider F k) 10

/-- `finalize` for floating point, internal/locale/iterated/num_get.h:167-183 -/
def fpFinal (F : Fmt) (s : FpState) : Fl := if s.place ≠ 0 then F.div s.v (fpDivider F (s.place - 1)) else s.v

/-- how the loop ends: normally, by undefined behaviour, or not within the rounds allowed -/
inductive FpExt where
  | ok (i : BufIt) (st : FpState) (eof : Bool)
  | ub
  | more

/-- the loop of `get_signed_number`, internal/locale/num_get.h:50-74, over `istreambuf_iterator`s -/
def fpExtract (F : Fmt) (c : InCfg) : Nat → BufIt → FpState → FpExt
  | 0, _, _ => .more
  | k + 1, i, s =>
    if i.equal ⟨i.buf, true⟩ then .ok i s true
    else
      match i.deref c with
      | none => .ub
      | some ch =>
        match fpStep F s (toChar ch).toNat with
        | (s', true) => .ok i s' false
        | (s', false) =>
          match i.next c with
          | none => .ub
          | some i' => fpExtract F c k i' s'

/-- `in >> x`, istream.h:113-148, num_get.h:124-131, 224-235 (base 10 whatever the flags say).  `none`: undefined, or no
end within the rounds allowed (one more than there are characters). -/
def IS.extractFloat (F : Fmt) (c : ISCfg) (s : IS) : Option (IS × Fl) :=
  match s.ws c with
  | none => none
  | some s1 =>
    match fpExtract F c.inp (s1.buf.data.length + 2) ⟨s1.buf, false⟩ ⟨.start, 0, false, .fin 0⟩ with
    | .ok i st eof =>
      some (IS.setstate c ⟨i.buf, s1.ios, s1.gcount⟩
        (s1.ios.rdstate ||| (if st.fail then failbit else 0) ||| (if eof then eofbit else 0)), fpFinal F st)
    | _ => none

/-- extracting `n` numbers one after the other -/
def IS.extractFloats (F : Fmt) (c : ISCfg) : Nat → IS → Option (IS × List Fl)
  | 0, s => some (s, [])
  | n + 1, s =>
    match s.extractFloat F c with
    | none => none
    | some (s', v) =>
      match IS.extractFloats F c n s' with
      | none => none
      | some (s'', vs) => some (s'', v :: vs)

/-! ## Specification -/

/-- the characters of digits -/
def Spec.digits (ds : List Nat) : List Ch := ds.map fun d => BitVec.ofNat 8 (48 + d)

/-- a decimal number: sign, digits before the point, and the point with digits behind it -/
structure Spec.Decimal where
  neg : Bool
  whole : List Nat
  frac : Option (List Nat)

/-- its text: `-`, digits, `.`, digits -/
def Spec.Decimal.text (d : Spec.Decimal) : List Ch :=
  (if d.neg then [0x2D] else []) ++ Spec.digits d.whole ++
    match d.frac with
    | none => []
    | some f => 0x2E :: Spec.digits f

/-- the digits behind the point -/
def Spec.Decimal.places (d : Spec.Decimal) : List Nat := d.frac.getD []

/-- the number its digits make without the point -/
def Spec.Decimal.mantissa (d : Spec.Decimal) : Nat := Charconv.Spec.value 10 (d.whole ++ d.places)

/-- what it denotes -/
def Spec.Decimal.value (d : Spec.Decimal) : Rat := (if d.neg then -1 else 1) * d.mantissa / 10 ^ d.places.length

/-- digits are digits -/
def Spec.Decimal.Wf (d : Spec.Decimal) : Prop := ∀ x ∈ d.whole ++ d.places, x < 10

/-- what follows a decimal number: not a digit, not a point -/
def Spec.Stops (rest : List Ch) : Prop :=
  ∀ x r, rest = x :: r → (Charconv.Spec.digit 10 x.toNat).isSome = false ∧ x ≠ 0x2E

/-! ## The loop over characters that are there -/

/-- the loop on a text: final state, characters passed, whether the end was reached -/
def fpLoop (F : Fmt) : FpState → Nat → List Ch → FpState × Nat × Bool
  | s, i, [] => (s, i, true)
  | s, i, x :: l =>
    match fpStep F s x.toNat with
    | (s', true) => (s', i, false)
    | (s', false) => fpLoop F s' (i + 1) l

theorem fpLoop_shift (F : Fmt) (l : List Ch) : ∀ (s : FpState) (i : Nat),
    fpLoop F s i l = ((fpLoop F s 0 l).1, i + (fpLoop F s 0 l).2.1, (fpLoop F s 0 l).2.2) := by
  induction l with
  | nil => intro s i; simp [fpLoop]
  | cons x l ih =>
    intro s i
    simp only [fpLoop]
    obtain ⟨⟨s', b⟩, hs⟩ : ∃ p, fpStep F s x.toNat = p := ⟨_, rfl⟩
    rw [hs]
    cases b with
    | true => simp
    | false => simp only; rw [ih s' (i + 1), ih s' (0 + 1)]; simp; omega

theorem fpExtract_eq (F : Fmt) (c : InCfg) : ∀ (l : List Ch) (k : Nat) (b : In) (s : FpState),
    Spec.Readable c b.data → b.pos ≤ b.data.length → b.data.drop b.pos = l → l ≠ [] → l.length < k →
    ∃ i, fpExtract F c k ⟨b, false⟩ s = .ok i (fpLoop F s 0 l).1 (fpLoop F s 0 l).2.2 ∧
      i.buf = ⟨b.data, b.pos + (fpLoop F s 0 l).2.1⟩ := by
  intro l
  induction l with
  | nil => intro _ _ _ _ _ _ h; exact absurd rfl h
  | cons x r ih =>
    intro k b s h hp hl _ hk
    cases k with
    | zero => omega
    | succ k =>
      obtain ⟨e1, e2, e3⟩ := next_spec c b x r h hp hl
      rw [fpExtract]
      simp only [BufIt.equal, Bool.false_and, Bool.false_eq_true, if_false, Bool.not_false, Bool.not_true, Bool.and_false,
        BufIt.deref, sgetc_rest c b _ h hp hl, e1, toChar_toInt, fpLoop]
      obtain ⟨⟨s', d⟩, hs⟩ : ∃ p, fpStep F s x.toNat = p := ⟨_, rfl⟩
      rw [hs]
      cases d with
      | true => exact ⟨_, rfl, rfl⟩
      | false =>
        simp only
        cases r with
        | nil =>
          cases k with
          | zero => simp at hk
          | succ k => exact ⟨_, by simp only [fpExtract, BufIt.equal]; simp [fpLoop]; rfl, by simp [fpLoop]⟩
        | cons y r =>
          obtain ⟨i, f1, f2⟩ := ih k ⟨b.data, b.pos + 1⟩ s' h e2 e3 (by simp) (by simp at hk ⊢; omega)
          have hb : decide (y :: r = []) = false := by simp
          rw [hb, f1, fpLoop_shift F _ s' (0 + 1)]
          refine ⟨i, rfl, ?_⟩
          rw [f2]; simp; omega

/-- one extraction on a good stream with something behind the white space -/
theorem extractFloat_step (F : Fmt) (c : ISCfg) (s : IS) (h : s.Ok c) (hg : s.ios.good = true) (white text : List Ch)
    (hr : s.rest = white ++ text) (hw : ∀ x ∈ white, Spec.White x) (hx : ∀ x r, text = x :: r → ¬ Spec.White x)
    (hne : text ≠ []) :
    let r := fpLoop F ⟨.start, 0, false, .fin 0⟩ 0 text
    ∃ s', s.extractFloat F c = some (s', fpFinal F r.1) ∧
      Spec.Consumed c s (white.length + r.2.1) ((if r.1.fail then failbit else 0) ||| if r.2.2 then eofbit else 0) s' := by
  intro r
  obtain ⟨w1, w2⟩ := split_white s.rest white text hr hw hx
  have hd := drop_takeWhile_length isSpace s.rest
  have hlen : (s.rest.takeWhile isSpace).length ≤ s.rest.length := (List.takeWhile_prefix _).length_le
  have hrl := rest_length h.inside
  have hi := h.inside
  obtain ⟨i, e1, e2⟩ := fpExtract_eq F c.inp text (s.buf.data.length + 2)
    ⟨s.buf.data, s.buf.pos + white.length⟩ ⟨.start, 0, false, .fin 0⟩ h.readable
    (by simp only; rw [w1] at hlen; omega) (by rw [w1] at hd; rw [← w2, ← hd]; simp only [IS.rest, List.drop_drop]) hne (by
      have := (List.dropWhile_suffix (l := s.rest) isSpace).length_le; rw [w2] at this; omega)
  refine ⟨⟨⟨s.buf.data, s.buf.pos + (white.length + r.2.1)⟩,
    s.ios.setstate c.ios ((if r.1.fail then failbit else 0) ||| if r.2.2 then eofbit else 0), 0⟩, ?_,
    rest_consumed c s _ _ _, rfl, rfl, rfl⟩
  unfold IS.extractFloat
  rw [ws_eq c s h hg]
  simp only [w1, e1, e2]
  simp only [IS.setstate, BitVec.or_assoc, setstate_rdstate, Nat.add_assoc]
  rfl

/-! ## Digits, point, sign -/

theorem digit_toNat {d : Nat} (h : d < 10) : (BitVec.ofNat 8 (48 + d)).toNat = 48 + d := by simp; omega

theorem fromChar_digit {d : Nat} (h : d < 10) : Charconv.fromChar (Charconv.facet 10) (48 + d) 10 = some d := by
  rw [Charconv.from_char_spec 10 _ (by omega) (by omega) (by omega)]
  simp only [Charconv.Spec.digit, Charconv.Spec.digitVal]
  rw [if_pos (by omega)]
  simp; omega

theorem fpdigit_not_white {d : Nat} (h : d < 10) : ¬ Spec.White (BitVec.ofNat 8 (48 + d)) := by
  rw [← isSpace_iff]
  have : ∀ d : Fin 10, isSpace (BitVec.ofNat 8 (48 + d.val)) = false := by decide +kernel
  rw [this ⟨d, h⟩]; simp

/-- the value after some digits -/
def accum (F : Fmt) (pos : Bool) (v : Fl) (ds : List Nat) : Fl := ds.foldl (fpRaise F pos) v

/-- the counter after some digits -/
def placeAfter : Nat → Nat → Nat
  | d, 0 => d
  | d, k + 1 => placeAfter (placeNext d) k

theorem placeAfter_zero (k : Nat) : placeAfter 0 k = 0 := by
  induction k with
  | zero => rfl
  | succ k ih => simpa [placeAfter, placeNext] using ih

theorem placeAfter_eq (k : Nat) : ∀ d, 0 < d → d < 256 → placeAfter d k = if d + k < 256 then d + k else 0 := by
  induction k with
  | zero => intro d _ h; simp [placeAfter, h]
  | succ k ih =>
    intro d h0 h
    rw [placeAfter]
    by_cases hd : d = 255
    · subst hd
      rw [if_neg (by omega)]
      simp [placeNext, placeAfter_zero]
    · have : placeNext d = d + 1 := by
        unfold placeNext; rw [if_pos (by omega)]; omega
      rw [this, ih (d + 1) (by omega) (by omega)]
      have : d + 1 + k = d + (k + 1) := by omega
      rw [this]

theorem placeAfter_few {k : Nat} (h : k ≤ 254) : placeAfter 1 k = 1 + k := by
  rw [placeAfter_eq k 1 (by omega) (by omega), if_pos (by omega)]

theorem placeAfter_many {k : Nat} (h : 255 ≤ k) : placeAfter 1 k = 0 := by
  rw [placeAfter_eq k 1 (by omega) (by omega), if_neg (by omega)]

/-- the state of a parser behind the sign -/
def behind (pos : Bool) : Charconv.NSt := if pos then .nomPos else .nomNeg

theorem fpStep_behind (F : Fmt) (pos : Bool) (d : Nat) (fl : Bool) (v : Fl) (c : Nat) :
    fpStep F ⟨behind pos, d, fl, v⟩ c = fpNominal F pos ⟨behind pos, d, fl, v⟩ c := by
  cases pos <;> rfl

theorem fpLoop_digits (F : Fmt) (pos fl : Bool) (rest : List Ch) (ds : List Nat) : ∀ (d : Nat) (v : Fl) (i : Nat), (∀ x ∈ ds, x < 10) →
    fpLoop F ⟨behind pos, d, fl, v⟩ i (Spec.digits ds ++ rest) =
      fpLoop F ⟨behind pos, placeAfter d ds.length, fl, accum F pos v ds⟩ (i + ds.length) rest := by
  induction ds with
  | nil => intro d v i _; rfl
  | cons x ds ih =>
    intro d v i h
    have hx : x < 10 := h x (by simp)
    show fpLoop F _ i (BitVec.ofNat 8 (48 + x) :: (Spec.digits ds ++ rest)) = _
    rw [fpLoop, fpStep_behind, digit_toNat hx, fpNominal, fromChar_digit hx]
    simp only
    rw [ih _ _ _ (fun y hy => h y (by simp [hy]))]
    simp only [List.length_cons, placeAfter, accum, List.foldl_cons]
    congr 1
    omega

theorem fpLoop_point (F : Fmt) (pos fl : Bool) (rest : List Ch) (d : Nat) (v : Fl) (i : Nat) :
    fpLoop F ⟨behind pos, d, fl, v⟩ i (0x2E :: rest) = fpLoop F ⟨behind pos, 1, fl, v⟩ (i + 1) rest := by
  rw [fpLoop, fpStep_behind]
  have : fpNominal F pos ⟨behind pos, d, fl, v⟩ (0x2E : Ch).toNat = (⟨behind pos, 1, fl, v⟩, false) := by
    simp [fpNominal, Charconv.from_char_spec 10 46 (by omega) (by omega) (by omega), Charconv.Spec.digit, Charconv.Spec.digitVal]
  rw [this]

theorem fpLoop_stop (F : Fmt) (pos fl : Bool) (rest : List Ch) (hs : Spec.Stops rest) (d : Nat) (v : Fl) (i : Nat) :
    fpLoop F ⟨behind pos, d, fl, v⟩ i rest = (⟨behind pos, d, fl, v⟩, i, decide (rest = [])) := by
  cases rest with
  | nil => rfl
  | cons x r =>
    obtain ⟨h1, h2⟩ := hs x r rfl
    rw [fpLoop, fpStep_behind]
    have h3 : Charconv.Spec.digit 10 x.toNat = none := by
      cases hq : Charconv.Spec.digit 10 x.toNat
      · rfl
      · rw [hq] at h1; simp at h1
    have h4 : x.toNat ≠ 46 := fun e => h2 (BitVec.eq_of_toNat_eq e)
    rw [fpNominal, Charconv.from_char_spec 10 x.toNat (by omega) (by omega) x.isLt, h3]
    simp only [if_neg h4]
    simp

theorem fpLoop_minus (F : Fmt) (rest : List Ch) (i : Nat) :
    fpLoop F ⟨.start, 0, false, .fin 0⟩ i (0x2D :: rest) = fpLoop F ⟨behind false, 0, false, .fin 0⟩ (i + 1) rest := by
  rw [fpLoop]; rfl

/-- the characters a number without sign may begin with -/
def Spec.Begins (x : Ch) : Prop := (∃ d, d < 10 ∧ x = BitVec.ofNat 8 (48 + d)) ∨ x = 0x2E

theorem fpLoop_start (F : Fmt) (x : Ch) (hx : Spec.Begins x) (rest : List Ch) (i : Nat) :
    fpLoop F ⟨.start, 0, false, .fin 0⟩ i (x :: rest) = fpLoop F ⟨behind true, 0, false, .fin 0⟩ i (x :: rest) := by
  have h45 : x.toNat ≠ 45 := by
    rcases hx with ⟨d, hd, rfl⟩ | rfl
    · rw [digit_toNat hd]; omega
    · decide
  have hn : (fpNominal F true ⟨.nomPos, 0, false, .fin 0⟩ x.toNat).2 = false := by
    rcases hx with ⟨d, hd, rfl⟩ | rfl
    · rw [digit_toNat hd, fpNominal, fromChar_digit hd]
    · simp [fpNominal, Charconv.from_char_spec 10 46 (by omega) (by omega) (by omega), Charconv.Spec.digit, Charconv.Spec.digitVal]
  rw [fpLoop, fpLoop, fpStep_behind]
  simp only [fpStep, if_neg h45, behind, if_true]
  obtain ⟨⟨s', b⟩, hs⟩ : ∃ p, fpNominal F true ⟨.nomPos, 0, false, .fin 0⟩ x.toNat = p := ⟨_, rfl⟩
  rw [hs] at hn ⊢
  simp only at hn
  subst hn
  rfl

/-- sign first, then what is behind it -/
theorem fpLoop_signed (F : Fmt) (neg : Bool) (body : List Ch) (hb : neg = false → ∃ x r, body = x :: r ∧ Spec.Begins x) :
    fpLoop F ⟨.start, 0, false, .fin 0⟩ 0 ((if neg then [0x2D] else []) ++ body) =
      fpLoop F ⟨behind !neg, 0, false, .fin 0⟩ (if neg then 1 else 0) body := by
  cases neg with
  | true => exact fpLoop_minus F body 0
  | false =>
    obtain ⟨x, r, rfl, hx⟩ := hb rfl
    exact fpLoop_start F x hx r 0

theorem begins_digits (ds : List Nat) (h : ∀ x ∈ ds, x < 10) (rest : List Ch) (hne : ds ≠ []) :
    ∃ x r, Spec.digits ds ++ rest = x :: r ∧ Spec.Begins x := by
  cases ds with
  | nil => exact absurd rfl hne
  | cons d ds => exact ⟨_, _, rfl, Or.inl ⟨d, h d (by simp), rfl⟩⟩

/-- the loop over a decimal number -/
theorem fpLoop_decimal (F : Fmt) (d : Spec.Decimal) (hd : d.Wf) (rest : List Ch) (hs : Spec.Stops rest)
    (hne : d.neg = true ∨ d.whole ≠ [] ∨ d.frac.isSome) :
    fpLoop F ⟨.start, 0, false, .fin 0⟩ 0 (d.text ++ rest) =
      (⟨behind !d.neg, if d.frac.isSome then placeAfter 1 d.places.length else 0, false,
        accum F (!d.neg) (.fin 0) (d.whole ++ d.places)⟩, d.text.length, decide (rest = [])) := by
  obtain ⟨neg, whole, frac⟩ := d
  have hw : ∀ x ∈ whole, x < 10 := fun x hx => hd x (List.mem_append_left _ hx)
  have hf : ∀ x ∈ frac.getD [], x < 10 := fun x hx => hd x (List.mem_append_right _ hx)
  simp only [Spec.Decimal.text, Spec.Decimal.places]
  cases frac with
  | none =>
    simp only [List.append_nil, List.append_assoc, Option.getD_none]
    rw [fpLoop_signed F neg _ (by
      intro hn
      subst hn
      exact begins_digits whole hw _ (by simpa using hne)), fpLoop_digits F _ _ _ _ _ _ _ hw, fpLoop_stop F _ _ _ hs]
    simp [placeAfter_zero, Spec.digits]
    cases neg <;> simp
  | some f =>
    simp only [Option.getD_some] at hf
    simp only [List.append_assoc, Option.getD_some, List.cons_append]
    rw [fpLoop_signed F neg _ (by
      intro hn
      cases whole with
      | nil => exact ⟨_, _, rfl, Or.inr rfl⟩
      | cons w ws => exact begins_digits (w :: ws) hw _ (by simp)), fpLoop_digits F _ _ _ _ _ _ _ hw, fpLoop_point,
      fpLoop_digits F _ _ _ _ _ _ _ hf, fpLoop_stop F _ _ _ hs]
    simp only [accum, List.foldl_append, Option.isSome_some, if_true]
    simp [Spec.digits]
    cases neg <;> simp <;> omega

/-! ## Arithmetic that is exact -/

/-- the sign as a factor -/
def sgn (pos : Bool) : Int := if pos then 1 else -1

theorem exact_int {F : Fmt} {p emax : Nat} (hF : Spec.Binary F p emax) (hp : p < emax) (pos : Bool) (m : Nat) (hm : m ≤ 2 ^ p) :
    F.round ((sgn pos * (m : Int) : Int) : Rat) = .fin ((sgn pos * (m : Int) : Int) : Rat) := by
  have habs : |sgn pos * (m : Int)| = (m : Int) := by cases pos <;> simp [sgn]
  have h1 : |sgn pos * (m : Int)| ≤ 2 ^ p := by rw [habs]; exact_mod_cast hm
  have h2 : |((sgn pos * (m : Int) : Int) : Rat)| < 2 ^ emax := by
    have : |((sgn pos * (m : Int) : Int) : Rat)| = ((|sgn pos * (m : Int)| : Int) : Rat) := by push_cast; rfl
    rw [this, habs]
    have h3 : (2 : Rat) ^ p < 2 ^ emax := pow_lt_pow_right₀ (by norm_num) hp
    have h4 : (((m : Int)) : Rat) ≤ 2 ^ p := by exact_mod_cast hm
    linarith
  have := hF.exact (sgn pos * (m : Int)) 0 h1 (by rw [pow_zero, mul_one]; exact h2)
  rwa [pow_zero, mul_one] at this

theorem foldl_ge (ds : List Nat) : ∀ m : Nat, m ≤ ds.foldl (fun a d => a * 10 + d) m := by
  induction ds with
  | nil => intro m; exact le_refl _
  | cons d ds ih => intro m; exact le_trans (by omega) (ih (m * 10 + d))

/-- while the digits make a number of at most `p` bits, nothing is rounded -/
theorem accum_exact {F : Fmt} {p emax : Nat} (hF : Spec.Binary F p emax) (hp : p < emax) (pos : Bool) (ds : List Nat) : ∀ m : Nat,
    ds.foldl (fun a d => a * 10 + d) m ≤ 2 ^ p →
    accum F pos (.fin ((sgn pos * (m : Int) : Int) : Rat)) ds =
      .fin ((sgn pos * ((ds.foldl (fun a d => a * 10 + d) m : Nat) : Int) : Int) : Rat) := by
  induction ds with
  | nil => intro m _; rfl
  | cons d ds ih =>
    intro m h
    rw [List.foldl_cons] at h ⊢
    have hle := le_trans (foldl_ge ds (m * 10 + d)) h
    have e : fpRaise F pos (.fin ((sgn pos * (m : Int) : Int) : Rat)) d = .fin ((sgn pos * ((m * 10 + d : Nat) : Int) : Int) : Rat) := by
      have h1 := exact_int hF hp pos (m * 10) (by omega)
      have h2 := exact_int hF hp pos (m * 10 + d) hle
      have e1 : ((sgn pos * (m : Int) : Int) : Rat) * 10 = ((sgn pos * ((m * 10 : Nat) : Int) : Int) : Rat) := by
        push_cast; ring
      have e2 : ((sgn pos * ((m * 10 : Nat) : Int) : Int) : Rat) + (if pos then (d : Rat) else -(d : Rat)) =
          ((sgn pos * ((m * 10 + d : Nat) : Int) : Int) : Rat) := by
        cases pos <;> simp [sgn] <;> ring
      simp only [fpRaise, Fmt.mul, e1, h1, Fmt.add, e2, h2]
    show accum F pos (fpRaise F pos _ d) ds = _
    rw [e]
    exact ih _ h

theorem divider_exact {F : Fmt} {p emax : Nat} (hF : Spec.Binary F p emax) (k : Nat) (h5 : 5 ^ k ≤ 2 ^ p)
    (h10 : 10 ^ k < 2 ^ emax) : fpDivider F k = .fin ((10 : Rat) ^ k) := by
  induction k with
  | zero => simp [fpDivider]
  | succ k ih =>
    have a : 5 ^ k ≤ 2 ^ p := le_trans (Nat.pow_le_pow_right (by omega) (by omega)) h5
    have b : 10 ^ k < 2 ^ emax := lt_of_le_of_lt (Nat.pow_le_pow_right (by omega) (by omega)) h10
    rw [fpDivider, ih a b]
    have e : (10 : Rat) ^ k * 10 = ((5 ^ (k + 1) : Int) : Rat) * 2 ^ (k + 1) := by
      push_cast
      rw [← mul_pow, ← pow_succ]; norm_num
    have e3 : ((5 ^ (k + 1) : Int) : Rat) * 2 ^ (k + 1) = (10 : Rat) ^ (k + 1) := by
      push_cast
      rw [← mul_pow]; norm_num
    have := hF.exact (5 ^ (k + 1)) (k + 1) (by rw [abs_of_nonneg (by positivity)]; exact_mod_cast h5) (by
      rw [e3, abs_of_nonneg (by positivity)]; exact_mod_cast h10)
    simp only [Fmt.mul]
    rw [e, this, e3]

/-! ## Beyond the range -/

theorem raise_grows {F : Fmt} {p emax : Nat} (hF : Spec.Binary F p emax) (pos : Bool) (q : Rat) (e d : Nat)
    (hq : (2 : Rat) ^ e ≤ (sgn pos : Rat) * q) :
    fpRaise F pos (.fin q) d = .inf ∨ ∃ q', fpRaise F pos (.fin q) d = .fin q' ∧ (2 : Rat) ^ (e + 3) ≤ (sgn pos : Rat) * q' := by
  have h8 : (2 : Rat) ^ (e + 3) = 8 * 2 ^ e := by rw [pow_add]; ring
  have hpos : (0 : Rat) < 2 ^ e := by positivity
  have hd : (0 : Rat) ≤ d := by positivity
  cases pos with
  | true =>
    simp only [sgn, if_true, Int.cast_one, one_mul] at hq ⊢
    simp only [fpRaise, Fmt.mul]
    rcases hF.above (q * 10) (e + 3) (by linarith) with h1 | ⟨y, h1, h2⟩
    · left; rw [h1]; rfl
    · rw [h1]
      simp only [Fmt.add, if_true]
      exact hF.above _ _ (by linarith)
  | false =>
    simp only [sgn, Bool.false_eq_true, if_false, Int.cast_neg, Int.cast_one] at hq ⊢
    simp only [fpRaise, Fmt.mul]
    rcases hF.below (q * 10) (e + 3) (by linarith) with h1 | ⟨y, h1, h2⟩
    · left; rw [h1]; rfl
    · rw [h1]
      simp only [Fmt.add, Bool.false_eq_true, if_false]
      rcases hF.below (y + -(d : Rat)) (e + 3) (by linarith) with h3 | ⟨z, h3, h4⟩
      · exact Or.inl h3
      · exact Or.inr ⟨z, h3, by linarith⟩

theorem accum_inf (F : Fmt) (pos : Bool) (ds : List Nat) : accum F pos .inf ds = .inf := by
  induction ds with
  | nil => rfl
  | cons d ds ih => exact ih

/-- once there is a number of magnitude at least one, every digit makes it at least eight times as large -/
theorem accum_grows {F : Fmt} {p emax : Nat} (hF : Spec.Binary F p emax) (pos : Bool) (ds : List Nat) : ∀ (q : Rat) (e : Nat),
    (2 : Rat) ^ e ≤ (sgn pos : Rat) * q →
    accum F pos (.fin q) ds = .inf ∨
      ∃ q', accum F pos (.fin q) ds = .fin q' ∧ (2 : Rat) ^ (e + 3 * ds.length) ≤ (sgn pos : Rat) * q' := by
  induction ds with
  | nil => intro q e h; exact Or.inr ⟨q, rfl, h⟩
  | cons d ds ih =>
    intro q e h
    show accum F pos (fpRaise F pos (.fin q) d) ds = _ ∨ ∃ q', accum F pos (fpRaise F pos (.fin q) d) ds = _ ∧ _
    rcases raise_grows hF pos q e d h with h1 | ⟨q', h1, h2⟩
    · left; rw [h1]; exact accum_inf F pos ds
    · rw [h1]
      rcases ih q' (e + 3) h2 with h3 | ⟨z, h3, h4⟩
      · exact Or.inl h3
      · refine Or.inr ⟨z, h3, ?_⟩
        rw [List.length_cons, show e + 3 * (ds.length + 1) = e + 3 + 3 * ds.length by omega]
        exact h4

/-- a result is never finite from `2 ^ emax` on -/
theorem round_lt {F : Fmt} {p emax : Nat} (hF : Spec.Binary F p emax) {x y : Rat} (h : F.round x = .fin y) : |x| < 2 ^ emax := by
  by_contra hc
  rw [hF.large x (not_lt.mp hc)] at h
  cases h

theorem accum_zeros {F : Fmt} {p emax : Nat} (hF : Spec.Binary F p emax) (hp : p < emax) (pos : Bool) (n : Nat) :
    accum F pos (.fin 0) (List.replicate n 0) = .fin 0 := by
  have hz : (List.replicate n 0).foldl (fun a d => a * 10 + d) 0 = 0 := by
    induction n with
    | zero => rfl
    | succ n ih => simpa [List.replicate_succ] using ih
  have := accum_exact hF hp pos (List.replicate n 0) 0 (by rw [hz]; exact Nat.zero_le _)
  rw [hz] at this
  simpa using this

/-- Leading zeros, a digit that is not zero, and then `k` digits with `3 k > emax`: infinite. -/
theorem accum_overflows {F : Fmt} {p emax : Nat} (hF : Spec.Binary F p emax) (hp : 4 ≤ p) (hpe : p < emax) (pos : Bool) (z d : Nat)
    (hd : 0 < d) (hd10 : d < 10) (ds : List Nat) (hl : emax < 3 * ds.length) :
    accum F pos (.fin 0) (List.replicate z 0 ++ d :: ds) = .inf := by
  have happ : accum F pos (.fin 0) (List.replicate z 0 ++ d :: ds) = accum F pos (.fin 0) (d :: ds) := by
    unfold accum
    rw [List.foldl_append]
    have := accum_zeros hF hpe pos z
    unfold accum at this
    rw [this]
  rw [happ]
  have h16 : (2 : Nat) ^ 4 ≤ 2 ^ p := Nat.pow_le_pow_right (by omega) hp
  have h1 := accum_exact hF hpe pos [d] 0 (by simp; omega)
  have h1' : fpRaise F pos (.fin 0) d = .fin ((sgn pos * (d : Int) : Int) : Rat) := by
    simpa [accum] using h1
  show accum F pos (fpRaise F pos (.fin 0) d) ds = .inf
  rw [h1']
  have hss : (sgn pos : Rat) * ((sgn pos * (d : Int) : Int) : Rat) = d := by cases pos <;> simp [sgn]
  obtain ⟨x, ds', rfl⟩ : ∃ x ds', ds = ds' ++ [x] := by
    rcases List.eq_nil_or_concat ds with h | ⟨l, x, h⟩
    · subst h; simp at hl
    · exact ⟨x, l, by rw [h, List.concat_eq_append]⟩
  have hcat : accum F pos (.fin ((sgn pos * (d : Int) : Int) : Rat)) (ds' ++ [x]) =
      fpRaise F pos (accum F pos (.fin ((sgn pos * (d : Int) : Int) : Rat)) ds') x := by
    simp [accum, List.foldl_append]
  rw [hcat]
  rcases accum_grows hF pos ds' ((sgn pos * (d : Int) : Int) : Rat) 0 (by
    rw [hss]; simp; omega) with h2 | ⟨q, h2, h3⟩
  · rw [h2]; rfl
  · rw [h2]
    simp only [fpRaise, Fmt.mul]
    have hbig : (2 : Rat) ^ emax ≤ |q * 10| := by
      have e1 : (2 : Rat) ^ emax ≤ 2 ^ (0 + 3 * ds'.length + 3) :=
        pow_le_pow_right₀ (by norm_num) (by simp at hl; omega)
      have e2 : (2 : Rat) ^ (0 + 3 * ds'.length + 3) = 8 * 2 ^ (0 + 3 * ds'.length) := by rw [pow_add _ (0 + 3 * ds'.length) 3]; ring
      have e3 : (0 : Rat) < 2 ^ (0 + 3 * ds'.length) := by positivity
      have e4 : (2 : Rat) ^ (0 + 3 * ds'.length) ≤ |q| := by
        refine le_trans h3 ?_
        cases pos
        · simp [sgn]; exact neg_le_abs q
        · simp [sgn]; exact le_abs_self q
      rw [abs_mul, abs_of_pos (by norm_num : (0 : Rat) < 10)]
      linarith
    rw [hF.large _ hbig]
    rfl

theorem mul_inf (F : Fmt) (k : Rat) : F.mul .inf k = .inf := rfl

/-- a power of ten with `3 k ≥ emax` overflows -/
theorem divider_inf {F : Fmt} {p emax : Nat} (hF : Spec.Binary F p emax) (k : Nat) (hl : emax ≤ 3 * k) (hk : 0 < k) :
    fpDivider F k = .inf := by
  have key : ∀ j, fpDivider F j = .inf ∨ ∃ q, fpDivider F j = .fin q ∧ (2 : Rat) ^ (3 * j) ≤ q := by
    intro j
    induction j with
    | zero => exact Or.inr ⟨1, rfl, by simp⟩
    | succ j ih =>
      rcases ih with h | ⟨q, h, hq⟩
      · left; rw [fpDivider, h]; rfl
      · rw [fpDivider, h]
        have e : (2 : Rat) ^ (3 * (j + 1)) = 8 * 2 ^ (3 * j) := by rw [show 3 * (j + 1) = 3 * j + 3 by omega, pow_add]; ring
        have e2 : (0 : Rat) < 2 ^ (3 * j) := by positivity
        exact hF.above _ _ (by rw [e]; linarith)
  obtain ⟨j, rfl⟩ : ∃ j, k = j + 1 := ⟨k - 1, by omega⟩
  rcases key j with h | ⟨q, h, hq⟩
  · rw [fpDivider, h]; rfl
  · rw [fpDivider, h]
    apply hF.large
    have e : (2 : Rat) ^ (3 * j + 3) = 8 * 2 ^ (3 * j) := by rw [pow_add]; ring
    have e2 : (0 : Rat) < 2 ^ (3 * j) := by positivity
    have e3 : (2 : Rat) ^ emax ≤ 2 ^ (3 * j + 3) := pow_le_pow_right₀ (by norm_num) (by omega)
    refine le_trans ?_ (le_abs_self _)
    linarith

/-! ## Properties -/

theorem text_not_white (d : Spec.Decimal) (hd : d.Wf) (hne : d.whole ++ d.places ≠ []) (rest : List Ch) :
    d.text ++ rest ≠ [] ∧ ∀ x r, d.text ++ rest = x :: r → ¬ Spec.White x := by
  obtain ⟨neg, whole, frac⟩ := d
  have hw : ∀ x ∈ whole, x < 10 := fun x hx => hd x (List.mem_append_left _ hx)
  simp only [Spec.Decimal.text]
  cases neg with
  | true =>
    refine ⟨by simp, ?_⟩
    intro x r h
    simp only [if_true, List.append_assoc, List.cons_append, List.cons.injEq] at h
    rw [← h.1, ← isSpace_iff]; decide
  | false =>
    cases whole with
    | cons w ws =>
      refine ⟨by simp [Spec.digits], ?_⟩
      intro x r h
      simp only [Spec.digits, List.map_cons, List.append_assoc, List.cons_append, Bool.false_eq_true, if_false, List.nil_append,
        List.cons.injEq] at h
      rw [← h.1]; exact fpdigit_not_white (hw w (by simp))
    | nil =>
      cases frac with
      | none => exact absurd rfl hne
      | some f =>
        refine ⟨by simp, ?_⟩
        intro x r h
        simp only [Spec.digits, List.map_nil, List.append_assoc, List.cons_append, Bool.false_eq_true, if_false, List.nil_append,
          List.cons.injEq] at h
        rw [← h.1, ← isSpace_iff]; decide

theorem decimal_ne (d : Spec.Decimal) (hne : d.whole ++ d.places ≠ []) : d.neg = true ∨ d.whole ≠ [] ∨ d.frac.isSome := by
  obtain ⟨neg, whole, frac⟩ := d
  cases frac with
  | some f => simp
  | none => right; left; simpa [Spec.Decimal.places] using hne

theorem accum_mantissa {F : Fmt} {p emax : Nat} (hF : Spec.Binary F p emax) (hp : p < emax) (d : Spec.Decimal) (hm : d.mantissa ≤ 2 ^ p) :
    accum F (!d.neg) (.fin 0) (d.whole ++ d.places) = .fin ((if d.neg then -1 else 1) * d.mantissa) := by
  have := accum_exact hF hp (!d.neg) (d.whole ++ d.places) 0 (by exact hm)
  have e : List.foldl (fun a d => a * 10 + d) 0 (d.whole ++ d.places) = d.mantissa := rfl
  rw [e] at this
  simp only [Nat.cast_zero, mul_zero, Int.cast_zero] at this
  rw [this]
  cases d.neg <;> simp [sgn]

/-- the stored value of a decimal number, nothing of which is rounded before the division -/
theorem decimal_final {F : Fmt} {p emax : Nat} (hF : Spec.Binary F p emax) (hp : p < emax) (d : Spec.Decimal) (st : Charconv.NSt)
    (hm : d.mantissa ≤ 2 ^ p) (h5 : 5 ^ d.places.length ≤ 2 ^ p) (h10 : 10 ^ d.places.length < 2 ^ emax) (hk : d.places.length ≤ 254) :
    fpFinal F ⟨st, if d.frac.isSome then placeAfter 1 d.places.length else 0, false, accum F (!d.neg) (.fin 0) (d.whole ++ d.places)⟩ =
      F.round d.value := by
  rw [accum_mantissa hF hp d hm]
  cases hfr : d.frac with
  | none =>
    have hpl : d.places = [] := by simp [Spec.Decimal.places, hfr]
    have := exact_int hF hp (!d.neg) d.mantissa hm
    simp only [fpFinal, Spec.Decimal.value, hpl, Option.isSome_none, Bool.false_eq_true, if_false, List.length_nil, pow_zero, div_one]
    have e : ((sgn (!d.neg) * (d.mantissa : Int) : Int) : Rat) = (if d.neg then -1 else 1) * (d.mantissa : Rat) := by
      cases d.neg <;> simp [sgn]
    rw [e] at this
    rw [this]; simp
  | some f =>
    simp only [fpFinal, Option.isSome_some, if_true]
    rw [placeAfter_few hk, if_pos (by omega),
      show 1 + d.places.length - 1 = d.places.length by omega, divider_exact hF _ h5 h10]
    rfl

/-- C81: on a good stream holding white space and a decimal number (`-`, digits, point, digits; at least one digit) not
followed by a digit or a point, `in >> x` stores the number of the format nearest to what the text denotes (as a
correctly rounding conversion does), leaves the stream behind the number, and sets `eofbit` exactly when the number
ends the text.  This for numbers whose digits make an integer of at most `p` bits (`p` the precision), with so many
places that `10 ^ places` is exactly represented.
Missing: longer numbers (`float_error_partial` bounds their error; `float_many_places`, `float_long_nan`), a second point (`float_two_points`), texts without
digits (`float_no_digits`), exponents (`float_exponent_left`), the end of the text (`float_at_end`). -/
theorem float_partial (F : Fmt) (p emax : Nat) (hF : Spec.Binary F p emax) (hp : p < emax) (c : ISCfg) (s : IS) (h : s.Ok c)
    (hg : s.ios.good = true) (white rest : List Ch) (d : Spec.Decimal) (hr : s.rest = white ++ (d.text ++ rest))
    (hw : ∀ x ∈ white, Spec.White x) (hd : d.Wf) (hne : d.whole ++ d.places ≠ []) (hs : Spec.Stops rest)
    (hm : d.mantissa ≤ 2 ^ p) (h5 : 5 ^ d.places.length ≤ 2 ^ p) (h10 : 10 ^ d.places.length < 2 ^ emax)
    (hk : d.places.length ≤ 254) :
    ∃ s', s.extractFloat F c = some (s', F.round d.value) ∧
      Spec.Consumed c s (white.length + d.text.length) (if rest = [] then eofbit else 0) s' := by
  obtain ⟨t1, t2⟩ := text_not_white d hd hne rest
  obtain ⟨s', e, hc⟩ := extractFloat_step F c s h hg white _ hr hw t2 t1
  rw [fpLoop_decimal F d hd rest hs (decimal_ne d hne)] at e hc
  rw [decimal_final hF hp d _ hm h5 h10 hk] at e
  refine ⟨s', e, ?_⟩
  by_cases hre : rest = [] <;> simpa [hre] using hc

theorem value_lt (ds : List Nat) (h : ∀ x ∈ ds, x < 10) : Charconv.Spec.value 10 ds < 10 ^ ds.length := by
  have key : ∀ (ds : List Nat) (m n : Nat), (∀ x ∈ ds, x < 10) → m < 10 ^ n →
      ds.foldl (fun a d => a * 10 + d) m < 10 ^ (n + ds.length) := by
    intro ds
    induction ds with
    | nil => intro m n _ hm; simpa using hm
    | cons d ds ih =>
      intro m n hd hm
      have h1 := hd d (by simp)
      have := ih (m * 10 + d) (n + 1) (fun x hx => hd x (by simp [hx])) (by rw [pow_succ]; omega)
      rw [List.foldl_cons, List.length_cons, show n + (ds.length + 1) = n + 1 + ds.length by omega]
      exact this
  have := key ds 0 0 h (by simp)
  simpa [Charconv.Spec.value] using this

/-- C81 for `double`: a decimal number of up to 15 digits is read as the nearest `double`. -/
theorem double_partial (c : ISCfg) (s : IS) (h : s.Ok c) (hg : s.ios.good = true) (white rest : List Ch) (d : Spec.Decimal)
    (hr : s.rest = white ++ (d.text ++ rest)) (hw : ∀ x ∈ white, Spec.White x) (hd : d.Wf) (hs : Spec.Stops rest)
    (h1 : 1 ≤ (d.whole ++ d.places).length) (h15 : (d.whole ++ d.places).length ≤ 15) :
    ∃ s', s.extractFloat (ieee 53 1024 1074) c = some (s', (ieee 53 1024 1074).round d.value) ∧
      Spec.Consumed c s (white.length + d.text.length) (if rest = [] then eofbit else 0) s' := by
  have hpl : d.places.length ≤ 15 := by simp at h15; omega
  have hm := value_lt _ hd
  have hm2 : 10 ^ (d.whole ++ d.places).length ≤ 10 ^ 15 := Nat.pow_le_pow_right (by omega) h15
  have h53 : (10 : Nat) ^ 15 < 2 ^ 53 := by norm_num
  have h515 : (5 : Nat) ^ d.places.length ≤ 5 ^ 15 := Nat.pow_le_pow_right (by omega) hpl
  have h1015 : (10 : Nat) ^ d.places.length ≤ 10 ^ 15 := Nat.pow_le_pow_right (by omega) hpl
  have h53' : (5 : Nat) ^ 15 < 2 ^ 53 := by norm_num
  have hbig : (2 : Nat) ^ 53 < 2 ^ 1024 := Nat.pow_lt_pow_right (by omega) (by omega)
  refine float_partial _ 53 1024 (ieee_binary 53 1024 1074 (by omega)) (by omega) c s h hg white rest d hr hw hd
    (by intro e; rw [e] at h1; simp at h1) hs ?_ (by omega) (by omega) (by omega)
  show Charconv.Spec.value 10 (d.whole ++ d.places) ≤ 2 ^ 53
  omega

/-- C81 for `float`: a decimal number of up to 7 digits is read as the nearest `float`. -/
theorem single_partial (c : ISCfg) (s : IS) (h : s.Ok c) (hg : s.ios.good = true) (white rest : List Ch) (d : Spec.Decimal)
    (hr : s.rest = white ++ (d.text ++ rest)) (hw : ∀ x ∈ white, Spec.White x) (hd : d.Wf) (hs : Spec.Stops rest)
    (h1 : 1 ≤ (d.whole ++ d.places).length) (h7 : (d.whole ++ d.places).length ≤ 7) :
    ∃ s', s.extractFloat (ieee 24 128 149) c = some (s', (ieee 24 128 149).round d.value) ∧
      Spec.Consumed c s (white.length + d.text.length) (if rest = [] then eofbit else 0) s' := by
  have hpl : d.places.length ≤ 7 := by simp at h7; omega
  have hm := value_lt _ hd
  have hm2 : 10 ^ (d.whole ++ d.places).length ≤ 10 ^ 7 := Nat.pow_le_pow_right (by omega) h7
  have h5 : (5 : Nat) ^ d.places.length ≤ 5 ^ 7 := Nat.pow_le_pow_right (by omega) hpl
  have h10 : (10 : Nat) ^ d.places.length ≤ 10 ^ 7 := Nat.pow_le_pow_right (by omega) hpl
  have hbig : (2 : Nat) ^ 24 < 2 ^ 128 := Nat.pow_lt_pow_right (by omega) (by omega)
  refine float_partial _ 24 128 (ieee_binary 24 128 149 (by omega)) (by omega) c s h hg white rest d hr hw hd
    (by intro e; rw [e] at h1; simp at h1) hs ?_ (by omega) (by omega) (by omega)
  show Charconv.Spec.value 10 (d.whole ++ d.places) ≤ 2 ^ 24
  omega

/-- " -3.25 " -/
def exampleIn : IS := IS.init [0x20, 0x2D, 0x33, 0x2E, 0x32, 0x35, 0x20]

example : ∃ (white rest : List Ch) (d : Spec.Decimal), exampleIn.rest = white ++ (d.text ++ rest) ∧ (∀ x ∈ white, Spec.White x) ∧
    d.Wf ∧ Spec.Stops rest ∧ 1 ≤ (d.whole ++ d.places).length ∧ (d.whole ++ d.places).length ≤ 7 ∧ d.value = -13 / 4 := by
  refine ⟨[0x20], [0x20], ⟨true, [3], some [2, 5]⟩, by decide, ?_, ?_, ?_, by decide, by decide, ?_⟩
  · intro x hx; rw [← isSpace_iff]; revert x; decide
  · unfold Spec.Decimal.Wf; decide
  · intro x r e; cases e; decide
  · norm_num [Spec.Decimal.value, Spec.Decimal.mantissa, Spec.Decimal.places, Charconv.Spec.value]

/-- C81 for several numbers: any number of decimal numbers, each preceded by white space and followed by something, are
read one after the other as the nearest numbers of the format; the stream stays good and stands behind the last. -/
theorem floats_partial (F : Fmt) (p emax : Nat) (hF : Spec.Binary F p emax) (hp : p < emax) (c : ISCfg)
    (items : List (List Ch × Spec.Decimal)) : ∀ (s : IS) (rest : List Ch), s.Ok c → s.ios.good = true →
    s.rest = (items.map fun i => i.1 ++ i.2.text).flatten ++ rest → rest ≠ [] → Spec.Stops rest →
    (∀ i ∈ items, i.1 ≠ [] ∧ (∀ x ∈ i.1, Spec.White x) ∧ i.2.Wf ∧ i.2.whole ++ i.2.places ≠ [] ∧ i.2.mantissa ≤ 2 ^ p ∧
      5 ^ i.2.places.length ≤ 2 ^ p ∧ 10 ^ i.2.places.length < 2 ^ emax ∧ i.2.places.length ≤ 254) →
    ∃ s', s.extractFloats F c items.length = some (s', items.map fun i => F.round i.2.value) ∧ s'.rest = rest ∧
      s'.ios = s.ios := by
  induction items with
  | nil => intro s rest _ _ hr _ _ _; exact ⟨s, rfl, by simpa using hr, rfl⟩
  | cons i items ih =>
    intro s rest h hg hr hne hs hi
    obtain ⟨i1, i2, i3, i4, i5, i6, i7, i8⟩ := hi i (by simp)
    have hnext : Spec.Stops ((items.map fun i => i.1 ++ i.2.text).flatten ++ rest) ∧
        (items.map fun i => i.1 ++ i.2.text).flatten ++ rest ≠ [] := by
      refine ⟨?_, by simp [hne]⟩
      cases items with
      | nil => simpa using hs
      | cons j items =>
        obtain ⟨j1, j2, _⟩ := hi j (by simp)
        intro x r e
        obtain ⟨y, ys, hy⟩ : ∃ y ys, j.1 = y :: ys := by
          cases hj : j.1 with
          | nil => exact absurd hj j1
          | cons y ys => exact ⟨y, ys, rfl⟩
        simp only [List.map_cons, List.flatten_cons, hy, List.cons_append, List.cons.injEq] at e
        have hwy := j2 y (by rw [hy]; simp)
        rw [e.1, ← isSpace_iff] at hwy
        clear e
        have key : ∀ x : Ch, isSpace x = true → (Charconv.Spec.digit 10 x.toNat).isSome = false ∧ x ≠ 0x2E := by decide +kernel
        exact key x hwy
    obtain ⟨s1, e1, c1, c2, c3, c4⟩ := float_partial F p emax hF hp c s h hg i.1 _ i.2 (by rw [hr]; simp) i2 i3 i4 hnext.1 i5 i6 i7 i8
    rw [if_neg hnext.2] at c3
    have hios : s1.ios = s.ios := by rw [c3, setstate_zero c.ios _ (good_fits c.ios hg)]
    have hrest : s1.rest = (items.map fun i => i.1 ++ i.2.text).flatten ++ rest := by
      rw [c1, hr, List.map_cons, List.flatten_cons, List.append_assoc, List.drop_left' (by simp)]
    have hok : s1.Ok c := by
      refine ⟨by rw [c2]; exact h.readable, ?_⟩
      by_contra hc
      have : s1.rest = [] := by unfold IS.rest; exact List.drop_eq_nil_iff.mpr (by omega)
      rw [hrest] at this
      exact hnext.2 this
    obtain ⟨s2, e2, d1, d2⟩ := ih s1 rest hok (by rw [hios]; exact hg) hrest hne hs (fun j hj => hi j (by simp [hj]))
    exact ⟨s2, by simp [IS.extractFloats, e1, e2], d1, by rw [d2, hios]⟩

/-- " 1.5 -2;" -/
example : ∃ (items : List (List Ch × Spec.Decimal)) (rest : List Ch),
    (IS.init [0x20, 0x31, 0x2E, 0x35, 0x20, 0x2D, 0x32, 0x3B]).rest = (items.map fun i => i.1 ++ i.2.text).flatten ++ rest ∧
    rest ≠ [] ∧ Spec.Stops rest ∧ items.length = 2 ∧
    (∀ i ∈ items, i.1 ≠ [] ∧ (∀ x ∈ i.1, Spec.White x) ∧ i.2.Wf ∧ i.2.whole ++ i.2.places ≠ [] ∧ i.2.mantissa ≤ 2 ^ 24 ∧
      5 ^ i.2.places.length ≤ 2 ^ 24 ∧ 10 ^ i.2.places.length < 2 ^ 128 ∧ i.2.places.length ≤ 254) := by
  refine ⟨[([0x20], ⟨false, [1], some [5]⟩), ([0x20], ⟨true, [2], none⟩)], [0x3B], by decide, by decide, ?_, rfl, ?_⟩
  · intro x r e; cases e; decide
  · have hw : ∀ x ∈ [(0x20 : Ch)], Spec.White x := by intro x hx; rw [← isSpace_iff]; revert x; decide
    intro i hi
    simp only [List.mem_cons, List.not_mem_nil, or_false] at hi
    rcases hi with rfl | rfl
    · refine ⟨by decide, hw, ?_, by decide, by decide, by decide, by norm_num [Spec.Decimal.places], by decide⟩
      unfold Spec.Decimal.Wf; decide
    · refine ⟨by decide, hw, ?_, by decide, by decide, by decide, by norm_num [Spec.Decimal.places], by decide⟩
      unfold Spec.Decimal.Wf; decide

/-- **Violation.** The count of places has 8 bits: with 255 or more digits behind the point it has become 0, and the
number is not divided at all: `0.` followed by 254 zeros and a 1 is read as 1, without `failbit`. -/
theorem float_many_places (F : Fmt) (p emax : Nat) (hF : Spec.Binary F p emax) (hp : p < emax) (c : ISCfg) (s : IS) (h : s.Ok c)
    (hg : s.ios.good = true) (white rest : List Ch) (d : Spec.Decimal) (hr : s.rest = white ++ (d.text ++ rest))
    (hw : ∀ x ∈ white, Spec.White x) (hd : d.Wf) (hs : Spec.Stops rest)
    (hm : d.mantissa ≤ 2 ^ p) (hk : 255 ≤ d.places.length) :
    ∃ s', s.extractFloat F c = some (s', .fin (d.value * 10 ^ d.places.length)) ∧
      Spec.Consumed c s (white.length + d.text.length) (if rest = [] then eofbit else 0) s' := by
  have hne : d.whole ++ d.places ≠ [] := by
    intro e
    have : d.places = [] := (List.append_eq_nil_iff.mp e).2
    rw [this] at hk; simp at hk
  obtain ⟨t1, t2⟩ := text_not_white d hd hne rest
  obtain ⟨s', e, hc⟩ := extractFloat_step F c s h hg white _ hr hw t2 t1
  rw [fpLoop_decimal F d hd rest hs (decimal_ne d hne)] at e hc
  have hfr : d.frac.isSome = true := by
    cases hf : d.frac with
    | none => simp [Spec.Decimal.places, hf] at hk
    | some f => rfl
  rw [accum_mantissa hF hp d hm, hfr] at e
  rw [placeAfter_many hk] at e
  refine ⟨s', ?_, ?_⟩
  · rw [e]
    simp only [fpFinal, if_true, ne_eq, not_true, if_false, Spec.Decimal.value]
    rw [div_mul_cancel₀ _ (by positivity)]
  · by_cases hre : rest = [] <;> simpa [hre] using hc

/-- the number `0.000…01` with `n` zeros behind the point -/
def Spec.tiny (n : Nat) : Spec.Decimal := ⟨false, [0], some (List.replicate n 0 ++ [1])⟩

theorem tiny_mantissa (n : Nat) : (Spec.tiny n).mantissa = 1 := by
  have hz : ∀ n, (List.replicate n 0).foldl (fun a d => a * 10 + d) 0 = 0 := by
    intro n
    induction n with
    | zero => rfl
    | succ n ih => simpa [List.replicate_succ] using ih
  simp [Spec.Decimal.mantissa, Spec.tiny, Spec.Decimal.places, Charconv.Spec.value, List.foldl_append, hz]

theorem tiny_wf (n : Nat) : (Spec.tiny n).Wf ∧ (Spec.tiny n).places.length = n + 1 := by
  refine ⟨?_, by simp [Spec.tiny, Spec.Decimal.places]⟩
  intro x hx
  simp [Spec.tiny, Spec.Decimal.places] at hx
  omega

example : (Spec.tiny 254).Wf ∧ (Spec.tiny 254).mantissa ≤ 2 ^ 53 ∧ 255 ≤ (Spec.tiny 254).places.length := by
  refine ⟨(tiny_wf 254).1, ?_, ?_⟩
  · rw [tiny_mantissa]; norm_num
  · rw [(tiny_wf 254).2]

/-- **Violation.** When the digits overflow the format and so does the power of ten they are divided by, the result is
not a number: for a `float`, any number whose first digit other than zero is followed by 43 or more digits, 43 to 254 of
them behind the point, such as `0.1` followed by 43 zeros, is read as NaN, without `failbit`. -/
theorem float_long_nan (F : Fmt) (p emax : Nat) (hF : Spec.Binary F p emax) (hp4 : 4 ≤ p) (hp : p < emax) (c : ISCfg) (s : IS)
    (h : s.Ok c) (hg : s.ios.good = true) (white rest : List Ch) (d : Spec.Decimal) (hr : s.rest = white ++ (d.text ++ rest))
    (hw : ∀ x ∈ white, Spec.White x) (hd : d.Wf) (hs : Spec.Stops rest) (zeros first : Nat) (more : List Nat)
    (hds : d.whole ++ d.places = List.replicate zeros 0 ++ first :: more) (hf : first ≠ 0) (hmore : emax < 3 * more.length)
    (hk : emax ≤ 3 * d.places.length) (hk2 : d.places.length ≤ 254) :
    ∃ s', s.extractFloat F c = some (s', .nan) ∧
      Spec.Consumed c s (white.length + d.text.length) (if rest = [] then eofbit else 0) s' := by
  have hne : d.whole ++ d.places ≠ [] := by rw [hds]; simp
  have hf10 : first < 10 := hd first (by rw [hds]; simp)
  obtain ⟨t1, t2⟩ := text_not_white d hd hne rest
  obtain ⟨s', e, hc⟩ := extractFloat_step F c s h hg white _ hr hw t2 t1
  rw [fpLoop_decimal F d hd rest hs (decimal_ne d hne)] at e hc
  have hfr : d.frac.isSome = true := by
    cases hfq : d.frac with
    | none => simp [Spec.Decimal.places, hfq] at hk; omega
    | some f => rfl
  rw [hds, accum_overflows hF hp4 hp _ zeros first (by omega) hf10 more hmore, hfr] at e
  rw [placeAfter_few hk2] at e
  refine ⟨s', ?_, ?_⟩
  · rw [e]
    simp only [fpFinal, if_true]
    rw [if_pos (by omega), show 1 + d.places.length - 1 = d.places.length by omega,
      divider_inf hF _ hk (by omega)]
    rfl
  · by_cases hre : rest = [] <;> simpa [hre] using hc

example : ∃ d : Spec.Decimal, d.Wf ∧ d.whole ++ d.places = List.replicate 1 0 ++ 1 :: List.replicate 43 0 ∧
    128 < 3 * (List.replicate 43 0).length ∧ 128 ≤ 3 * d.places.length ∧ d.places.length ≤ 254 := by
  refine ⟨⟨false, [0], some (1 :: List.replicate 43 0)⟩, ?_, by simp [Spec.Decimal.places], by simp, ?_, ?_⟩
  · intro x hx; simp [Spec.Decimal.places] at hx; omega
  · simp [Spec.Decimal.places]
  · simp [Spec.Decimal.places]

/-- **Violation.** A second decimal point does not end the number: it moves the point.  `1.2.3` is read as 12.3, all of
it. -/
theorem float_two_points (F : Fmt) (p emax : Nat) (hF : Spec.Binary F p emax) (hp : p < emax) (c : ISCfg) (s : IS) (h : s.Ok c)
    (hg : s.ios.good = true) (white rest : List Ch) (neg : Bool) (whole f g : List Nat)
    (hr : s.rest = white ++ (Spec.Decimal.text ⟨neg, whole, some f⟩ ++ (0x2E :: Spec.digits g ++ rest)))
    (hw : ∀ x ∈ white, Spec.White x) (hd : ∀ x ∈ whole ++ f ++ g, x < 10) (hs : Spec.Stops rest) (hwhole : whole ≠ [])
    (hm : Charconv.Spec.value 10 (whole ++ f ++ g) ≤ 2 ^ p) (h5 : 5 ^ g.length ≤ 2 ^ p) (h10 : 10 ^ g.length < 2 ^ emax)
    (hk : g.length ≤ 254) :
    ∃ s', s.extractFloat F c = some (s', F.round (Spec.Decimal.value ⟨neg, whole ++ f, some g⟩)) ∧
      Spec.Consumed c s (white.length + (Spec.Decimal.text ⟨neg, whole, some f⟩ ++ (0x2E :: Spec.digits g)).length)
        (if rest = [] then eofbit else 0) s' := by
  have hdw : ∀ x ∈ whole, x < 10 := fun x hx => hd x (by simp [hx])
  have hdf : ∀ x ∈ f, x < 10 := fun x hx => hd x (by simp [hx])
  have hdg : ∀ x ∈ g, x < 10 := fun x hx => hd x (by simp [hx])
  obtain ⟨t1, t2⟩ := text_not_white ⟨neg, whole, some f⟩ (by
    intro x hx; simp [Spec.Decimal.places] at hx; exact hd x (by simp; tauto)) (by simp [hwhole]) (0x2E :: Spec.digits g ++ rest)
  obtain ⟨s', e, hc⟩ := extractFloat_step F c s h hg white _ hr hw t2 t1
  have hloop : fpLoop F ⟨.start, 0, false, .fin 0⟩ 0 (Spec.Decimal.text ⟨neg, whole, some f⟩ ++ (0x2E :: Spec.digits g ++ rest)) =
      (⟨behind !neg, placeAfter 1 g.length, false, accum F (!neg) (.fin 0) (whole ++ f ++ g)⟩,
        (Spec.Decimal.text ⟨neg, whole, some f⟩ ++ (0x2E :: Spec.digits g)).length, decide (rest = [])) := by
    simp only [Spec.Decimal.text, List.append_assoc, List.cons_append]
    rw [fpLoop_signed F neg _ (fun _ => begins_digits whole hdw _ hwhole), fpLoop_digits F _ _ _ _ _ _ _ hdw, fpLoop_point,
      fpLoop_digits F _ _ _ _ _ _ _ hdf, fpLoop_point, fpLoop_digits F _ _ _ _ _ _ _ hdg, fpLoop_stop F _ _ _ hs]
    simp only [accum, List.foldl_append]
    simp [Spec.digits]
    cases neg <;> simp <;> omega
  rw [hloop] at e hc
  have := decimal_final hF hp ⟨neg, whole ++ f, some g⟩ (behind !neg) hm h5 h10 hk
  simp only [Option.isSome_some, if_true, Spec.Decimal.places, Option.getD_some] at this
  rw [this] at e
  refine ⟨s', e, ?_⟩
  by_cases hre : rest = [] <;> simpa [hre] using hc

example : Spec.Decimal.text ⟨false, [1], some [2]⟩ ++ (0x2E :: Spec.digits [3]) = [0x31, 0x2E, 0x32, 0x2E, 0x33] ∧
    Charconv.Spec.value 10 ([1] ++ [2] ++ [3]) = 123 ∧ Spec.Decimal.value ⟨false, [1] ++ [2], some [3]⟩ = 123 / 10 := by
  refine ⟨by decide, by decide, ?_⟩
  norm_num [Spec.Decimal.value, Spec.Decimal.mantissa, Spec.Decimal.places, Charconv.Spec.value]

/-- **Violation.** A text without digits is accepted: `-`, a lone point, or `-` and any number of points store 0 and do
not set `failbit`. -/
theorem float_no_digits (F : Fmt) (p emax : Nat) (hF : Spec.Binary F p emax) (hp : p < emax) (c : ISCfg) (s : IS) (h : s.Ok c)
    (hg : s.ios.good = true) (white rest : List Ch) (neg : Bool) (points : Nat)
    (hr : s.rest = white ++ ((if neg then [0x2D] else []) ++ (List.replicate points 0x2E ++ rest)))
    (hw : ∀ x ∈ white, Spec.White x) (hs : Spec.Stops rest) (hne : neg = true ∨ points ≠ 0) :
    ∃ s', s.extractFloat F c = some (s', .fin 0) ∧
      Spec.Consumed c s (white.length + ((if neg then 1 else 0) + points)) (if rest = [] then eofbit else 0) s' := by
  have hpts : ∀ (n d i : Nat), fpLoop F ⟨behind !neg, d, false, .fin 0⟩ i (List.replicate n 0x2E ++ rest) =
      (⟨behind !neg, if n = 0 then d else 1, false, .fin 0⟩, i + n, decide (rest = [])) := by
    intro n
    induction n with
    | zero => intro d i; simpa using fpLoop_stop F (!neg) false rest hs d (.fin 0) i
    | succ n ih =>
      intro d i
      rw [List.replicate_succ, List.cons_append, fpLoop_point, ih]
      simp; omega
  have hwhite : ∀ x r, (if neg then [0x2D] else []) ++ (List.replicate points 0x2E ++ rest) = x :: r → ¬ Spec.White x := by
    intro x r e
    rw [← isSpace_iff]
    cases neg with
    | true => simp only [if_true, List.cons_append, List.cons.injEq] at e; rw [← e.1]; decide
    | false =>
      cases points with
      | zero => simp at hne
      | succ n =>
        simp only [Bool.false_eq_true, if_false, List.nil_append, List.replicate_succ, List.cons_append, List.cons.injEq] at e
        rw [← e.1]; decide
  obtain ⟨s', e, hc⟩ := extractFloat_step F c s h hg white _ hr hw hwhite (by
    cases neg with
    | true => simp
    | false => simp at hne; simp [hne])
  rw [fpLoop_signed F neg _ (by
    intro hn
    subst hn
    cases points with
    | zero => simp at hne
    | succ n => exact ⟨_, _, rfl, Or.inr rfl⟩), hpts] at e hc
  have h0 : fpFinal F ⟨behind !neg, if points = 0 then 0 else 1, false, .fin 0⟩ = .fin 0 := by
    unfold fpFinal
    by_cases hz : points = 0
    · simp [hz]
    · have := exact_int hF hp true 0 (Nat.zero_le _)
      simp [hz, fpDivider, Fmt.div] at this ⊢
      exact this
  rw [h0] at e
  refine ⟨s', e, ?_⟩
  by_cases hre : rest = [] <;> simpa [hre] using hc

example : Spec.Stops [0x20] ∧ (IS.init [0x2D, 0x2E, 0x20]).rest = [] ++ ((if true then [0x2D] else []) ++ (List.replicate 1 0x2E ++ [0x20])) := by
  refine ⟨?_, by decide⟩
  intro x r e; cases e; decide

/-- **Violation.** An exponent is not part of the number: in `2.5e3` the number 2.5 is read, and the stream stands at the
`e`. -/
theorem float_exponent_left (F : Fmt) (p emax : Nat) (hF : Spec.Binary F p emax) (hp : p < emax) (c : ISCfg) (s : IS) (h : s.Ok c)
    (hg : s.ios.good = true) (d : Spec.Decimal) (rest : List Ch) (e : Ch) (he : e = 0x65 ∨ e = 0x45) (hr : s.rest = d.text ++ e :: rest)
    (hd : d.Wf) (hne : d.whole ++ d.places ≠ []) (hm : d.mantissa ≤ 2 ^ p)
    (h5 : 5 ^ d.places.length ≤ 2 ^ p) (h10 : 10 ^ d.places.length < 2 ^ emax) (hk : d.places.length ≤ 254) :
    ∃ s', s.extractFloat F c = some (s', F.round d.value) ∧ s'.rest = e :: rest ∧ s'.ios = s.ios := by
  obtain ⟨s', e1, c1, _, c3, _⟩ := float_partial F p emax hF hp c s h hg [] (e :: rest) d (by simpa using hr) (by simp) hd hne
    (by intro x r q; cases q; rcases he with rfl | rfl <;> decide) hm h5 h10 hk
  refine ⟨s', e1, ?_, ?_⟩
  · rw [c1, hr, List.drop_left' (by simp)]
  · rw [c3, if_neg (by simp), setstate_zero c.ios _ (good_fits c.ios hg)]

example : (IS.init [0x32, 0x2E, 0x35, 0x65, 0x33]).rest = Spec.Decimal.text ⟨false, [2], some [5]⟩ ++ 0x65 :: [0x33] := by decide

/-- C81, what is refused: a text that begins with anything but a digit, a point or `-` (white space apart) sets
`failbit`, stores 0 and leaves the stream there.  That includes `+`. -/
theorem float_refused (F : Fmt) (c : ISCfg) (s : IS) (h : s.Ok c) (hg : s.ios.good = true) (white text : List Ch) (x : Ch)
    (hr : s.rest = white ++ x :: text) (hw : ∀ x ∈ white, Spec.White x) (hx : ¬ Spec.White x)
    (hd : (Charconv.Spec.digit 10 x.toNat).isSome = false) (hp : x ≠ 0x2E) (hm : x ≠ 0x2D) :
    ∃ s', s.extractFloat F c = some (s', .fin 0) ∧ Spec.Consumed c s white.length failbit s' := by
  obtain ⟨s', e, hc⟩ := extractFloat_step F c s h hg white (x :: text) hr hw (by intro y r q; cases q; exact hx) (by simp)
  have h3 : Charconv.Spec.digit 10 x.toNat = none := by
    cases hq : Charconv.Spec.digit 10 x.toNat
    · rfl
    · rw [hq] at hd; simp at hd
  have h4 : x.toNat ≠ 46 := fun q => hp (BitVec.eq_of_toNat_eq q)
  have h5 : x.toNat ≠ 45 := fun q => hm (BitVec.eq_of_toNat_eq q)
  have hl : fpLoop F ⟨.start, 0, false, .fin 0⟩ 0 (x :: text) = (⟨.nomPos, 0, true, .fin 0⟩, 0, false) := by
    simp [fpLoop, fpStep, h5, fpNominal, Charconv.from_char_spec 10 x.toNat (by omega) (by omega) x.isLt, h3, h4]
  rw [hl] at e hc
  exact ⟨s', e, by simpa using hc⟩

example : (IS.init [0x20, 0x2B, 0x31]).rest = [0x20] ++ 0x2B :: [0x31] ∧ ¬ Spec.White 0x2B ∧
    (Charconv.Spec.digit 10 (0x2B : Ch).toNat).isSome = false := by
  refine ⟨by decide, ?_, by decide⟩
  rw [← isSpace_iff]; decide

/-- **Violation.** With nothing but white space left `in >> x` sets `failbit` and stores 0, but does not set `eofbit`. -/
theorem float_at_end (F : Fmt) (c : ISCfg) (s : IS) (h : s.Ok c) (hg : s.ios.good = true) (hw : ∀ x ∈ s.rest, Spec.White x) :
    ∃ s', s.extractFloat F c = some (s', .fin 0) ∧ Spec.Consumed c s s.rest.length failbit s' ∧ s'.ios.eof = false := by
  have e1 : s.rest.takeWhile isSpace = s.rest := by
    have := List.takeWhile_append_of_pos (p := isSpace) (l₁ := s.rest) (l₂ := []) (fun x hm => (isSpace_iff x).mpr (hw x hm))
    simpa using this
  have hrl := rest_length h.inside
  have hi := h.inside
  have hend : s.buf.pos + s.rest.length = s.buf.data.length := by omega
  have hg2 := sgetc_rest c.inp ⟨s.buf.data, s.buf.data.length⟩ [] h.readable (by simp) (by simp)
  have hff : Charconv.Spec.digit 10 255 = none := by simp [Charconv.Spec.digit, Charconv.Spec.digitVal]
  have hstep : fpStep F ⟨.start, 0, false, .fin 0⟩ (toChar eofCode).toNat = (⟨.nomPos, 0, true, .fin 0⟩, true) := by
    have e : (toChar eofCode).toNat = 255 := by decide
    rw [e]
    simp [fpStep, fpNominal, Charconv.from_char_spec 10 255 (by omega) (by omega) (by omega), hff]
  refine ⟨⟨⟨s.buf.data, s.buf.pos + s.rest.length⟩, s.ios.setstate c.ios failbit, 0⟩, ?_, ⟨rest_consumed c s _ _ _, rfl, rfl, rfl⟩, ?_⟩
  · unfold IS.extractFloat
    rw [ws_eq c s h hg, e1, hend]
    simp only [fpExtract, BufIt.equal, Bool.false_and, Bool.false_eq_true, if_false, Bool.not_false, Bool.not_true,
      Bool.and_false, BufIt.deref, hg2, hstep, if_true, IS.setstate, BitVec.or_assoc, setstate_rdstate]
    simp [fpFinal]
  · simp only [Ios.eof, Ios.setstate, Ios.rdstate, good_state hg]
    unfold IosCfg.truncState
    split <;> simp [failbit, eofbit]

example : ∀ x ∈ (IS.init [0x20, 0x0A]).rest, Spec.White x := by
  intro x hx; rw [← isSpace_iff]; revert x; decide

end Verif.Streams
