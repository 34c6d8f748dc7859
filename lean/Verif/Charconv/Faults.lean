import Verif.Charconv.NumGet
/-!
# Where the number conversions depart from their documentation (C16, C17, C20)

Each departure for every type, base and text it concerns, not one example of it.
-/
namespace Verif.Charconv
open Verif

/-! ## C16: `to_chars_exp` and the sign -/

theorem revLoop_past (tc : Nat → Nat) (base first last last' : Nat) (m : List Nat) (cur v : Nat) (h : last < cur)
    (r : List Nat × Nat) (hr : revLoop tc base first last' m cur v = some (r.1, r.2, .ok)) :
    revLoop tc base first last m cur v = some (r.1, r.2, .ok) := by
  induction hk : m.length - cur generalizing m cur v with
  | zero =>
    rw [revLoop] at hr
    split at hr
    · simp at hr
    · rw [dif_neg (by omega)] at hr; cases hr
  | succ k ih =>
    rw [revLoop] at hr ⊢
    rw [if_neg (by omega)]
    split at hr
    · simp at hr
    · rw [dif_pos (by omega)] at hr ⊢
      simp only at hr ⊢
      split at hr
      · rename_i h0
        rw [if_pos h0]; exact hr
      · rename_i h0
        rw [if_neg h0]
        exact ih _ _ _ (by omega) hr (by simp; omega)

/-- C16: **Violation.** Given an empty buffer and a negative value, `to_chars_exp` reports success and writes the whole
numeral behind the buffer, for every signed type, base and value but the minimum, wherever there is memory to write to;
`to_chars` reports `value_too_large` and writes nothing. -/
theorem to_chars_exp_sign_overrun (t : IntTy) (m : List Nat) (first : Nat) (v : Int) (base : Nat)
    (hb : 2 ≤ base) (hb' : base ≤ 36) (hv : InRange t v) (hn : v < 0) (hmin : v ≠ t.min)
    (txt : List Nat) (htxt : Spec.IsNumeral base v txt) (hroom : first + txt.length ≤ m.length) :
    ∃ m', toCharsExp t m first first v base = some (m', first + txt.length, .ok) ∧ Spec.Holds m' first txt := by
  have hlen : 2 ≤ txt.length := by
    have := (isNumeral_iff base v hb txt).1 htxt
    have h2 := text_length base v hb
    have := digits_ne_nil base v.natAbs hb
    rw [← List.length_pos_iff] at this
    simp only [hn, if_true] at h2
    subst txt; omega
  obtain ⟨m', -, h2⟩ := to_chars_exp_partial t m first m.length v base hb hb' hv (fun h => hmin h.2) (by omega)
    (Nat.le_refl _) (by omega) txt htxt
  rw [if_pos (by omega)] at h2
  refine ⟨m', ?_, h2.2⟩
  have h3 := h2.1
  have hs : t.signed = true := by
    cases hs : t.signed with
    | true => rfl
    | false => have := hv.1; unfold IntTy.min at this; simp [hs] at this; omega
  have hle : ¬ (-v > t.max) := by
    have := hv.1; unfold IntTy.min at this hmin; simp [hs] at this hmin; omega
  unfold toCharsExp at h3 ⊢
  simp only [hs, hn, decide_true, Bool.and_self, if_true, hle, if_false, wr_lt (show first < m.length by omega)] at h3 ⊢
  exact revLoop_past _ _ _ _ _ _ _ _ (by omega) (m', first + txt.length) h3

example : InRange ⟨true, 127⟩ (-4) ∧ Spec.IsNumeral 10 (-4) [45, 52] ∧
    toCharsExp ⟨true, 127⟩ [9, 9, 9] 1 1 (-4) 10 = some ([9, 45, 52], 3, .ok) := by
  refine ⟨by simp [InRange, IntTy.min], .inr ⟨by omega, [52], rfl, [4], by simp, by simp, by simp, ?_, by simp⟩,
    by decide +kernel⟩
  decide

/-! ## C17: `from_chars` -/

/-- C17: **Violation.** A `-` alone is the number 0, for every signed type and base. -/
theorem from_chars_lone_minus (t : IntTy) (m : List Nat) (first base : Nat) (hs : t.signed = true)
    (h : Spec.Holds m first [45]) : fromChars t m first (first + 1) base = some ⟨first + 1, .ok, some 0⟩ := by
  obtain ⟨hlt, hc, -⟩ := holds_cons h
  simp [fromChars, hs, rd_lt hlt, hc, fromLoop]

example : Spec.Holds [45, 120] 0 [45] ∧ Spec.parse ⟨true, 127⟩ 10 [45] = (0, .invalidArgument, none) :=
  ⟨by intro i hi; simp at hi; subst hi; rfl, by decide +kernel⟩

/-- C17: **Violation.** A `-` before something that is not a digit is the number 0 and is consumed, for every signed
type, base and text. -/
theorem from_chars_minus_nondigit (t : IntTy) (m : List Nat) (first last base c : Nat) (rest : List Nat)
    (hb : 2 ≤ base) (hb' : base ≤ 36) (hs : t.signed = true) (h : Spec.Holds m first (45 :: c :: rest))
    (hl : first + (45 :: c :: rest).length = last) (hc : c < 256) (hd : Spec.digit base c = none) :
    fromChars t m first last base = some ⟨first + 1, .ok, some 0⟩ := by
  obtain ⟨hlt, h45, ht⟩ := holds_cons h
  obtain ⟨hlt2, hc2, -⟩ := holds_cons ht
  simp only [fromChars, hs, if_true, rd_lt hlt, h45]
  rw [fromLoop, if_neg (by simp at hl; omega), dif_pos hlt2, hc2, from_char_spec base c hb hb' hc, hd]
  simp

example : Spec.digit 10 120 = none ∧ fromChars ⟨true, 127⟩ [45, 120] 0 2 10 = some ⟨1, .ok, some 0⟩ ∧
    Spec.parse ⟨true, 127⟩ 10 [45, 120] = (0, .invalidArgument, none) := by decide +kernel

/-- C17: **Violation.** The smallest value of a signed type cannot be read: its numeral is reported out of range in every
base, whatever follows it. -/
theorem from_chars_min_refused (t : IntTy) (m : List Nat) (first last base : Nat) (txt rest : List Nat)
    (hb : 2 ≤ base) (hb' : base ≤ 36) (hs : t.signed = true) (htxt : Spec.IsNumeral base t.min txt)
    (h : Spec.Holds m first (txt ++ rest)) (hl : first + (txt ++ rest).length = last)
    (hrest : ∀ c ∈ rest, c < 256) (hnd : ∀ c, rest.head? = some c → Spec.digit base c = none) :
    (∃ p, fromChars t m first last base = some ⟨p, .outOfRange, none⟩) ∧
    Spec.parse t base (txt ++ rest) = (txt.length, .ok, some t.min) := by
  have hmin : t.min = -(t.max + 1 : Int) := by simp [IntTy.min, hs]
  have htxt' := (isNumeral_iff base _ hb txt).1 htxt
  have hneg : t.min < 0 := by omega
  have habs : t.min.natAbs = t.max + 1 := by omega
  unfold text at htxt'
  rw [if_pos hneg, habs] at htxt'
  have hdig := natText_digit base (t.max + 1) hb hb'
  have hfm := filterMap_natText base (t.max + 1) hb hb'
  have hval := digits_value base (t.max + 1) hb
  have hne : natText base (t.max + 1) hb ≠ [] := by
    unfold natText; simpa using digits_ne_nil base (t.max + 1) hb
  generalize hds : natText base (t.max + 1) hb = ds at *
  have htw : (ds ++ rest).takeWhile (fun c => (Spec.digit base c).isSome) = ds := by
    rw [List.takeWhile_append_of_pos (fun c hc => (hdig c hc).1)]
    cases rest with
    | nil => simp
    | cons c r => simp [hnd c rfl]
  subst htxt'
  obtain ⟨hlt, hc, ht⟩ := holds_cons (l := ds ++ rest) h
  have key := fromLoop_spec t base hb hb' m first last true (first + 1) 0 (ds ++ rest) ht
    (by simp at hl ⊢; omega)
    (by intro x hx; rcases List.mem_append.1 hx with hx | hx; exact (hdig x hx).2.1; exact hrest x hx) (by omega)
    (by omega) (by omega)
  simp only [htw] at key
  have hacc : accum base 0 ds = t.max + 1 := by rw [← hval, ← hfm]; rfl
  obtain ⟨p, hp, -⟩ := key.2 (by rw [hacc]; omega)
  refine ⟨⟨p, by simp only [fromChars, hs, if_true, rd_lt hlt, hc]; exact hp⟩, ?_⟩
  unfold Spec.parse
  simp only [hs, Bool.true_and, List.cons_append, List.head?_cons, beq_self_eq_true, if_true, List.tail_cons, htw, hne,
    if_false, hfm, hval, Nat.le_refl, List.length_cons]
  rw [hmin, Nat.add_comm]
  simp

example : Spec.IsNumeral 10 (IntTy.min ⟨true, 127⟩) [45, 49, 50, 56] ∧
    fromChars ⟨true, 127⟩ [45, 49, 50, 56] 0 4 10 = some ⟨4, .outOfRange, none⟩ := by
  refine ⟨.inr ⟨by decide, [49, 50, 56], rfl, [1, 2, 8], by simp, by simp, by simp, ?_, by simp⟩, by decide +kernel⟩
  decide

theorem fromLoop_overflow (t : IntTy) (base : Nat) (hb : 2 ≤ base) (hb' : base ≤ 36) (m : List Nat)
    (first last : Nat) (neg : Bool) (cur loc : Nat) (ds l : List Nat) (h : Spec.Holds m cur (ds ++ l))
    (hl : cur + (ds ++ l).length = last) (hds : ∀ c ∈ ds, c < 256 ∧ (Spec.digit base c).isSome = true)
    (hloc : loc ≤ t.max) (hov : t.max < accum base loc ds) :
    fromLoop t (facet base) base m first last neg cur loc =
      some ⟨cur + ds.length + (l.takeWhile (fun c => (Spec.digit (facet base) c).isSome)).length, .outOfRange, none⟩ := by
  have hfac : base ≤ facet base ∧ 2 ≤ facet base ∧ facet base ≤ 36 := by unfold facet; split <;> omega
  have hff : facet (facet base) = facet base := by unfold facet; split <;> simp
  have hfun : (fun c => isInBase (facet base) c (facet base)) = fun c => (Spec.digit (facet base) c).isSome := by
    funext c
    have := is_in_base_spec (facet base) c hfac.2.1 hfac.2.2
    rw [hff] at this
    exact this
  have hmono : ∀ c, (Spec.digit base c).isSome = true → (Spec.digit (facet base) c).isSome = true := by
    intro c hc
    unfold Spec.digit at hc ⊢
    cases hd : Spec.digitVal c with
    | none => simp [hd] at hc
    | some d =>
      simp only [hd] at hc ⊢
      split at hc
      · rw [if_pos (by omega)]; rfl
      · cases hc
  induction ds generalizing cur loc with
  | nil => simp [accum] at hov; omega
  | cons c ds ih =>
    obtain ⟨hlt, hc, ht⟩ := holds_cons (l := ds ++ l) h
    simp at hl
    obtain ⟨d, hd⟩ := Option.isSome_iff_exists.1 (hds c (by simp)).2
    rw [fromLoop, if_neg (by omega), dif_pos hlt, hc, from_char_spec base c hb hb' (hds c (by simp)).1, hd]
    have hacc : accum base loc (c :: ds) = accum base (loc * base + d) ds := by simp [accum, hd]
    rw [hacc] at hov
    simp only
    by_cases ho : (decide (loc * base > t.max) || decide (loc * base + d > t.max)) = true
    · rw [if_pos ho, skipDigits_spec _ m last (cur + 1) (ds ++ l) ht (by simp; omega), hfun,
        List.takeWhile_append_of_pos (fun c hc => hmono c (hds c (by simp [hc])).2)]
      simp; omega
    · rw [if_neg ho, ih (cur + 1) (loc * base + d) ht (by simp; omega) (fun c hc => hds c (by simp [hc]))
        (by simp at ho; omega) hov]
      simp; omega

/-- C17: where `from_chars` points after a number out of range: past the digits of the number and then past every
character that would be a digit in base 10 (for bases up to 10) or 36 (for the others). -/
theorem from_chars_overflow_ptr (t : IntTy) (m : List Nat) (first last base : Nat) (ds rest : List Nat)
    (hb : 2 ≤ base) (hb' : base ≤ 36) (h : Spec.Holds m first (ds ++ rest)) (hl : first + (ds ++ rest).length = last)
    (hds : ∀ c ∈ ds, c < 256 ∧ (Spec.digit base c).isSome = true)
    (hov : t.max < Spec.value base (ds.filterMap (Spec.digit base))) :
    fromChars t m first last base = some ⟨first + ds.length +
      (rest.takeWhile (fun c => (Spec.digit (if base ≤ 10 then 10 else 36) c).isSome)).length, .outOfRange, none⟩ := by
  have hf : (if base ≤ 10 then 10 else 36) = facet base := by unfold facet; split <;> split <;> omega
  have key := fromLoop_overflow t base hb hb' m first last false first 0 ds rest h hl hds (by omega) hov
  rw [hf, ← key]
  unfold fromChars
  cases ds with
  | nil => simp [Spec.value] at hov
  | cons c ds =>
    obtain ⟨hlt, hc, -⟩ := holds_cons (l := ds ++ rest) h
    have : c ≠ 45 := by
      intro he; subst he
      have := (hds 45 (by simp)).2
      simp [Spec.digit, Spec.digitVal] at this
    simp [rd_lt hlt, hc, this]

/-- C17: **Violation.** In every base but 10 and 36 there is a character that is not a digit of the base and that
`from_chars` skips after a number out of range: the pointer is then not the end of the number. -/
theorem from_chars_overflow_ptr_wrong (base : Nat) (hb : 2 ≤ base) (hb' : base < 36) (h10 : base ≠ 10) :
    ∃ c, c < 256 ∧ Spec.digit base c = none ∧ ∀ (t : IntTy) (m : List Nat) (first : Nat) (ds : List Nat),
      Spec.Holds m first (ds ++ [c]) → (∀ c ∈ ds, c < 256 ∧ (Spec.digit base c).isSome = true) →
      t.max < Spec.value base (ds.filterMap (Spec.digit base)) →
      fromChars t m first (first + ds.length + 1) base = some ⟨first + ds.length + 1, .outOfRange, none⟩ := by
  refine ⟨if base < 10 then 57 else 122, by split <;> omega, ?_, ?_⟩
  · split
    · simp [Spec.digit, Spec.digitVal]; omega
    · simp [Spec.digit, Spec.digitVal]; omega
  · intro t m first ds h hds hov
    have := from_chars_overflow_ptr t m first _ base ds _ hb (by omega) h rfl hds hov
    simp only [List.length_append, List.length_cons, List.length_nil, Nat.zero_add, ← Nat.add_assoc] at this
    rw [this]
    have hd : (Spec.digit (if base ≤ 10 then 10 else 36) (if base < 10 then 57 else 122)).isSome = true := by
      by_cases h : base < 10
      · rw [if_pos h, if_pos (by omega)]; decide
      · rw [if_neg h, if_neg (by omega)]; decide
    simp [hd]

example : Spec.Holds [55, 55, 55, 57] 0 ([55, 55, 55] ++ [57]) ∧ Spec.digit 8 57 = none ∧
    (∀ c ∈ [55, 55, 55], c < 256 ∧ (Spec.digit 8 c).isSome = true) ∧
    127 < Spec.value 8 ([55, 55, 55].filterMap (Spec.digit 8)) ∧
    fromChars ⟨true, 127⟩ [55, 55, 55, 57] 0 4 8 = some ⟨4, .outOfRange, none⟩ :=
  ⟨by intro i _; simp, by decide, by decide, by decide +kernel, by decide +kernel⟩

theorem fromLoop_past (t : IntTy) (base : Nat) (hb : 2 ≤ base) (hb' : base ≤ 36) (m : List Nat)
    (first last : Nat) (neg : Bool) (cur loc : Nat) (ds : List Nat) (c : Nat) (h : Spec.Holds m cur (ds ++ [c]))
    (hl : last < cur) (hf : first < cur) (hds : ∀ c ∈ ds, c < 256 ∧ (Spec.digit base c).isSome = true)
    (hc : c < 256) (hd : Spec.digit base c = none) (hfit : accum base loc ds ≤ t.max) :
    fromLoop t (facet base) base m first last neg cur loc = some ⟨cur + ds.length, .ok, some (accum base loc ds)⟩ := by
  induction ds generalizing cur loc with
  | nil =>
    obtain ⟨hlt, hc', -⟩ := holds_cons (l := []) h
    rw [fromLoop, if_neg (by omega), dif_pos hlt, hc', from_char_spec base c hb hb' hc, hd]
    simp only
    rw [if_neg (by omega)]
    simp [accum]
  | cons x ds ih =>
    obtain ⟨hlt, hx, ht⟩ := holds_cons (l := ds ++ [c]) h
    obtain ⟨d, hxd⟩ := Option.isSome_iff_exists.1 (hds x (by simp)).2
    rw [fromLoop, if_neg (by omega), dif_pos hlt, hx, from_char_spec base x hb hb' (hds x (by simp)).1, hxd]
    have hacc : accum base loc (x :: ds) = accum base (loc * base + d) ds := by simp [accum, hxd]
    rw [hacc] at hfit ⊢
    have hle := le_accum base (loc * base + d) (by omega) ds
    simp only
    rw [if_neg (by simp; omega), ih (cur + 1) (loc * base + d) ht (by omega) (by omega)
      (fun c hc => hds c (by simp [hc])) hfit]
    simp; omega

/-- C17: **Violation.** Given an empty range and a signed type `from_chars` reads the character behind it: with no memory
there it is undefined; a character other than `-` makes it report the number 0; a `-` makes it read the number that
follows, of which the range holds nothing, and point behind it. -/
theorem from_chars_empty_signed (t : IntTy) (m : List Nat) (first base : Nat) (hb : 2 ≤ base) (hb' : base ≤ 36)
    (hs : t.signed = true) :
    (m.length ≤ first → fromChars t m first first base = none) ∧
    (∀ c, Spec.Holds m first [c] → c ≠ 45 → fromChars t m first first base = some ⟨first, .ok, some 0⟩) ∧
    (∀ ds c, Spec.Holds m first (45 :: (ds ++ [c])) → (∀ c ∈ ds, c < 256 ∧ (Spec.digit base c).isSome = true) →
      c < 256 → Spec.digit base c = none → Spec.value base (ds.filterMap (Spec.digit base)) ≤ t.max →
      fromChars t m first first base =
        some ⟨first + 1 + ds.length, .ok, some (Spec.value base (ds.filterMap (Spec.digit base)))⟩) := by
  refine ⟨fun h => ?_, fun c h hc => ?_, fun ds c h hds hc hd hfit => ?_⟩
  · simp [fromChars, hs, rd, List.getElem?_eq_none h]
  · obtain ⟨hlt, hc', -⟩ := holds_cons h
    simp [fromChars, hs, rd_lt hlt, hc', hc, fromLoop]
  · obtain ⟨hlt, hc', ht⟩ := holds_cons h
    simp only [fromChars, hs, if_true, rd_lt hlt, hc']
    exact fromLoop_past t base hb hb' m first first true (first + 1) 0 ds c ht (by omega) (by omega) hds hc hd hfit

example : fromChars ⟨true, 127⟩ [45, 52, 50, 9] 0 0 10 = some ⟨3, .ok, some 42⟩ := by decide +kernel

/-! ## C20: where the incremental parser stops after an overflow -/

theorem overflow_position (t : IntTy) (base : Nat) (hb : 2 ≤ base) (hb' : base ≤ 36) (s : NumState)
    (hs : s.st = .overflow) (i : Nat) (l : List Nat) (hcode : ∀ c ∈ l, c < 256) :
    (numLoop t base s i l).2 = (i + (l.takeWhile (fun c => (Spec.digit base c).isNone)).length,
      l.all (fun c => (Spec.digit base c).isNone)) := by
  induction l generalizing i with
  | nil => rfl
  | cons c l ih =>
    simp only [numLoop, numStep, hs, from_char_spec base c hb hb' (hcode c (by simp))]
    cases hd : Spec.digit base c with
    | none =>
      simp only [Option.isSome_none]
      rw [ih (i + 1) (fun c hc => hcode c (by simp [hc]))]
      simp [hd]; omega
    | some d => simp [hd]

theorem nom_overflow (t : IntTy) (base : Nat) (hb : 2 ≤ base) (hb' : base ≤ 36) (pos : Bool)
    (hpos : pos = false → t.signed = true) (ds : List Nat) (d : Nat) (rest : List Nat)
    (hds : ∀ c ∈ ds, (Spec.digit base c).isSome = true) (hd : (Spec.digit base d).isSome = true)
    (hcode : ∀ c ∈ ds ++ d :: rest, c < 256) (loc i : Nat)
    (hfit : accum base loc ds ≤ bound t pos) (hov : bound t pos < accum base loc (ds ++ [d])) :
    (numLoop t base ⟨if pos then NSt.nomPos else NSt.nomNeg, false, sgn pos loc⟩ i (ds ++ d :: rest)).2 =
      (i + ds.length + 1 + (rest.takeWhile (fun c => (Spec.digit base c).isNone)).length,
        rest.all (fun c => (Spec.digit base c).isNone)) := by
  have hstep : ∀ c v, numStep t base ⟨if pos then NSt.nomPos else NSt.nomNeg, false, v⟩ c =
      nominal t base pos ⟨if pos then NSt.nomPos else NSt.nomNeg, false, v⟩ c := by
    intro c v; cases pos <;> rfl
  induction ds generalizing loc i with
  | nil =>
    obtain ⟨n, hn⟩ := Option.isSome_iff_exists.1 hd
    have hr := raise_spec t base pos loc n hpos
    simp [accum, hn] at hov
    rw [if_neg (by omega)] at hr
    simp only [List.nil_append, numLoop, hstep, nominal, from_char_spec base d hb hb' (hcode d (by simp)), hn, hr]
    rw [overflow_position t base hb hb' _ rfl _ _ (fun c hc => hcode c (by simp [hc]))]
    simp
  | cons c ds ih =>
    obtain ⟨n, hn⟩ := Option.isSome_iff_exists.1 (hds c (by simp))
    have hr := raise_spec t base pos loc n hpos
    have h1 : ∀ l, accum base loc (c :: l) = accum base (loc * base + n) l := by intro l; simp [accum, hn]
    rw [h1] at hfit
    rw [List.cons_append, h1] at hov
    have hle := le_accum base (loc * base + n) (by omega) ds
    rw [if_pos (by omega)] at hr
    simp only [List.cons_append, numLoop, hstep, nominal, from_char_spec base c hb hb' (hcode c (by simp)), hn, hr]
    rw [ih (fun c hc => hds c (by simp [hc])) (fun c hc => hcode c (List.mem_cons_of_mem _ hc)) (loc * base + n) (i + 1)
      hfit hov]
    simp; omega

/-- C20: **Violation.** After an overflow the parser stops *at the next digit* instead of at the next character that is
not one: the number is the digits `ds`, with `d` the first that makes it leave the range; the text read is `ds`, `d` and
what follows up to the next digit, and eofbit tells that none follows.  For every type, base and text, with or without a
minus. -/
theorem num_get_overflow_position (t : IntTy) (base : Nat) (hb : 2 ≤ base) (hb' : base ≤ 36) (neg : Bool)
    (hneg : neg = true → t.signed = true) (ds : List Nat) (d : Nat) (rest : List Nat)
    (hds : ∀ c ∈ ds, (Spec.digit base c).isSome = true) (hd : (Spec.digit base d).isSome = true)
    (hcode : ∀ c ∈ ds ++ d :: rest, c < 256)
    (hfit : Spec.value base (ds.filterMap (Spec.digit base)) ≤ if neg then t.max + 1 else t.max)
    (hov : (if neg then t.max + 1 else t.max) < Spec.value base ((ds ++ [d]).filterMap (Spec.digit base))) :
    (numGet t base ((if neg then [45] else []) ++ ds ++ d :: rest)).2 =
      ((if neg then 1 else 0) + ds.length + 1 + (rest.takeWhile (fun c => (Spec.digit base c).isNone)).length,
        rest.all (fun c => (Spec.digit base c).isNone)) := by
  cases neg with
  | true =>
    have hsig := hneg rfl
    have key := nom_overflow t base hb hb' false (fun _ => hsig) ds d rest hds hd hcode 0 1
      (by simpa [bound, accum, Spec.value] using hfit) (by simpa [bound, accum, Spec.value] using hov)
    have hstart : numGet t base (45 :: (ds ++ d :: rest)) =
        numLoop t base ⟨.nomNeg, false, sgn false 0⟩ 1 (ds ++ d :: rest) := by
      simp [numGet, numLoop, numStep, hsig, sgn]
    simp only [if_true, List.cons_append, List.nil_append]
    rw [hstart]
    simpa using key
  | false =>
    have key := nom_overflow t base hb hb' true (by simp) ds d rest hds hd hcode 0 0
      (by simpa [bound, accum, Spec.value] using hfit) (by simpa [bound, accum, Spec.value] using hov)
    have hstart : ∀ c l, c < 256 → (Spec.digit base c).isSome = true → numGet t base (c :: l) =
        numLoop t base ⟨.nomPos, false, sgn true 0⟩ 0 (c :: l) := by
      intro c l hc hcd
      obtain ⟨n, hn⟩ := Option.isSome_iff_exists.1 hcd
      have h45 : c ≠ 45 := by rintro rfl; simp [Spec.digit, Spec.digitVal] at hn
      have h1 : numStep t base ⟨.start, false, 0⟩ c = nominal t base true ⟨.nomPos, false, 0⟩ c := by
        simp only [numStep, h45, and_false, if_false]
        cases hnn : nominal t base true ⟨.nomPos, false, 0⟩ c with
        | mk s' b =>
          cases b with
          | false => rfl
          | true =>
            simp only [nominal, from_char_spec base c hb hb' hc, hn] at hnn
            split at hnn <;> simp at hnn
      simp only [numGet, numLoop, h1]
      rfl
    simp only [Bool.false_eq_true, if_false, List.nil_append, Nat.zero_add] at key ⊢
    cases ds with
    | nil =>
      simp only [List.nil_append] at key hcode ⊢
      rw [hstart d rest (hcode d (by simp)) hd]; simpa using key
    | cons c ds =>
      simp only [List.cons_append] at key hcode ⊢
      rw [hstart c _ (hcode c (by simp)) (hds c (by simp))]; simpa using key

example : numGet ⟨false, 255⟩ 10 [51, 48, 48, 32, 97, 98] = (⟨.overflow, true, 255⟩, 6, true) ∧
    numGet ⟨false, 255⟩ 10 [51, 48, 48, 48] = (⟨.overflow, true, 255⟩, 3, false) ∧
    Spec.value 10 ([51, 48].filterMap (Spec.digit 10)) ≤ 255 ∧
    255 < Spec.value 10 ([51, 48, 48].filterMap (Spec.digit 10)) := by
  decide +kernel

end Verif.Charconv
