import Verif.Streams.Ostream

/-!
# C38: formatted integer output fills to the field width

The specification: `Spec.field`, `Spec.Shows`, and the meaning of a chain of insertions, `Spec.Chain`.
-/
namespace Verif.Streams
open Verif Verif.DynArray

/-! ## Specification -/

/-- a text in a field of at least `w` characters, filled on the side away from the adjustment -/
def Spec.field (w : Nat) (fill : Ch) (toLeft : Bool) (text : List Ch) : List Ch :=
  if toLeft then text ++ List.replicate (w - text.length) fill else List.replicate (w - text.length) fill ++ text

/-- upper-casing of a letter code -/
def Spec.cased (upper : Bool) (code : Nat) : Nat := if upper && 97 ≤ code && code ≤ 122 then code - 32 else code

/-- the characters of the canonical numeral of `v` -/
def Spec.Shows (base : Nat) (upper : Bool) (v : Int) (text : List Ch) : Prop :=
  ∃ codes, Charconv.Spec.IsNumeral base v codes ∧ text = codes.map fun k => BitVec.ofNat 8 (Spec.cased upper k)

/-- A field has max(width, length) characters. -/
theorem Spec.field_length (w : Nat) (fill : Ch) (toLeft : Bool) (text : List Ch) :
    (Spec.field w fill toLeft text).length = max w text.length := by
  unfold Spec.field; split <;> simp <;> omega

/-- A sink that takes single characters and text up to a capacity, and can be flushed. -/
structure Accepts {σ : Type} (t : Traits) (K : OutImpl σ) (R : σ → List Ch → Prop) (ok : Ch → Prop) (N : Nat) : Prop where
  text : Takes t K R ok N
  char : ∀ s l ch, R s l → l.length + 1 ≤ N → ok ch → ∃ s' r, K.sputc s ch = .ok (s', r) ∧ r ≠ eofCode ∧ R s' (l ++ [ch])
  sync : ∀ s l, R s l → ∃ s' r, K.sync s = .ok (s', r) ∧ r ≠ -1 ∧ R s' l

/-- A span of `N` characters is such a sink (for characters not mistaken for `eof()`). -/
theorem span_accepts (t : Traits) (N : Nat) :
    Accepts t (spanOut t) (fun s l => s.mem.length = N ∧ s.pos ≤ N ∧ s.mem.take s.pos = l) t.Tellable N where
  text := fun s l text h hf _ => span_takes t N s l text h hf (fun _ _ => trivial)
  char := by
    rintro s l ch ⟨h1, h2, h3⟩ hf ht
    have hl : l.length = s.pos := by rw [← h3]; simp; omega
    refine ⟨_, t.toInt ch, by simp only [spanOut, OutSpan.sputc]; rw [if_neg (by omega)], ht, ?_, ?_, ?_⟩
    · simp; omega
    · simp only; omega
    · rw [← h3]; exact set_take_succ _ _ _ (by omega)
  sync := fun s l h => ⟨s, 0, rfl, by decide, h⟩

/-- A string with room for `N` characters is such a sink. -/
theorem string_accepts (t : Traits) (c : Cfg Ch) (N : Nat) :
    Accepts t (stringOut t c) (fun a l => Rep c a l ∧ room c a = N)
      (fun ch => t.Tellable ch ∧ (c.nullTerm = true → ch ≠ c.zero)) N where
  text := fun s l text h hf hok => string_takes t c N s l text h hf (fun ch hm => (hok ch hm).2)
  char := by
    rintro a l ch ⟨h1, h2⟩ hf ⟨ht, hz⟩
    obtain ⟨a', e1, e2, e3⟩ := pushBack_rep h1 ch (by simp; omega) (fun hn e => hz hn e.symm)
    exact ⟨a', t.toInt ch, by simp [stringOut, e1], ht, e2, by simp only [room, e3] at h2 ⊢; exact h2⟩
  sync := fun s l h => ⟨s, 0, rfl, by decide, h⟩

/-! ## Digit counts -/

theorem digits_length_le (base : Nat) (hb : 2 ≤ base) : ∀ (k n : Nat), n < base ^ (k + 1) →
    (Charconv.digits base n hb).length ≤ k + 1 := by
  intro k
  induction k with
  | zero =>
    intro n hn
    rw [Charconv.digits, if_pos (by rw [Nat.div_eq_zero_iff]; right; simpa using hn)]; simp
  | succ k ih =>
    intro n hn
    rw [Charconv.digits]; split
    · simp
    · rw [List.length_append, List.length_singleton]
      have : n / base < base ^ (k + 1) := Nat.div_lt_of_lt_mul (by rw [Nat.pow_succ] at hn; rw [Nat.mul_comm]; exact hn)
      have := ih _ this
      omega

theorem digits_length_gt (base : Nat) (hb : 2 ≤ base) : ∀ (k n : Nat), base ^ k ≤ n →
    k < (Charconv.digits base n hb).length := by
  intro k
  induction k with
  | zero => intro n _; exact List.length_pos_iff.mpr (Charconv.digits_ne_nil _ _ _)
  | succ k ih =>
    intro n hn
    have hle : base ^ k ≤ n / base := by rw [Nat.le_div_iff_mul_le (by omega), ← Nat.pow_succ]; exact hn
    have hpos : 0 < base ^ k := Nat.pow_pos (by omega)
    rw [Charconv.digits, if_neg (by omega), List.length_append, List.length_singleton]
    have := ih _ hle
    omega

/-- the values whose octal numeral is longer than the buffer: unsigned types whose width is not a multiple of three
less one -/
def Spec.OctalTooLong (base : Nat) (signed : Bool) (bits : Nat) (v : Int) : Prop :=
  base = 8 ∧ signed = false ∧ ((bits = 16 ∧ 2 ^ 15 ≤ v) ∨ (bits = 64 ∧ 2 ^ 63 ≤ v))

/-- the integer types meant: `bits` wide, two's complement when signed -/
theorem intTy_range (signed : Bool) (bits : Nat) (hb : 0 < bits) (v : Int) :
    Charconv.InRange (intTy signed bits) v ↔
      if signed then -(2 ^ (bits - 1) : Int) ≤ v ∧ v < 2 ^ (bits - 1) else 0 ≤ v ∧ v < 2 ^ bits := by
  cases signed with
  | true =>
    simp only [Charconv.InRange, Charconv.IntTy.min, intTy, if_true]
    have h := Int.natCast_pow 2 (bits - 1)
    have : 0 < 2 ^ (bits - 1) := Nat.pow_pos (by decide)
    simp only [Int.cast_ofNat_Int] at h
    rw [← h]; omega
  | false =>
    simp only [Charconv.InRange, Charconv.IntTy.min, intTy, Bool.false_eq_true, if_false, Nat.sub_zero]
    have h := Int.natCast_pow 2 bits
    have : 0 < 2 ^ bits := Nat.pow_pos (by decide)
    simp only [Int.cast_ofNat_Int] at h
    rw [← h]; omega

/-- Exactly those numerals do not fit. -/
theorem fits_iff (base : Nat) (hb : 2 ≤ base) (signed : Bool) (bits : Nat) (v : Int) (hbase : base = 8 ∨ base = 10 ∨ base = 16)
    (hbits : bits = 8 ∨ bits = 16 ∨ bits = 32 ∨ bits = 64) (hv : Charconv.InRange (intTy signed bits) v)
    (hmin : ¬ (signed = true ∧ v = (intTy signed bits).min)) :
    (Charconv.digits base v.natAbs hb).length < octLength signed bits + 1 ↔ ¬ Spec.OctalTooLong base signed bits v := by
  obtain ⟨h1, h2⟩ := hv
  have key : ∀ k, v.natAbs < base ^ (k + 1) → k + 1 ≤ octLength signed bits →
      (Charconv.digits base v.natAbs hb).length < octLength signed bits + 1 := by
    intro k hk hl
    have := digits_length_le base hb k _ hk
    omega
  have key2 : octLength signed bits + 1 ≤ (Charconv.digits base v.natAbs hb).length ∨
      (Charconv.digits base v.natAbs hb).length < octLength signed bits + 1 := by omega
  unfold intTy at h1 h2 hmin
  simp only [Charconv.IntTy.min] at h1 h2 hmin
  unfold Spec.OctalTooLong
  by_cases hbad : base = 8 ∧ signed = false ∧ ((bits = 16 ∧ 2 ^ 15 ≤ v) ∨ (bits = 64 ∧ 2 ^ 63 ≤ v))
  · obtain ⟨rfl, rfl, h⟩ := hbad
    have : octLength false bits < (Charconv.digits 8 v.natAbs hb).length := by
      apply digits_length_gt
      rcases h with ⟨rfl, h⟩ | ⟨rfl, h⟩
      · simp [octLength]; omega
      · simp [octLength]; omega
    simp [h]; omega
  · simp only [hbad, not_false_iff, iff_true]
    rcases hbase with rfl | rfl | rfl <;> cases signed <;> rcases hbits with rfl | rfl | rfl | rfl <;>
      simp at h1 h2 hmin hbad ⊢ <;>
      first
        | exact key 2 (by simp; omega) (by simp [octLength])
        | exact key 4 (by simp; omega) (by simp [octLength])
        | exact key 5 (by simp; omega) (by simp [octLength])
        | exact key 9 (by simp; omega) (by simp [octLength])
        | exact key 10 (by simp; omega) (by simp [octLength])
        | exact key 19 (by simp; omega) (by simp [octLength])
        | exact key 20 (by simp; omega) (by simp [octLength])
        | exact key 21 (by simp; omega) (by simp [octLength])

/-! ## The numeral -/

theorem cased_char (upper : Bool) (base d : Nat) (hb : base ≤ 36) (hd : d < base) :
    Charconv.toChar (Charconv.facet base) upper d = Spec.cased upper (if d < 10 then 48 + d else 87 + d) := by
  unfold Charconv.toChar Charconv.facet Charconv.toChar10 Charconv.toChar36 Spec.cased
  cases upper <;> by_cases h10 : base > 10 <;> by_cases hd10 : d < 10 <;> simp [h10, hd10] <;> (try split) <;> omega

/-- a refused conversion has not written the first character -/
theorem toCharsLoop_first (tc : Nat → Nat) (base : Nat) (neg : Bool) : ∀ (last : Nat) (m : List Nat) (v : Nat) (m' : List Nat) (p : Nat),
    Charconv.toCharsLoop tc base neg 0 last m v = some (m', p, .tooLarge) → m'[0]? = m[0]? := by
  intro last
  induction last with
  | zero => intro m v m' p h; simp [Charconv.toCharsLoop] at h
  | succ last ih =>
    intro m v m' p h
    unfold Charconv.toCharsLoop at h
    by_cases h0 : (0 : Nat) = last
    · rw [if_pos h0] at h
      simp only [Option.some.injEq, Prod.mk.injEq] at h
      rw [h.1]
    · rw [if_neg h0] at h
      unfold wr at h
      by_cases hl : last < m.length
      · simp only [hl, if_true] at h
        by_cases hz : v / base = 0
        · simp only [hz, if_true] at h
          cases neg with
          | false => simp at h
          | true =>
            cases last with
            | zero => simp at h
            | succ l =>
              simp only [if_true] at h
              split at h <;> simp at h
        · simp only [hz, if_false] at h
          rw [ih _ _ _ _ h, List.getElem?_set_ne (by omega)]
      · simp [hl] at h

/-- the conversion in the wanted case: the whole numeral at the end of the buffer, or a refusal that leaves the first
character alone -/
theorem integerPut_spec (signed : Bool) (bits : Nat) (flags : BitVec 8) (v : Int) (buf : List Nat)
    (hl : buf.length = octLength signed bits + 1) (hbits : bits = 8 ∨ bits = 16 ∨ bits = 32 ∨ bits = 64)
    (hv : Charconv.InRange (intTy signed bits) v) (hmin : ¬ (signed = true ∧ v = (intTy signed bits).min))
    (codes : List Nat) (ht : Charconv.Spec.IsNumeral (getBase flags) v codes) :
    (¬ Spec.OctalTooLong (getBase flags) signed bits v → ∃ m p, integerPut signed bits flags v buf = some (m, p, .ok) ∧
      m.drop p = codes.map (Spec.cased (flags &&& uppercase != 0))) ∧
    (Spec.OctalTooLong (getBase flags) signed bits v → ∃ m, integerPut signed bits flags v buf = some (m, 0, .tooLarge) ∧
      m.length = buf.length ∧ m[0]? = buf[0]?) := by
  have hbase : getBase flags = 8 ∨ getBase flags = 10 ∨ getBase flags = 16 := by
    unfold getBase; split
    · simp
    · split <;> simp
  unfold integerPut
  generalize getBase flags = base at ht hbase
  generalize (flags &&& uppercase != 0) = upper
  have hb : 2 ≤ base := by omega
  have hb' : base ≤ 36 := by omega
  rw [Charconv.isNumeral_iff base v hb] at ht
  subst ht
  have hfit := fits_iff base hb signed bits v hbase hbits hv hmin
  have hneg : ((intTy signed bits).signed && decide (v < 0)) = decide (v < 0) := by
    cases signed with
    | true => simp [intTy]
    | false =>
      have := hv.1
      simp [Charconv.IntTy.min, intTy] at this ⊢
      omega
  have hub : ¬ ((decide (v < 0) && decide (-v > (intTy signed bits).max)) = true) := by
    simp only [Bool.and_eq_true, decide_eq_true_eq, not_and]
    intro hn hgt
    have := hv.1
    cases signed with
    | true => simp only [Charconv.IntTy.min, intTy, if_true, true_and] at this hmin hgt; omega
    | false => simp [Charconv.IntTy.min, intTy] at this; omega
  obtain ⟨m', p, ⟨e0, e1⟩, e2⟩ := Charconv.toCharsLoop_spec base hb hb' (Charconv.toChar (Charconv.facet base) upper)
    (decide (v < 0)) 0 (octLength signed bits + 1) buf v.natAbs (by omega) (by omega)
  have hmap : (Charconv.digits base v.natAbs hb).map (Charconv.toChar (Charconv.facet base) upper) =
      (Charconv.natText base v.natAbs hb).map (Spec.cased upper) := by
    unfold Charconv.natText
    rw [List.map_map]
    apply List.map_congr_left
    intro d hd
    exact cased_char upper base d hb' (Charconv.digits_lt base _ hb d hd)
  have htext : (Charconv.text base v hb).map (Spec.cased upper) =
      (if decide (v < 0) = true then [45] else []) ++ (Charconv.natText base v.natAbs hb).map (Spec.cased upper) := by
    unfold Charconv.text
    by_cases hn : v < 0 <;> simp [hn, Spec.cased]
  unfold Charconv.toCharsOpt
  simp only [hneg, hub, Bool.false_eq_true, if_false]
  constructor
  · intro hok
    rw [if_pos (by simpa using hfit.mpr hok)] at e2
    obtain ⟨f1, f2, f3⟩ := e2
    refine ⟨m', p, f1, ?_⟩
    rw [htext, ← hmap]
    rw [hmap] at f3 ⊢
    have hlen : ((if decide (v < 0) = true then [45] else []) ++ (Charconv.natText base v.natAbs hb).map (Spec.cased upper)).length =
        (if decide (v < 0) = true then 1 else 0) + (Charconv.digits base v.natAbs hb).length := by
      by_cases hn : v < 0 <;> simp [hn, Charconv.natText]; omega
    apply List.ext_getElem?
    intro i
    by_cases hi : i < ((if decide (v < 0) = true then [45] else []) ++ (Charconv.natText base v.natAbs hb).map (Spec.cased upper)).length
    · rw [List.getElem?_drop, f3 i hi]
    · rw [List.getElem?_eq_none (by rw [List.length_drop]; omega), List.getElem?_eq_none (by omega)]
  · intro hbad
    rw [if_neg (by simpa using fun h => (hfit.mp h) hbad)] at e2
    exact ⟨m', e2, e0, toCharsLoop_first _ _ _ _ _ _ _ _ e2⟩

/-! ## Putting characters -/

section
variable {σ : Type} {t : Traits} {c : IosCfg} {K : OutImpl σ} {R : σ → List Ch → Prop} {ok : Ch → Prop} {N : Nat}

theorem sentry_ok (hK : Accepts t K R ok N) (os : OS σ) (l : List Ch) (hR : R os.buf l) :
    ∃ b, os.sentry c K = .ok { os with buf := b } ∧ R b l := by
  unfold OS.sentry
  split
  · obtain ⟨s', r, e1, e2, e3⟩ := hK.sync _ _ hR
    refine ⟨s', ?_, e3⟩
    unfold OS.flush
    rw [e1]; simp [e2]
  · exact ⟨os.buf, rfl, hR⟩

theorem put_ok (hK : Accepts t K R ok N) (os : OS σ) (l : List Ch) (hR : R os.buf l) (ch : Ch) (bp : Bool)
    (hN : l.length + 1 ≤ N) (hok : ok ch) : ∃ b, os.put c K ch bp = .ok { os with buf := b } ∧ R b (l ++ [ch]) := by
  obtain ⟨s', r, e1, e2, e3⟩ := hK.char _ _ _ hR hN hok
  unfold OS.put
  rw [e1]
  simp only [Res.bind_ok, e2, if_false]
  cases bp with
  | true => exact ⟨s', rfl, e3⟩
  | false =>
    obtain ⟨b, f1, f2⟩ := sentry_ok (c := c) hK { os with buf := s' } _ e3
    exact ⟨b, by simpa using f1, f2⟩

theorem putMany_ok (hK : Accepts t K R ok N) (ch : Ch) (hok : ok ch) : ∀ (n : Nat) (os : OS σ) (l : List Ch), R os.buf l →
    l.length + n ≤ N → ∃ b, os.putMany c K ch n = .ok { os with buf := b } ∧ R b (l ++ List.replicate n ch) := by
  intro n
  induction n with
  | zero => intro os l hR _; exact ⟨os.buf, rfl, by simpa using hR⟩
  | succ n ih =>
    intro os l hR hN
    obtain ⟨b, e1, e2⟩ := put_ok (c := c) hK os l hR ch false (by omega) hok
    obtain ⟨b', e3, e4⟩ := ih { os with buf := b } _ e2 (by simp; omega)
    refine ⟨b', by rw [OS.putMany, e1]; exact e3, ?_⟩
    rw [List.replicate_succ, ← List.singleton_append, ← List.append_assoc]; exact e4

theorem write_ok (hK : Accepts t K R ok N) (os : OS σ) (l text : List Ch) (hR : R os.buf l)
    (hN : l.length + text.length ≤ N) (hok : ∀ ch ∈ text, ok ch) :
    ∃ b, os.write t c K text = .ok { os with buf := b } ∧ R b (l ++ text) := by
  obtain ⟨s', e1, e2⟩ := hK.text _ _ _ hR hN hok
  obtain ⟨b, f1, f2⟩ := sentry_ok (c := c) hK { os with buf := s' } _ e2
  refine ⟨b, ?_, f2⟩
  unfold OS.write
  rw [e1]; simpa using f1

/-- filling: nothing is put, so nothing is asked of the fill character, when there is nothing to fill -/
theorem fillN_ok (hK : Accepts t K R ok N) (os : OS σ) (l : List Ch) (hR : R os.buf l) (n : Int)
    (hN : l.length + n.toNat ≤ N) (hok : ∀ ch ∈ List.replicate n.toNat (os.getFill t), ok ch) :
    ∃ b, os.fillN t c K n = .ok { os with buf := b } ∧ R b (l ++ List.replicate n.toNat (os.getFill t)) := by
  unfold OS.fillN
  cases h : n.toNat with
  | zero => exact ⟨os.buf, rfl, by simpa using hR⟩
  | succ k =>
    rw [h] at hN hok
    exact putMany_ok hK _ (hok _ (by simp)) _ _ _ hR hN

end

theorem truncWidth_zero (c : IosCfg) : c.truncWidth 0 = 0 := by unfold IosCfg.truncWidth; cases c.aggressive <;> rfl

/-- exactly one of the two adjustments is selected -/
def Spec.Adjusted (flags : BitVec 8) (toLeft : Bool) : Prop := flags &&& adjustfield = if toLeft then left else right

theorem adjusted_bits (flags : BitVec 8) (toLeft : Bool) (h : Spec.Adjusted flags toLeft) :
    (flags &&& left ≠ 0 ↔ toLeft = true) ∧ (flags &&& right ≠ 0 ↔ toLeft = false) := by
  have key : ∀ f : BitVec 8, ∀ b : Bool, f &&& adjustfield = (if b then left else right) →
      (f &&& left ≠ 0 ↔ b = true) ∧ (f &&& right ≠ 0 ↔ b = false) := by decide +kernel
  exact key flags toLeft h

section
variable {σ : Type} {t : Traits} {c : IosCfg} {K : OutImpl σ} {R : σ → List Ch → Prop} {ok : Ch → Prop} {N : Nat}

theorem writeFilled_ok (hK : Accepts t K R ok N) (os : OS σ) (l text : List Ch) (hR : R os.buf l) (toLeft : Bool)
    (hadj : Spec.Adjusted os.ios.flags toLeft) (hN : l.length + max os.ios.width text.length ≤ N)
    (hok : ∀ ch ∈ Spec.field os.ios.width (os.getFill t) toLeft text, ok ch) :
    ∃ b, os.writeFilled t c K text = .ok { os with buf := b, ios := { os.ios with width := 0 } } ∧
      R b (l ++ Spec.field os.ios.width (os.getFill t) toLeft text) := by
  obtain ⟨hL, hRt⟩ := adjusted_bits _ _ hadj
  have hpad : (os.ios.getWidth - text.length).toNat = os.ios.width - text.length := by unfold Ios.getWidth; omega
  unfold OS.writeFilled
  simp only [Ios.setWidth, truncWidth_zero]
  cases toLeft with
  | false =>
    simp only [Spec.field, Bool.false_eq_true, if_false] at hok ⊢
    rw [if_pos (hRt.mpr rfl)]
    obtain ⟨b1, e1, e2⟩ := fillN_ok (c := c) hK ({ os with ios := { os.ios with width := 0 } } : OS σ) l hR
      (os.ios.getWidth - text.length) (by rw [hpad]; omega)
      (by rw [hpad]; exact fun ch hm => hok ch (List.mem_append.mpr (.inl hm)))
    rw [e1]
    simp only [Res.bind_ok]
    obtain ⟨b2, e3, e4⟩ := write_ok (c := c) hK ({ os with buf := b1, ios := { os.ios with width := 0 } } : OS σ) _ text e2
      (by simp; omega) (fun ch hm => hok ch (List.mem_append.mpr (.inr hm)))
    rw [e3]
    simp only [Res.bind_ok]
    rw [if_neg (fun h => by simpa using hL.mp h)]
    refine ⟨b2, rfl, ?_⟩
    rw [hpad] at e4
    rw [← List.append_assoc]; exact e4
  | true =>
    simp only [Spec.field, if_true] at hok ⊢
    rw [if_neg (fun h => by simpa using hRt.mp h)]
    simp only [Res.bind_ok]
    obtain ⟨b2, e3, e4⟩ := write_ok (c := c) hK ({ os with ios := { os.ios with width := 0 } } : OS σ) l text hR
      (by omega) (fun ch hm => hok ch (List.mem_append.mpr (.inl hm)))
    rw [e3]
    simp only [Res.bind_ok]
    rw [if_pos (hL.mpr rfl)]
    obtain ⟨b1, e1, e2⟩ := fillN_ok (c := c) hK ({ os with buf := b2, ios := { os.ios with width := 0 } } : OS σ) _ e4
      (os.ios.getWidth - text.length) (by rw [hpad]; simp; omega)
      (by rw [hpad]; exact fun ch hm => hok ch (List.mem_append.mpr (.inr hm)))
    refine ⟨b1, e1, ?_⟩
    rw [hpad] at e2
    rw [← List.append_assoc]; exact e2

/-- **C38, partial: integers.**  Inserting an integer into a stream over any accepting sink emits the canonical numeral
(in the base and case the flags say), filled to the width with the fill character on the side the adjustment says —
`max(width, length)` characters, `Spec.field_length` — resets the width and changes nothing else.  Missing: the signed
minimum (undefined, `to_chars_min_undefined`), octal numerals longer than the buffer (`octal_refused`), flags with no or
both adjustments (`both_adjustments_fill_twice`, `no_adjustment_no_fill`). -/
theorem int_output_partial (hK : Accepts t K R ok N) (os : OS σ) (l : List Ch) (hR : R os.buf l) (signed : Bool) (bits : Nat) (v : Int)
    (hbits : bits = 8 ∨ bits = 16 ∨ bits = 32 ∨ bits = 64) (hv : Charconv.InRange (intTy signed bits) v)
    (hmin : ¬ (signed = true ∧ v = (intTy signed bits).min)) (hoct : ¬ Spec.OctalTooLong (getBase os.ios.flags) signed bits v)
    (text : List Ch) (ht : Spec.Shows (getBase os.ios.flags) (os.ios.flags &&& uppercase != 0) v text) (toLeft : Bool)
    (hadj : Spec.Adjusted os.ios.flags toLeft) (hN : l.length + max os.ios.width text.length ≤ N)
    (hok : ∀ ch ∈ Spec.field os.ios.width (os.getFill t) toLeft text, ok ch) :
    ∃ b, os.outInt t c K signed bits v = .ok { os with buf := b, ios := { os.ios with width := 0 } } ∧
      R b (l ++ Spec.field os.ios.width (os.getFill t) toLeft text) := by
  obtain ⟨codes, h1, rfl⟩ := ht
  obtain ⟨m, p, e1, e2⟩ := (integerPut_spec signed bits os.ios.flags v (List.replicate (octLength signed bits + 1) 0) (by simp) hbits
    hv hmin codes h1).1 hoct
  have e3 : (m.drop p).map (BitVec.ofNat 8) = codes.map fun k => BitVec.ofNat 8 (Spec.cased (os.ios.flags &&& uppercase != 0) k) := by
    rw [e2, List.map_map]; rfl
  unfold OS.outInt
  rw [e1]
  simp only [Res.ofOption_some, Res.bind_ok, if_true]
  rw [e3]
  exact writeFilled_ok hK os l _ hR toLeft hadj hN hok

/-- **Violation.**  Exactly for the octal numerals that are too long — unsigned 16-bit values from 2^15, unsigned 64-bit
values from 2^63 — nothing is emitted, the stream goes bad, and the width stays for the next insertion. -/
theorem octal_refused (os : OS σ) (signed : Bool) (bits : Nat) (v : Int) (hv : Charconv.InRange (intTy signed bits) v)
    (hoct : Spec.OctalTooLong (getBase os.ios.flags) signed bits v) :
    os.outInt t c K signed bits v = .ok { os with ios := os.ios.setstate c badbit } := by
  have hs : signed = false := hoct.2.1
  have hbits : bits = 8 ∨ bits = 16 ∨ bits = 32 ∨ bits = 64 := by rcases hoct.2.2 with h | h <;> simp [h.1]
  have hb : 2 ≤ getBase os.ios.flags := by rw [hoct.1]; omega
  obtain ⟨m, e1, _⟩ := (integerPut_spec signed bits os.ios.flags v (List.replicate (octLength signed bits + 1) 0) (by simp) hbits
    hv (by simp [hs]) _ ((Charconv.isNumeral_iff _ v hb _).mpr rfl)).2 hoct
  unfold OS.outInt
  rw [e1]
  simp

end

/-- 65535 in octal is such a value, and a stream can be in that mode -/
example : Charconv.InRange (intTy false 16) 65535 ∧
    Spec.OctalTooLong (getBase ((OS.init ()).setBase 8).ios.flags) false 16 65535 := by
  refine ⟨⟨by decide, by decide⟩, by decide, rfl, .inl ⟨rfl, by decide⟩⟩

/-- `setw(6)`, fill `*`, hexadecimal upper case, left: `-2A***` into an empty span of eight characters -/
example : ∃ b, OS.outInt ⟨true, true⟩ ⟨true⟩ (spanOut ⟨true, true⟩) ⟨⟨List.replicate 8 0, 0⟩, ⟨hex ||| left ||| uppercase, 0, 6⟩, 10⟩ true 32
      (-42) = .ok ⟨b, ⟨hex ||| left ||| uppercase, 0, 0⟩, 10⟩ ∧ (b.mem.length = 8 ∧ b.pos ≤ 8 ∧ b.mem.take b.pos = [45, 50, 65, 42, 42, 42]) := by
  have := int_output_partial (c := ⟨true⟩) (span_accepts ⟨true, true⟩ 8)
    ⟨⟨List.replicate 8 0, 0⟩, ⟨hex ||| left ||| uppercase, 0, 6⟩, 10⟩ [] ⟨rfl, by simp, rfl⟩ true 32 (-42) (by simp)
    ⟨by decide, by decide⟩ (by decide) (by unfold Spec.OctalTooLong; simp) [45, 50, 65]
    ⟨[45, 50, 97], (Charconv.isNumeral_iff 16 (-42) (by omega) _).mpr (by decide +kernel), by decide⟩ true rfl
    (by decide) (by decide +kernel)
  exact this

section
variable {σ : Type} {t : Traits} {c : IosCfg} {K : OutImpl σ} {R : σ → List Ch → Prop} {ok : Ch → Prop} {N : Nat}

/-- **Violation.**  With both adjustment bits set the fill is emitted on both sides, so the field is wider than asked. -/
theorem both_adjustments_fill_twice (hK : Accepts t K R ok N) (os : OS σ) (l text : List Ch) (hR : R os.buf l)
    (hadj : os.ios.flags &&& adjustfield = adjustfield) (hN : l.length + 2 * os.ios.width + text.length ≤ N)
    (hok : ok (os.getFill t)) (hok' : ∀ ch ∈ text, ok ch) :
    ∃ b, os.writeFilled t c K text = .ok { os with buf := b, ios := { os.ios with width := 0 } } ∧
      R b (l ++ (List.replicate (os.ios.width - text.length) (os.getFill t) ++ text ++
        List.replicate (os.ios.width - text.length) (os.getFill t))) := by
  have key : ∀ f : BitVec 8, f &&& adjustfield = adjustfield → f &&& left ≠ 0 ∧ f &&& right ≠ 0 := by decide +kernel
  obtain ⟨hL, hRt⟩ := key _ hadj
  have hpad : (os.ios.getWidth - text.length).toNat = os.ios.width - text.length := by unfold Ios.getWidth; omega
  have hrep : ∀ ch ∈ List.replicate (os.ios.width - text.length) (os.getFill t), ok ch := by
    intro ch hm; rw [List.mem_replicate] at hm; rw [hm.2]; exact hok
  unfold OS.writeFilled
  simp only [Ios.setWidth, truncWidth_zero]
  rw [if_pos hRt]
  obtain ⟨b1, e1, e2⟩ := fillN_ok (c := c) hK ({ os with ios := { os.ios with width := 0 } } : OS σ) l hR
    (os.ios.getWidth - text.length) (by rw [hpad]; omega) (by rw [hpad]; exact hrep)
  rw [e1]
  simp only [Res.bind_ok]
  obtain ⟨b2, e3, e4⟩ := write_ok (c := c) hK ({ os with buf := b1, ios := { os.ios with width := 0 } } : OS σ) _ text e2
    (by simp; omega) hok'
  rw [e3]
  simp only [Res.bind_ok]
  rw [if_pos hL]
  obtain ⟨b3, e5, e6⟩ := fillN_ok (c := c) hK ({ os with buf := b2, ios := { os.ios with width := 0 } } : OS σ) _ e4
    (os.ios.getWidth - text.length) (by rw [hpad]; simp; omega) (by rw [hpad]; exact hrep)
  refine ⟨b3, e5, ?_⟩
  rw [hpad] at e6
  rw [← List.append_assoc, ← List.append_assoc]; exact e6

/-- **Violation.**  With neither bit set — the state `setf(0, adjustfield)` leaves — nothing is filled at all. -/
theorem no_adjustment_no_fill (hK : Accepts t K R ok N) (os : OS σ) (l text : List Ch) (hR : R os.buf l)
    (hadj : os.ios.flags &&& adjustfield = 0) (hN : l.length + text.length ≤ N) (hok' : ∀ ch ∈ text, ok ch) :
    ∃ b, os.writeFilled t c K text = .ok { os with buf := b, ios := { os.ios with width := 0 } } ∧ R b (l ++ text) := by
  have key : ∀ f : BitVec 8, f &&& adjustfield = 0 → f &&& left = 0 ∧ f &&& right = 0 := by decide +kernel
  obtain ⟨hL, hRt⟩ := key _ hadj
  unfold OS.writeFilled
  simp only [Ios.setWidth, truncWidth_zero]
  rw [if_neg (by simp [hRt])]
  simp only [Res.bind_ok]
  obtain ⟨b2, e3, e4⟩ := write_ok (c := c) hK ({ os with ios := { os.ios with width := 0 } } : OS σ) _ text hR hN hok'
  rw [e3]
  simp only [Res.bind_ok]
  rw [if_neg (by simp [hL])]
  exact ⟨b2, rfl, e4⟩

/-- Inserting a character always fills on the left, whatever the adjustment. -/
theorem char_output (hK : Accepts t K R ok N) (os : OS σ) (l : List Ch) (hR : R os.buf l) (ch : Ch)
    (hN : l.length + max os.ios.width 1 ≤ N) (hok : ∀ x ∈ Spec.field os.ios.width (os.getFill t) false [ch], ok x) :
    ∃ b, os.outChar t c K ch = .ok { os with buf := b, ios := { os.ios with width := 0 } } ∧
      R b (l ++ Spec.field os.ios.width (os.getFill t) false [ch]) := by
  have hpad : (os.ios.getWidth - 1).toNat = os.ios.width - 1 := by unfold Ios.getWidth; omega
  simp only [Spec.field, Bool.false_eq_true, if_false, List.length_singleton] at hok ⊢
  unfold OS.outChar
  obtain ⟨b1, e1, e2⟩ := fillN_ok (c := c) hK os l hR (os.ios.getWidth - 1) (by rw [hpad]; omega)
    (by rw [hpad]; exact fun x hm => hok x (List.mem_append.mpr (.inl hm)))
  rw [e1]
  simp only [Res.bind_ok, Ios.setWidth, truncWidth_zero]
  rw [hpad] at e2
  obtain ⟨b2, e3, e4⟩ := put_ok (c := c) hK ({ os with buf := b1, ios := { os.ios with width := 0 } } : OS σ) _ e2 ch false
    (by simp; omega) (hok ch (by simp))
  refine ⟨b2, e3, ?_⟩
  rw [← List.append_assoc]; exact e4

/-- **Violation.**  A text is not filled, and the width stays set for the next insertion. -/
theorem str_output_ignores_width (hK : Accepts t K R ok N) (os : OS σ) (l text : List Ch) (hR : R os.buf l)
    (hN : l.length + text.length ≤ N) (hok : ∀ ch ∈ text, ok ch) :
    ∃ b, os.outStr t c K text = .ok { os with buf := b } ∧ R b (l ++ text) := write_ok hK os l text hR hN hok

/-- `endl` is a newline and a flush. -/
theorem endl_ok (hK : Accepts t K R ok N) (os : OS σ) (l : List Ch) (hR : R os.buf l) (hN : l.length + 1 ≤ N) (hok : ok 10) :
    ∃ b, os.endl c K = .ok { os with buf := b } ∧ R b (l ++ [10]) := by
  obtain ⟨b1, e1, e2⟩ := put_ok (c := c) hK os l hR 10 true hN hok
  obtain ⟨b2, r, e3, e4, e5⟩ := hK.sync _ _ e2
  refine ⟨b2, ?_, e5⟩
  unfold OS.endl
  rw [e1]
  simp only [Res.bind_ok, OS.flush, e3, e4, if_false]

end

/-- **Violation.**  The adjustment manipulators change nothing: after `<< left` a default stream is still right
adjusted. -/
theorem left_manipulator_ignored {σ : Type} (b : σ) : Spec.Adjusted (OS.init b).leftManip.ios.flags false := by
  show (dec ||| right) &&& adjustfield = right; decide

/-- the fill characters that survive -/
def Spec.FillOk (t : Traits) (ch : Ch) : Prop := if t.charSigned then ch.toNat < 0x40 else 0x20 ≤ ch.toNat ∧ ch.toNat < 0x60

instance (t : Traits) (ch : Ch) : Decidable (Spec.FillOk t ch) := by unfold Spec.FillOk; infer_instance

/-- **C38, the fill character, partial**: exactly these characters can be set; `fill(ch)` returns the old one and a new
stream has a space. -/
theorem fill_round_trip_iff {σ : Type} (t : Traits) (os : OS σ) (ch : Ch) :
    (((os.setFill t ch).1.getFill t = ch) ↔ Spec.FillOk t ch) ∧ (os.setFill t ch).2 = os.getFill t ∧
      (os.setFill t ch).1.ios = os.ios ∧ (os.setFill t ch).1.buf = os.buf := by
  refine ⟨?_, rfl, rfl, rfl⟩
  have key : ∀ b o : Bool, ∀ x : BitVec 8, (fillOf ⟨o, b⟩ (BitVec.ofInt 6 (0x20 + Traits.promote ⟨o, b⟩ x)) = x) ↔
      Spec.FillOk ⟨o, b⟩ x := by decide +kernel
  exact key t.charSigned t.own ch

theorem fill_default {σ : Type} (t : Traits) (b : σ) : (OS.init b).getFill t = 0x20 := by
  have key : ∀ b o : Bool, fillOf ⟨o, b⟩ 0 = 0x20 := by decide +kernel
  exact key t.charSigned t.own

/-- **Violation.**  With signed `char`, asking for `_` gives the control character 0x1F; with unsigned, `~` gives `>`. -/
theorem fill_wrong :
    ((OS.init ()).setFill ⟨true, true⟩ 0x5F).1.getFill ⟨true, true⟩ = 0x1F ∧
    ((OS.init ()).setFill ⟨true, false⟩ 0x7E).1.getFill ⟨true, false⟩ = 0x3E := by decide +kernel

/-! ## num_put -/

/-- **C38 for `num_put::put`, partial**: the numeral filled to the width.  The width is not reset (the stream is const).
Missing: the two violations below and the signed minimum. -/
theorem put_integer_partial (signed : Bool) (bits : Nat) (ios : Ios) (fill : Nat) (v : Int) (buf : List Nat)
    (hl : buf.length = octLength signed bits + 1) (hbits : bits = 8 ∨ bits = 16 ∨ bits = 32 ∨ bits = 64)
    (hv : Charconv.InRange (intTy signed bits) v) (hmin : ¬ (signed = true ∧ v = (intTy signed bits).min))
    (hoct : ¬ Spec.OctalTooLong (getBase ios.flags) signed bits v) (codes : List Nat)
    (ht : Charconv.Spec.IsNumeral (getBase ios.flags) v codes) (toLeft : Bool) (hadj : Spec.Adjusted ios.flags toLeft) :
    putInteger signed bits ios fill v buf = some
      (if toLeft then codes.map (Spec.cased (ios.flags &&& uppercase != 0)) ++ List.replicate (ios.width - codes.length) fill
        else List.replicate (ios.width - codes.length) fill ++ codes.map (Spec.cased (ios.flags &&& uppercase != 0))) := by
  obtain ⟨m, p, e1, e2⟩ := (integerPut_spec signed bits ios.flags v buf hl hbits hv hmin codes ht).1 hoct
  unfold putInteger
  rw [e1]
  simp only [e2, List.length_map]
  unfold Spec.Adjusted at hadj
  have hne : left ≠ right := by decide
  by_cases hw : ios.width > codes.length
  · rw [if_pos hw]
    cases toLeft with
    | false => simp only [Bool.false_eq_true, if_false] at hadj ⊢; rw [if_pos hadj]
    | true => simp only [if_true] at hadj ⊢; rw [if_neg (by rw [hadj]; exact hne), if_pos hadj]
  · rw [if_neg hw]
    have : ios.width - codes.length = 0 := by omega
    cases toLeft <;> simp [this]

/-- **Violation.**  When the field is wider than the numeral and not exactly one adjustment is set, the whole number is
dropped. -/
theorem put_integer_drops (signed : Bool) (bits : Nat) (ios : Ios) (fill : Nat) (v : Int) (buf : List Nat)
    (hl : buf.length = octLength signed bits + 1) (hbits : bits = 8 ∨ bits = 16 ∨ bits = 32 ∨ bits = 64)
    (hv : Charconv.InRange (intTy signed bits) v) (hmin : ¬ (signed = true ∧ v = (intTy signed bits).min))
    (hoct : ¬ Spec.OctalTooLong (getBase ios.flags) signed bits v) (codes : List Nat)
    (ht : Charconv.Spec.IsNumeral (getBase ios.flags) v codes) (hadj : ∀ b, ¬ Spec.Adjusted ios.flags b)
    (hw : codes.length < ios.width) : putInteger signed bits ios fill v buf = some [] := by
  obtain ⟨m, p, e1, e2⟩ := (integerPut_spec signed bits ios.flags v buf hl hbits hv hmin codes ht).1 hoct
  unfold putInteger
  rw [e1]
  simp only [e2, List.length_map]
  have h1 := hadj false
  have h2 := hadj true
  simp only [Spec.Adjusted, Bool.false_eq_true, if_false, if_true] at h1 h2
  rw [if_pos hw, if_neg h1, if_neg h2]

/-- **Violation.**  When the octal numeral does not fit, `num_put` does not notice: it emits the whole local array,
beginning with a character that was never written. -/
theorem put_integer_exposes (signed : Bool) (bits : Nat) (ios : Ios) (fill : Nat) (v : Int) (buf : List Nat)
    (hl : buf.length = octLength signed bits + 1) (hv : Charconv.InRange (intTy signed bits) v)
    (hoct : Spec.OctalTooLong (getBase ios.flags) signed bits v) (hw : ios.width ≤ buf.length) :
    ∃ out, putInteger signed bits ios fill v buf = some out ∧ out.length = buf.length ∧ out[0]? = buf[0]? := by
  have hs : signed = false := hoct.2.1
  have hbits : bits = 8 ∨ bits = 16 ∨ bits = 32 ∨ bits = 64 := by rcases hoct.2.2 with h | h <;> simp [h.1]
  have hb : 2 ≤ getBase ios.flags := by rw [hoct.1]; omega
  obtain ⟨m, e1, e2, e3⟩ := (integerPut_spec signed bits ios.flags v buf hl hbits hv (by simp [hs]) _
    ((Charconv.isNumeral_iff _ v hb _).mpr rfl)).2 hoct
  refine ⟨m, ?_, e2, e3⟩
  unfold putInteger
  rw [e1]
  simp only [List.drop_zero]
  rw [if_neg (by omega)]

example : putInteger true 32 ⟨dec ||| right, 0, 5⟩ 46 (-42) (List.replicate 13 7) = some [46, 46, 45, 52, 50] := by decide +kernel
example : putInteger true 32 ⟨dec, 0, 5⟩ 46 (-42) (List.replicate 13 7) = some [] := by decide +kernel
example : putInteger false 16 ⟨oct ||| right, 0, 0⟩ 46 65535 [7, 7, 7, 7, 7, 7] = some [7, 55, 55, 55, 55, 55] := by decide +kernel

/-- `bool` is `true`/`false` or a digit, unpadded. -/
theorem put_bool (ios : Ios) (v : Bool) :
    putBool ios v = if Spec.has ios.flags 5 then (if v then "true" else "false").toList.map Char.toNat
      else (if v then "1" else "0").toList.map Char.toNat := by
  have key : ∀ f : BitVec 8, (f &&& boolalpha ≠ 0) ↔ f.getLsbD 5 = true := by decide +kernel
  unfold putBool
  by_cases h : Spec.has ios.flags 5
  · rw [if_pos ((key _).mpr h), if_pos h]; cases v <;> rfl
  · rw [if_neg (fun hh => h ((key _).mp hh)), if_neg h]; cases v <;> rfl

/-! ## Flushing -/

/-- `is_unitbuf_set()` asks for bit 6 of the flags. -/
theorem isUnitbufSet_iff (ios : Ios) : ios.isUnitbufSet = true ↔ Spec.has ios.flags 6 := by
  have key : ∀ f : BitVec 8, ((f &&& unitbuf != 0) = true) ↔ f.getLsbD 6 = true := by decide +kernel
  exact key ios.flags

/-- Without `unitbuf` nothing is flushed behind an insertion: a sink whose `sync` goes wrong is not asked to. -/
theorem no_unitbuf_no_flush {σ : Type} (t : Traits) (c : IosCfg) (K : OutImpl σ) (sync' : σ → Res (σ × Int))
    (os : OS σ) (hf : ¬ Spec.has os.ios.flags 6) :
    (∀ text, os.write t c { K with sync := sync' } text = os.write t c K text) ∧
    (∀ ch, os.put c { K with sync := sync' } ch false = os.put c K ch false) := by
  have hu : os.ios.isUnitbufSet = false := by
    cases h : os.ios.isUnitbufSet with
    | false => rfl
    | true => exact absurd ((isUnitbufSet_iff _).mp h) hf
  have key : ∀ (K' : OutImpl σ) (b : σ) (ios : Ios), ios.flags = os.ios.flags →
      OS.sentry c K' { os with buf := b, ios := ios } = .ok { os with buf := b, ios := ios } := by
    intro K' b ios he
    have : ios.isUnitbufSet = false := by unfold Ios.isUnitbufSet at hu ⊢; rw [he]; exact hu
    simp [OS.sentry, this]
  constructor
  · intro text
    unfold OS.write
    rw [show OutImpl.sputn t { K with sync := sync' } os.buf text = K.sputn t os.buf text from rfl]
    cases K.sputn t os.buf text with
    | abort => rfl
    | ub => rfl
    | ok p => simp only [Res.bind_ok]; rw [key, key] <;> split <;> rfl
  · intro ch
    unfold OS.put
    cases K.sputc os.buf ch with
    | abort => rfl
    | ub => rfl
    | ok p =>
      simp only [Res.bind_ok, Bool.false_eq_true, if_false]
      rw [key, key] <;> split <;> rfl

section
variable {σ : Type} (t : Traits) (c : IosCfg) (K : OutImpl σ) (Q : σ → Prop)
  (hQ : ∀ s s' r, K.sync s = .ok (s', r) → Q s')
include hQ

theorem flush_establishes (os os' : OS σ) (h : os.flush c K = .ok os') :
    Q os'.buf ∧ (os'.ios.good = true → os.ios.good = true) := by
  unfold OS.flush at h
  cases hs : K.sync os.buf with
  | abort => rw [hs] at h; cases h
  | ub => rw [hs] at h; cases h
  | ok p =>
    obtain ⟨b, r⟩ := p
    rw [hs] at h
    simp only [Res.bind_ok, Res.ok.injEq] at h
    subst h
    refine ⟨hQ _ _ _ hs, ?_⟩
    simp only
    split
    · intro hg
      have key : ∀ (a : Bool) (x : BitVec 8), (IosCfg.truncState ⟨a⟩ (x ||| badbit)) ≠ 0 := by decide +kernel
      simp only [Ios.good, Ios.rdstate, Ios.setstate, goodbit, beq_iff_eq] at hg
      exact absurd hg (key c.aggressive os.ios.state)
    · exact id

/-- **`endl` flushes**: whatever a sink's `sync` establishes holds after it, for every sink. -/
theorem endl_flushes (os os' : OS σ) (h : os.endl c K = .ok os') : Q os'.buf := by
  unfold OS.endl at h
  cases hp : os.put c K 10 true with
  | abort => rw [hp] at h; cases h
  | ub => rw [hp] at h; cases h
  | ok os1 =>
    rw [hp] at h
    exact (flush_establishes c K Q hQ os1 os' h).1

theorem sentry_establishes (os os' : OS σ) (hu : os.ios.isUnitbufSet = true) (h : os.sentry c K = .ok os')
    (hg : os'.ios.good = true) : Q os'.buf := by
  unfold OS.sentry at h
  rw [hu, Bool.true_and] at h
  split at h
  · exact (flush_establishes c K Q hQ _ _ h).1
  · next hng =>
    simp only [Res.ok.injEq] at h
    subst h
    exact absurd hg hng

/-- **With `unitbuf` set, every `write` and `put` ends with a flush** (if the stream is then good). -/
theorem unitbuf_flushes (os os' : OS σ) (hf : Spec.has os.ios.flags 6) (hg : os'.ios.good = true) :
    (∀ text, os.write t c K text = .ok os' → Q os'.buf) ∧ (∀ ch, os.put c K ch false = .ok os' → Q os'.buf) := by
  have hu : os.ios.isUnitbufSet = true := (isUnitbufSet_iff os.ios).mpr hf
  constructor
  · intro text h
    unfold OS.write at h
    cases hs : K.sputn t os.buf text with
    | abort => rw [hs] at h; cases h
    | ub => rw [hs] at h; cases h
    | ok p =>
      rw [hs] at h
      refine sentry_establishes c K Q hQ _ os' ?_ h hg
      simp only; split <;> exact hu
  · intro ch h
    unfold OS.put at h
    cases hs : K.sputc os.buf ch with
    | abort => rw [hs] at h; cases h
    | ub => rw [hs] at h; cases h
    | ok p =>
      rw [hs] at h
      simp only [Res.bind_ok, Bool.false_eq_true, if_false] at h
      refine sentry_establishes c K Q hQ _ os' ?_ h hg
      simp only; split <;> exact hu

end

/-- `sync` of a buffered streambuf reports success and leaves nothing pending, so `endl` and `unitbuf` do: the hypothesis of the two theorems
above is met. -/
theorem buffered_sync_empties {σ : Type} (t : Traits) (K : OutImpl σ) (asserts : Bool) (b b' : Buffered σ) (r : Int)
    (h : (bufferedOut t K asserts).sync b = .ok (b', r)) : r = 0 ∧ b'.buf.msize = 0 := by
  simp only [bufferedOut, Buffered.sync] at h
  split at h
  · next h0 =>
    simp only [Res.ok.injEq, Prod.mk.injEq] at h
    rw [← h.1]; exact ⟨h.2.symm, h0⟩
  · unfold Buffered.llSync at h
    cases hs : K.sputn t b.sink (b.buf.buf.take b.buf.msize) with
    | abort => rw [hs] at h; cases h
    | ub => rw [hs] at h; cases h
    | ok p =>
      rw [hs] at h
      simp only [Res.bind_ok] at h
      cases hc : clear (bufCfg asserts) b.buf with
      | abort => rw [hc] at h; cases h
      | ub => rw [hc] at h; cases h
      | ok a =>
        rw [hc] at h
        simp only [Res.bind_ok, Res.ok.injEq, Prod.mk.injEq] at h
        refine ⟨h.2.symm, ?_⟩
        rw [← h.1]
        simp only
        unfold clear resize ensureTotalSize at hc
        simp only [bufCfg, DynArray.size, setSize, Bool.false_eq_true, if_false, Nat.zero_mod] at hc
        simp [ensureTotalCapacity] at hc
        rw [← hc]

/-! ## Chains of insertions -/

/-- the formatting state a user thinks of -/
structure Spec.Fmt where
  base : Nat
  upper : Bool
  toLeft : Bool
  width : Nat
  fill : Ch
  deriving DecidableEq, Repr

/-- What one insertion means: the text it emits and the formatting state after it.  Values are put in a field and reset
the width, manipulators emit nothing. -/
inductive Spec.Emits : Spec.Fmt → Item → List Ch → Spec.Fmt → Prop where
  | int (f : Spec.Fmt) (signed : Bool) (bits : Nat) (v : Int) (text : List Ch) : Spec.Shows f.base f.upper v text →
      Spec.Emits f (.int signed bits v) (Spec.field f.width f.fill f.toLeft text) { f with width := 0 }
  | chr (f : Spec.Fmt) (ch : Ch) : Spec.Emits f (.chr ch) (Spec.field f.width f.fill f.toLeft [ch]) { f with width := 0 }
  | str (f : Spec.Fmt) (text : List Ch) :
      Spec.Emits f (.str text) (Spec.field f.width f.fill f.toLeft text) { f with width := 0 }
  | setw (f : Spec.Fmt) (n : Nat) : Spec.Emits f (.setw n) [] { f with width := n }
  | setfill (f : Spec.Fmt) (ch : Ch) : Spec.Emits f (.setfill ch) [] { f with fill := ch }
  | setbase (f : Spec.Fmt) (b : Nat) : Spec.Emits f (.setbase b) [] { f with base := b }
  | upper (f : Spec.Fmt) (on : Bool) : Spec.Emits f (.upper on) [] { f with upper := on }
  | adjust (f : Spec.Fmt) (toLeft : Bool) : Spec.Emits f (.adjust toLeft) [] { f with toLeft := toLeft }
  | endl (f : Spec.Fmt) : Spec.Emits f .endl [10] f

/-- the insertions the code gets right: not the cases of the violations above -/
def Spec.Sound (t : Traits) (c : IosCfg) (f : Spec.Fmt) : Item → Prop
  | .int signed bits v => (bits = 8 ∨ bits = 16 ∨ bits = 32 ∨ bits = 64) ∧ Charconv.InRange (intTy signed bits) v ∧
      ¬ (signed = true ∧ v = (intTy signed bits).min) ∧ ¬ Spec.OctalTooLong f.base signed bits v
  | .chr _ => f.toLeft = false ∨ f.width ≤ 1
  | .str _ => f.width = 0
  | .setw n => n < if c.aggressive then 16 else 65536
  | .setfill ch => Spec.FillOk t ch
  | .setbase b => b = 8 ∨ b = 10 ∨ b = 16
  | _ => True

/-- a chain of insertions: every one is sound where it is made; `text` is all that is emitted -/
inductive Spec.Chain (t : Traits) (c : IosCfg) : Spec.Fmt → List Item → List Ch → Spec.Fmt → Prop where
  | nil (f : Spec.Fmt) : Spec.Chain t c f [] [] f
  | cons (f f' f'' : Spec.Fmt) (i : Item) (is : List Item) (text rest : List Ch) : Spec.Sound t c f i →
      Spec.Emits f i text f' → Spec.Chain t c f' is rest f'' → Spec.Chain t c f (i :: is) (text ++ rest) f''

/-- the stream is in that formatting state -/
structure FmtRep {σ : Type} (t : Traits) (os : OS σ) (f : Spec.Fmt) : Prop where
  base : getBase os.ios.flags = f.base
  upper : (os.ios.flags &&& uppercase != 0) = f.upper
  adj : Spec.Adjusted os.ios.flags f.toLeft
  width : os.ios.width = f.width
  fill : os.getFill t = f.fill

/-- a new stream: decimal, lower case, right adjusted, filling with spaces -/
theorem fmt_init {σ : Type} (t : Traits) (b : σ) : FmtRep t (OS.init b) ⟨10, false, false, 0, 0x20⟩ :=
  ⟨by show getBase (dec ||| right) = 10; decide, by show ((dec ||| right) &&& uppercase != 0) = false; decide,
    by show (dec ||| right) &&& adjustfield = right; decide, rfl, fill_default t b⟩

theorem truncWidth_small (c : IosCfg) (n : Nat) (h : n < if c.aggressive then 16 else 65536) : c.truncWidth n = n := by
  unfold IosCfg.truncWidth; cases hc : c.aggressive <;> simp [hc] at h ⊢ <;> omega

theorem insert_ok {σ : Type} {t : Traits} {c : IosCfg} {K : OutImpl σ} {R : σ → List Ch → Prop} {ok : Ch → Prop} {N : Nat}
    (hK : Accepts t K R ok N) (os : OS σ) (f f' : Spec.Fmt) (l text : List Ch) (i : Item) (hF : FmtRep t os f)
    (hR : R os.buf l) (hs : Spec.Sound t c f i) (he : Spec.Emits f i text f') (hN : l.length + text.length ≤ N)
    (hok : ∀ ch ∈ text, ok ch) :
    ∃ os', os.insert t c K i = .ok os' ∧ R os'.buf (l ++ text) ∧ FmtRep t os' f' ∧ os'.ios.state = os.ios.state := by
  obtain ⟨hb, hu, ha, hw, hf⟩ := hF
  cases he with
  | int signed bits v text hsh =>
    obtain ⟨h1, h2, h3, h4⟩ := hs
    rw [Spec.field_length] at hN
    obtain ⟨b, e1, e2⟩ := int_output_partial (c := c) hK os l hR signed bits v h1 h2 h3 (by rw [hb]; exact h4) text
      (by rw [hb, hu]; exact hsh) f.toLeft ha (by rw [hw]; exact hN) (by rw [hw, hf]; exact hok)
    refine ⟨_, e1, ?_, ⟨hb, hu, ha, rfl, hf⟩, rfl⟩
    rw [hw, hf] at e2; exact e2
  | chr ch =>
    have hfield : Spec.field f.width f.fill f.toLeft [ch] = Spec.field f.width f.fill false [ch] := by
      rcases hs with h | h
      · rw [h]
      · unfold Spec.field
        have : f.width - [ch].length = 0 := by simp; omega
        rw [this]; simp
    rw [hfield] at hN hok ⊢
    rw [Spec.field_length] at hN
    obtain ⟨b, e1, e2⟩ := char_output (c := c) hK os l hR ch (by rw [hw]; exact hN) (by rw [hw, hf]; exact hok)
    refine ⟨_, e1, ?_, ⟨hb, hu, ha, rfl, hf⟩, rfl⟩
    rw [hw, hf] at e2; exact e2
  | str text =>
    have hs : f.width = 0 := hs
    have hfield : Spec.field f.width f.fill f.toLeft text = text := by unfold Spec.field; rw [hs]; simp
    rw [hfield] at hN hok ⊢
    obtain ⟨b, e1, e2⟩ := str_output_ignores_width (c := c) hK os l text hR hN hok
    exact ⟨_, e1, e2, ⟨hb, hu, ha, by show os.ios.width = 0; omega, hf⟩, rfl⟩
  | setw n =>
    refine ⟨_, rfl, by rw [List.append_nil]; exact hR, ⟨hb, hu, ha, ?_, hf⟩, rfl⟩
    exact truncWidth_small c n hs
  | setfill ch =>
    refine ⟨_, rfl, by rw [List.append_nil]; exact hR, ⟨hb, hu, ha, hw, ?_⟩, rfl⟩
    exact (fill_round_trip_iff t os ch).1.mpr hs
  | setbase b =>
    have hs : (b : Int) = 8 ∨ (b : Int) = 10 ∨ (b : Int) = 16 := hs
    have key : ∀ x : BitVec 8, ∀ m : BitVec 8, m = oct ∨ m = dec ∨ m = hex →
        ((x &&& ~~~basefield ||| m) &&& uppercase = x &&& uppercase) ∧
        ((x &&& ~~~basefield ||| m) &&& adjustfield = x &&& adjustfield) ∧
        getBase (x &&& ~~~basefield ||| m) = if m = oct then 8 else if m = dec then 10 else 16 := by decide +kernel
    have hm : ∃ m : BitVec 8, (m = oct ∨ m = dec ∨ m = hex) ∧
        (if (b : Int) = 8 then oct else if (b : Int) = 10 then dec else if (b : Int) = 16 then hex else 0) = m ∧
        (if m = oct then 8 else if m = dec then 10 else 16) = b := by
      rcases hs with h | h | h
      · exact ⟨oct, .inl rfl, by simp [h], by simp; omega⟩
      · exact ⟨dec, .inr (.inl rfl), by simp [h], by have : dec ≠ oct := by decide
                                                     simp [this]; omega⟩
      · exact ⟨hex, .inr (.inr rfl), by simp [h], by have : hex ≠ oct := by decide
                                                     have : hex ≠ dec := by decide
                                                     simp [*]; omega⟩
    obtain ⟨m, h1, h2, h3⟩ := hm
    obtain ⟨k1, k2, k3⟩ := key os.ios.flags m h1
    refine ⟨os.setBase b, rfl, by rw [List.append_nil]; exact hR, ?_, rfl⟩
    have hfl : (os.setBase b).ios.flags = os.ios.flags &&& ~~~basefield ||| m := by
      show os.ios.flags &&& ~~~basefield ||| _ = _
      rw [h2]
    refine ⟨by rw [hfl, k3, h3], by rw [hfl, k1]; exact hu, ?_, hw, hf⟩
    unfold Spec.Adjusted at ha ⊢
    rw [hfl, k2]; exact ha
  | upper on =>
    have key : ∀ x : BitVec 8,
        (getBase (x ||| uppercase) = getBase x ∧ ((x ||| uppercase) &&& uppercase != 0) = true ∧ (x ||| uppercase) &&& adjustfield = x &&& adjustfield) ∧
        (getBase (x &&& ~~~uppercase) = getBase x ∧ ((x &&& ~~~uppercase) &&& uppercase != 0) = false ∧ (x &&& ~~~uppercase) &&& adjustfield = x &&& adjustfield) := by
      decide +kernel
    obtain ⟨⟨k1, k2, k3⟩, ⟨k4, k5, k6⟩⟩ := key os.ios.flags
    refine ⟨_, rfl, by simpa using hR, ?_, by cases on <;> rfl⟩
    cases on with
    | true => exact ⟨k1.trans hb, k2, by unfold Spec.Adjusted at ha ⊢; exact k3.trans ha, hw, hf⟩
    | false => exact ⟨k4.trans hb, k5, by unfold Spec.Adjusted at ha ⊢; exact k6.trans ha, hw, hf⟩
  | adjust tl =>
    have key : ∀ x : BitVec 8, ∀ b : Bool, getBase (x &&& ~~~adjustfield ||| (if b then left else right)) = getBase x ∧
        ((x &&& ~~~adjustfield ||| (if b then left else right)) &&& uppercase) = x &&& uppercase ∧
        (x &&& ~~~adjustfield ||| (if b then left else right)) &&& adjustfield = (if b then left else right) := by
      decide +kernel
    obtain ⟨k1, k2, k3⟩ := key os.ios.flags tl
    refine ⟨_, rfl, by simpa using hR, ⟨k1.trans hb, ?_, k3, hw, hf⟩, rfl⟩
    show ((os.ios.flags &&& ~~~adjustfield ||| (if tl then left else right)) &&& uppercase != 0) = _
    rw [k2]; exact hu
  | endl =>
    obtain ⟨b, e1, e2⟩ := endl_ok (c := c) hK os l hR (by simpa using hN) (hok 10 (by simp))
    exact ⟨_, e1, e2, ⟨hb, hu, ha, hw, hf⟩, rfl⟩

/-- **C38 for whole programs, partial**: a chain of insertions of integers, characters, texts and manipulators puts into
any accepting sink exactly the concatenation of the fields the specification gives, ends in the formatting state it
gives, and does not touch the stream's error state.  Missing: the insertions that are not `Spec.Sound`, each of which
is a violation proved above or in `width_truncated`. -/
theorem chain_partial {σ : Type} {t : Traits} {c : IosCfg} {K : OutImpl σ} {R : σ → List Ch → Prop} {ok : Ch → Prop} {N : Nat}
    (hK : Accepts t K R ok N) (f f' : Spec.Fmt) (is : List Item) (text : List Ch) (hc : Spec.Chain t c f is text f') :
    ∀ (os : OS σ) (l : List Ch), FmtRep t os f → R os.buf l → l.length + text.length ≤ N → (∀ ch ∈ text, ok ch) →
    ∃ os', os.insertAll t c K is = .ok os' ∧ R os'.buf (l ++ text) ∧ FmtRep t os' f' ∧ os'.ios.state = os.ios.state := by
  induction hc with
  | nil f => intro os l hF hR _ _; exact ⟨os, rfl, by simpa using hR, hF, rfl⟩
  | cons f f1 f2 i is text rest hs he _ ih =>
    intro os l hF hR hN hok
    rw [List.length_append] at hN
    obtain ⟨os1, e1, e2, e3, e4⟩ := insert_ok hK os f f1 l text i hF hR hs he (by omega)
      (fun ch hm => hok ch (List.mem_append.mpr (.inl hm)))
    obtain ⟨os2, g1, g2, g3, g4⟩ := ih os1 _ e3 e2 (by simp; omega) (fun ch hm => hok ch (List.mem_append.mpr (.inr hm)))
    refine ⟨os2, by rw [OS.insertAll, e1]; exact g1, ?_, g3, g4.trans e4⟩
    rw [← List.append_assoc]; exact g2

/-- `out << setw(4) << setfill('0') << hex << 255 << endl` emits `00ff` and a newline -/
example : Spec.Chain ⟨true, true⟩ ⟨true⟩ ⟨10, false, false, 0, 0x20⟩
    [.setw 4, .setfill 0x30, .setbase 16, .int true 32 255, .endl] [0x30, 0x30, 0x66, 0x66, 10] ⟨16, false, false, 0, 0x30⟩ := by
  have h : Spec.Shows 16 false 255 [0x66, 0x66] :=
    ⟨[102, 102], (Charconv.isNumeral_iff 16 255 (by omega) _).mpr (by decide +kernel), by decide⟩
  refine .cons _ ⟨10, false, false, 4, 0x20⟩ _ _ _ [] _ (by decide : (4 : Nat) < 16) (.setw _ 4) ?_
  refine .cons _ ⟨10, false, false, 4, 0x30⟩ _ _ _ [] _ (by decide : Spec.FillOk _ _) (.setfill _ _) ?_
  refine .cons _ ⟨16, false, false, 4, 0x30⟩ _ _ _ [] _ (.inr (.inr rfl)) (.setbase _ 16) ?_
  refine .cons _ ⟨16, false, false, 0, 0x30⟩ _ _ _ [0x30, 0x30, 0x66, 0x66] _
    ⟨by simp, ⟨by decide, by decide⟩, by decide, by unfold Spec.OctalTooLong; simp⟩
    (.int ⟨16, false, false, 4, 0x30⟩ true 32 255 _ h) ?_
  exact .cons _ _ _ _ _ [10] _ trivial (.endl _) (.nil _)

end Verif.Streams
