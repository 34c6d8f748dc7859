import Verif.Streams.Extract

/-!
# C62: sequences of numbers, characters and words; reading back what formatted output wrote
-/
namespace Verif.Streams
open Verif Verif.DynArray

/-! ## Sequences of numbers -/

/-- `text` is a list of numerals for the values, each with optional white space in front, followed by `tail`; a numeral
is not directly followed by a digit -/
inductive Spec.Listing (base : Nat) : List (Charconv.IntTy × Int) → List Ch → List Ch → Prop where
  | nil (tail : List Ch) : Spec.Listing base [] tail tail
  | cons (t : Charconv.IntTy) (v : Int) (vs : List (Charconv.IntTy × Int)) (white numeral rest tail : List Ch) :
      (∀ x ∈ white, Spec.White x) → Spec.Numeral t base v numeral →
      (∀ x r, rest = x :: r → (Charconv.Spec.digit base x.toNat).isSome = false) → Spec.Listing base vs rest tail →
      Spec.Listing base ((t, v) :: vs) (white ++ (numeral ++ rest)) tail

theorem parse_ok_start {t : Charconv.IntTy} {base : Nat} {l : List Nat} {n : Nat} {v : Option Int}
    (h : Charconv.Spec.parse t base l = (n, .ok, v)) :
    ∃ x r, l = x :: r ∧ ((Charconv.Spec.digit base x).isSome = true ∨
      (t.signed = true ∧ x = 45 ∧ ∃ y r', r = y :: r' ∧ (Charconv.Spec.digit base y).isSome = true)) := by
  cases l with
  | nil => simp [Charconv.Spec.parse] at h
  | cons x r =>
    refine ⟨x, r, rfl, ?_⟩
    by_cases hneg : t.signed = true ∧ x = 45
    · right
      obtain ⟨hs, rfl⟩ := hneg
      cases r with
      | nil => simp [Charconv.Spec.parse, hs] at h
      | cons y r' =>
        refine ⟨hs, rfl, y, r', rfl, ?_⟩
        by_cases hy : (Charconv.Spec.digit base y).isSome = true
        · exact hy
        · simp [Charconv.Spec.parse, hs, List.takeWhile_cons, hy] at h
    · left
      have hneg' : (t.signed && (x :: r).head? == some 45) = false := by
        cases hs : t.signed with
        | false => simp
        | true => simp [hs] at hneg; simp [hneg]
      by_cases hy : (Charconv.Spec.digit base x).isSome = true
      · exact hy
      · unfold Charconv.Spec.parse at h
        simp only [hneg', Bool.false_eq_true, if_false, List.takeWhile_cons, hy, if_true] at h
        simp at h

theorem digit_not_white {base c : Nat} (h : (Charconv.Spec.digit base c).isSome = true) : ¬ Text.Spec.Category.space.has c := by
  intro hw
  have : Charconv.Spec.digitVal c = none := by
    have hw : c = 32 ∨ (9 ≤ c ∧ c ≤ 13) := hw
    unfold Charconv.Spec.digitVal
    rw [if_neg (by omega), if_neg (by omega), if_neg (by omega)]
  simp [Charconv.Spec.digit, this] at h

theorem parse_ok_supported {t : Charconv.IntTy} {base : Nat} {l : List Nat} {n : Nat} {v : Option Int}
    (h : Charconv.Spec.parse t base l = (n, .ok, v)) : Charconv.Spec.NumGetSupported t base l := by
  obtain ⟨x, r, rfl, hx⟩ := parse_ok_start h
  refine ⟨by simp, fun hs hd => ?_⟩
  simp only [List.head?_cons, Option.some.injEq] at hd
  subst hd
  rcases hx with hx | ⟨_, _, hy⟩
  · have : Charconv.Spec.digit base 45 = none := by simp [Charconv.Spec.digit, Charconv.Spec.digitVal]
    rw [this] at hx; simp at hx
  · obtain ⟨y, r', h1, h2⟩ := hy
    exact ⟨y, r', h1, h2⟩

theorem parse_ok_not_white {t : Charconv.IntTy} {base : Nat} {l : List Ch} {n : Nat} {v : Option Int}
    (h : Charconv.Spec.parse t base (l.map BitVec.toNat) = (n, .ok, v)) : ∀ x r, l = x :: r → ¬ Spec.White x := by
  rintro x r rfl
  obtain ⟨x', r', he, hx⟩ := parse_ok_start h
  simp only [List.map_cons, List.cons.injEq] at he
  rcases hx with hx | ⟨_, hx, _⟩
  · rw [← he.1] at hx; exact digit_not_white hx
  · intro hw
    have hw : x.toNat = 32 ∨ (9 ≤ x.toNat ∧ x.toNat ≤ 13) := hw
    omega

theorem numeral_ne_nil {t : Charconv.IntTy} {base : Nat} {v : Int} {text : List Ch} (h : Spec.Numeral t base v text) : text ≠ [] := by
  rintro rfl
  have := h [] (by simp)
  simp [Charconv.Spec.parse] at this

theorem setstate_good {c : IosCfg} {s : Ios} (h : s.good = true) : s.setstate c 0 = s := setstate_zero c s (good_fits c h)

theorem listing_nil {base : Nat} {vs : List (Charconv.IntTy × Int)} {text tail : List Ch} (h : Spec.Listing base vs text tail)
    (he : text = []) : vs = [] ∧ tail = [] := by
  cases h with
  | nil => exact ⟨rfl, he⟩
  | cons t v vs white numeral rest _ hw hn =>
    exact absurd (List.append_eq_nil_iff.mp (List.append_eq_nil_iff.mp he).2).1 (numeral_ne_nil hn)

/-- C62 for whole texts: on a good stream over a list of numerals, extracting one after the other gives the values and
leaves the rest of the text; the state is untouched, except that `eofbit` is set exactly when the last numeral ran to
the end of the text.  Flags select the base (`base_spec`). -/
theorem extract_list (c : ISCfg) (octal : Bool) (base : Nat) (vs : List (Charconv.IntTy × Int)) (text tail : List Ch)
    (hl : Spec.Listing base vs text tail) :
    ∀ s : IS, s.Ok c → s.ios.good = true → (∀ signed, baseOf octal signed s.ios.flags = some base) → s.rest = text →
      ∃ s', IS.extractAll c octal (vs.map (·.1)) s = some (s', vs.map (·.2)) ∧ s'.rest = tail ∧
        s'.ios = s.ios.setstate c.ios (if vs ≠ [] ∧ tail = [] then eofbit else 0) := by
  induction hl with
  | nil tail =>
    intro s _ hg _ hr
    refine ⟨s, rfl, hr, ?_⟩
    rw [if_neg (by simp), setstate_good hg]
  | cons t v vs white numeral rest tail hw hn hd hrest ih =>
    intro s h hg hb hr
    have hp := hn rest hd
    obtain ⟨s1, w, e1, e2⟩ := extract_partial c octal t base s 0 h hg (hb _) white (numeral ++ rest) hr hw
      (parse_ok_not_white hp) (parse_ok_supported hp)
    rw [hp] at e2
    simp only at e2
    obtain ⟨rfl, e3, e4, e5, e6⟩ := e2
    have hr1 : s1.rest = rest := by rw [e3, hr, ← List.append_assoc, List.drop_append]; simp
    simp only [List.map_cons, IS.extractAll, e1]
    by_cases hz : rest = []
    · obtain ⟨rfl, rfl⟩ := listing_nil hrest hz
      subst hz
      refine ⟨s1, rfl, hr1, ?_⟩
      rw [e5]; simp
    · have hn' : ¬ numeral.length = (numeral ++ rest).length := by
        have : rest.length ≠ 0 := by simpa using hz
        simp; exact hz
      rw [if_neg hn', setstate_good hg] at e5
      have hi1 : s1.buf.pos ≤ s1.buf.data.length := by
        by_cases hh : s1.buf.pos ≤ s1.buf.data.length
        · exact hh
        · exfalso
          unfold IS.rest at hr1
          rw [List.drop_of_length_le (by omega)] at hr1
          exact hz hr1.symm
      obtain ⟨s2, f1, f2, f3⟩ := ih s1 ⟨by rw [e4]; exact h.readable, hi1⟩ (by rw [e5]; exact hg) (by rw [e5]; exact hb) hr1
      rw [f1]
      refine ⟨s2, rfl, f2, ?_⟩
      rw [f3, e5]
      cases hrest with
      | nil => simp [hz]
      | cons => simp

/-! ## Reading back what formatted output wrote -/

theorem cased_digit {base upper k} (h : (Charconv.Spec.digit base k).isSome = true) (hk : k < 65 ∨ 90 < k) :
    Charconv.Spec.digit base (Spec.cased upper k) = Charconv.Spec.digit base k := by
  unfold Spec.cased
  split
  · rename_i hc
    simp only [Bool.and_eq_true, decide_eq_true_eq] at hc
    unfold Charconv.Spec.digit
    have e1 : Charconv.Spec.digitVal (k - 32) = some (k - 87) := by
      unfold Charconv.Spec.digitVal
      rw [if_neg (by omega), if_pos (by omega)]; congr 1
    have e2 : Charconv.Spec.digitVal k = some (k - 87) := by
      unfold Charconv.Spec.digitVal
      rw [if_neg (by omega), if_neg (by omega), if_pos (by omega)]
    rw [e1, e2]
  · rfl

theorem natText_case (base n : Nat) (hb : 2 ≤ base) : ∀ k ∈ Charconv.natText base n hb, k < 65 ∨ 90 < k := by
  intro k hk
  unfold Charconv.natText at hk
  obtain ⟨d, _, rfl⟩ := List.mem_map.mp hk
  split <;> omega

/-- A numeral as formatted output shows it is a numeral for formatted input, in either case. -/
theorem shows_numeral (t : Charconv.IntTy) (base : Nat) (upper : Bool) (v : Int) (text : List Ch) (hb : 2 ≤ base) (hb' : base ≤ 36)
    (hv : Charconv.InRange t v) (h : Spec.Shows base upper v text) : Spec.Numeral t base v text := by
  obtain ⟨codes, h1, rfl⟩ := h
  have hc := (Charconv.isNumeral_iff base v hb codes).mp h1
  intro rest hrest
  have hdig := Charconv.natText_digit base v.natAbs hb hb'
  have hcase := natText_case base v.natAbs hb
  generalize hnt : Charconv.natText base v.natAbs hb = nt at hdig hcase
  have hne : nt ≠ [] := by
    rw [← hnt]; unfold Charconv.natText
    simpa using Charconv.digits_ne_nil base v.natAbs hb
  have hfm : nt.filterMap (Charconv.Spec.digit base) = Charconv.digits base v.natAbs hb := by
    rw [← hnt]; exact Charconv.filterMap_natText base v.natAbs hb hb'
  have hval := Charconv.digits_value base v.natAbs hb
  -- the characters of the numeral, cased
  have hcd : ∀ k ∈ nt, Charconv.Spec.digit base (Spec.cased upper k) = Charconv.Spec.digit base k :=
    fun k hk => cased_digit (hdig k hk).1 (hcase k hk)
  have hmap : ∀ l : List Nat, (∀ k ∈ l, k < 256) →
      (l.map fun k => BitVec.ofNat 8 (Spec.cased upper k)).map BitVec.toNat = l.map (Spec.cased upper) := by
    intro l hl
    rw [List.map_map]
    apply List.map_congr_left
    intro k hk
    have := hl k hk
    have : Spec.cased upper k < 256 := by unfold Spec.cased; split <;> omega
    simp; omega
  have htw : (nt.map (Spec.cased upper) ++ rest.map BitVec.toNat).takeWhile (fun c => (Charconv.Spec.digit base c).isSome) =
      nt.map (Spec.cased upper) := by
    rw [List.takeWhile_append_of_pos]
    · cases rest with
      | nil => simp
      | cons x r => simp [List.takeWhile_cons, hrest x r rfl]
    · intro x hx
      obtain ⟨k, hk, rfl⟩ := List.mem_map.mp hx
      rw [hcd k hk]; exact (hdig k hk).1
  have hfm2 : (nt.map (Spec.cased upper)).filterMap (Charconv.Spec.digit base) = Charconv.digits base v.natAbs hb := by
    rw [List.filterMap_map, ← hfm]
    clear hmap htw hfm hne hnt
    induction nt with
    | nil => rfl
    | cons k nt ih =>
      have e := hcd k (by simp)
      simp only [List.filterMap_cons, Function.comp, e]
      rw [show List.filterMap (Charconv.Spec.digit base ∘ Spec.cased upper) nt = _ from
        ih (fun x hx => hdig x (by simp [hx])) (fun x hx => hcase x (by simp [hx])) (fun x hx => hcd x (by simp [hx]))]
  have h45 : Spec.cased upper 45 = 45 := by simp [Spec.cased]
  obtain ⟨hv1, hv2⟩ := hv
  by_cases hneg : v < 0
  · have hsig : t.signed = true := by
      cases hs : t.signed with
      | true => rfl
      | false => unfold Charconv.IntTy.min at hv1; simp [hs] at hv1; omega
    have hcodes : codes = 45 :: nt := by rw [hc, ← hnt]; simp [Charconv.text, hneg]
    subst hcodes
    have e : ((45 :: nt).map (fun k => BitVec.ofNat 8 (Spec.cased upper k)) ++ rest).map BitVec.toNat =
        45 :: (nt.map (Spec.cased upper) ++ rest.map BitVec.toNat) := by
      rw [List.map_append, hmap _ (by
        intro k hk
        rcases List.mem_cons.mp hk with rfl | hk
        · omega
        · exact (hdig k hk).2.1)]
      simp [h45]
    rw [e]
    unfold Charconv.Spec.parse
    simp only [hsig, List.head?_cons, beq_self_eq_true, Bool.and_self, if_true, List.tail_cons, htw, hfm2, hval]
    rw [if_neg (by simpa using hne), if_pos (by unfold Charconv.IntTy.min at hv1; simp [hsig] at hv1; omega)]
    simp
    constructor <;> omega
  · have hcodes : codes = nt := by rw [hc, ← hnt]; simp [Charconv.text, hneg]
    subst hcodes
    have e : (codes.map (fun k => BitVec.ofNat 8 (Spec.cased upper k)) ++ rest).map BitVec.toNat =
        codes.map (Spec.cased upper) ++ rest.map BitVec.toNat := by
      rw [List.map_append, hmap _ (fun k hk => (hdig k hk).2.1)]
    rw [e]
    have hhead : (t.signed && (codes.map (Spec.cased upper) ++ rest.map BitVec.toNat).head? == some 45) = false := by
      cases codes with
      | nil => exact absurd rfl hne
      | cons k r =>
        have h1 := hcd k (by simp)
        have h2 := (hdig k (by simp)).1
        have : Spec.cased upper k ≠ 45 := by
          intro h
          rw [← h1, h] at h2
          simp [Charconv.Spec.digit, Charconv.Spec.digitVal] at h2
        simp [this]
    unfold Charconv.Spec.parse
    simp only [hhead, Bool.false_eq_true, if_false, htw, hfm2, hval]
    rw [if_neg (by simpa using hne), if_pos (by omega)]
    simp
    omega

/-- integers with their types, each followed by a separator character -/
def Spec.items (sep : Ch) (vals : List (Bool × Nat × Int)) : List Item :=
  vals.flatMap fun x => [.int x.1 x.2.1 x.2.2, .chr sep]

theorem shows_exists (base : Nat) (hb : 2 ≤ base) (upper : Bool) (v : Int) : ∃ text, Spec.Shows base upper v text :=
  ⟨_, _, (Charconv.isNumeral_iff base v hb _).mpr rfl, rfl⟩

theorem write_listing (t : Traits) (c : IosCfg) (f : Spec.Fmt) (hw : f.width = 0) (hb : 2 ≤ f.base) (hb' : f.base ≤ 36) (sep : Ch)
    (hsep : Spec.White sep) (vals : List (Bool × Nat × Int)) (hs : ∀ x ∈ vals, Spec.Sound t c f (.int x.1 x.2.1 x.2.2)) :
    ∃ text, Spec.Chain t c f (Spec.items sep vals) text f ∧ (vals ≠ [] → ∃ r, text = r ++ [sep]) ∧
      ∀ white, (∀ x ∈ white, Spec.White x) →
        Spec.Listing f.base (vals.map fun x => (intTy x.1 x.2.1, x.2.2)) (white ++ text) (if vals = [] then white else [sep]) := by
  have hf : ({ f with width := 0 } : Spec.Fmt) = f := by cases f; simp at hw; simp [hw]
  have hnd : ∀ r, ∀ x r', sep :: r = x :: r' → (Charconv.Spec.digit f.base x.toNat).isSome = false := by
    intro r x r' he
    obtain ⟨rfl, _⟩ := List.cons.inj he
    cases h : (Charconv.Spec.digit f.base sep.toNat).isSome with
    | false => rfl
    | true => exact absurd hsep (digit_not_white h)
  induction vals with
  | nil => exact ⟨[], .nil f, by simp, fun white hwh => by simpa using .nil white⟩
  | cons x vals ih =>
    obtain ⟨rest, h1, h2, h3⟩ := ih (fun y hy => hs y (by simp [hy]))
    obtain ⟨num, hnum⟩ := shows_exists f.base hb f.upper x.2.2
    have hx := hs x (by simp)
    have e1 : Spec.field f.width f.fill f.toLeft num = num := by unfold Spec.field; rw [hw]; simp
    have e2 : Spec.field f.width f.fill f.toLeft [sep] = [sep] := by unfold Spec.field; rw [hw]; simp
    refine ⟨num ++ ([sep] ++ rest), ?_, ?_, ?_⟩
    · refine .cons f f f _ _ num _ hx ?_ (.cons f f f _ _ [sep] rest (.inr (by omega)) ?_ h1)
      · have := Spec.Emits.int f x.1 x.2.1 x.2.2 num hnum
        rw [e1, hf] at this; exact this
      · have := Spec.Emits.chr f sep
        rw [e2, hf] at this; exact this
    · intro _
      by_cases hv : vals = []
      · subst hv
        have : rest = [] := by cases h1; rfl
        exact ⟨num, by simp [this]⟩
      · obtain ⟨r, rfl⟩ := h2 hv
        exact ⟨num ++ ([sep] ++ r), by simp⟩
    · intro white hwh
      have hrec := h3 [sep] (by simpa using hsep)
      have htail : (if vals = [] then [sep] else [sep]) = [sep] := by split <;> rfl
      rw [htail] at hrec
      simp only [List.map_cons, List.cons_ne_nil, if_false, reduceCtorEq]
      exact .cons _ _ _ white num ([sep] ++ rest) [sep] hwh
        (shows_numeral _ _ _ _ _ hb hb' hx.2.1 hnum) (hnd rest) hrec

/-- **C62, output and input together (partial)**: writing integers of any types with `out << v << sep`, `sep` white space,
into an accepting sink produces a text from which `in >> v` in the same base reads back exactly these values; the stream
stays good and stands before the last separator.  Missing: the insertions that are not `Spec.Sound` (most negative value,
some octal numbers; C38). -/
theorem write_read_partial {σ : Type} {t : Traits} {c : IosCfg} {K : OutImpl σ} {R : σ → List Ch → Prop} {ok : Ch → Prop} {N : Nat}
    (hK : Accepts t K R ok N) (os : OS σ) (f : Spec.Fmt) (hF : FmtRep t os f) (hw : f.width = 0) (hR : R os.buf []) (sep : Ch)
    (hsep : Spec.White sep) (vals : List (Bool × Nat × Int)) (hne : vals ≠ [])
    (hs : ∀ x ∈ vals, Spec.Sound t c f (.int x.1 x.2.1 x.2.2)) :
    ∃ text,
      (text.length ≤ N → (∀ ch ∈ text, ok ch) →
        ∃ os', os.insertAll t c K (Spec.items sep vals) = .ok os' ∧ R os'.buf text ∧ os'.ios.state = os.ios.state) ∧
      ∀ (ci : ISCfg) (octal : Bool) (s : IS), s.Ok ci → s.ios.good = true → s.rest = text →
        (∀ signed, baseOf octal signed s.ios.flags = some f.base) →
        ∃ s', IS.extractAll ci octal (vals.map fun x => intTy x.1 x.2.1) s = some (s', vals.map fun x => x.2.2) ∧
          s'.rest = [sep] ∧ s'.ios = s.ios := by
  have hb2 : 2 ≤ f.base ∧ f.base ≤ 36 := by
    rw [← hF.base]; unfold getBase; repeat' split
    all_goals omega
  obtain ⟨text, h1, _, h3⟩ := write_listing t c f hw hb2.1 hb2.2 sep hsep vals hs
  refine ⟨text, fun hN hok => ?_, fun ci octal s hs' hg hr hbase => ?_⟩
  · obtain ⟨os', e1, e2, _, e4⟩ := chain_partial hK f f _ text h1 os [] hF hR (by simpa using hN) hok
    exact ⟨os', e1, by simpa using e2, e4⟩
  · have hl := h3 [] (by simp)
    rw [if_neg hne] at hl
    obtain ⟨s', e1, e2, e3⟩ := extract_list ci octal f.base _ _ _ hl s hs' hg hbase hr
    refine ⟨s', by simpa [List.map_map, Function.comp_def] using e1, e2, ?_⟩
    rw [e3, if_neg (by simp), setstate_good hg]

example : Spec.Sound ⟨false, true⟩ ⟨true⟩ ⟨16, true, false, 0, 0x20⟩ (.int true 32 (-255)) ∧ Spec.White 0x20 ∧
    (∀ signed, baseOf true signed hex = some 16) :=
  ⟨⟨by simp, ⟨by decide, by decide⟩, by decide, by unfold Spec.OctalTooLong; simp⟩, .inl (by decide), by decide⟩

/-! ## Characters -/

/-- `in >> ch` on a good stream skips white space and stores the next character. -/
theorem extract_char_partial (c : ISCfg) (s : IS) (value : Ch) (h : s.Ok c) (hg : s.ios.good = true) (white : List Ch) (x : Ch)
    (r : List Ch) (hr : s.rest = white ++ x :: r) (hw : ∀ y ∈ white, Spec.White y) (hx : ¬ Spec.White x)
    (h0 : c.inp.tr.own = false → x ≠ 0) :
    ∃ s', s.extractChar c value = some (s', x) ∧ s'.rest = r ∧ s'.ios = s.ios := by
  have hxs : isSpace x = false := by
    cases hq : isSpace x
    · rfl
    · exact absurd ((isSpace_iff x).mp hq) hx
  have e1 : s.rest.takeWhile isSpace = white := by
    rw [hr, List.takeWhile_append_of_pos (fun y hm => (isSpace_iff y).mpr (hw y hm)), List.takeWhile_cons, hxs]; simp
  have hi := h.inside
  have hrl := rest_length hi
  have hlen : white.length ≤ s.rest.length := by rw [hr]; simp
  have hOk : IS.Ok c ⟨⟨s.buf.data, s.buf.pos + white.length⟩, s.ios, 0⟩ := ⟨h.readable, by simp only; omega⟩
  have hr1 : IS.rest ⟨⟨s.buf.data, s.buf.pos + white.length⟩, s.ios, 0⟩ = x :: r := by
    rw [rest_consumed c s, hr, List.drop_append]; simp
  have hge := get_spec c ⟨⟨s.buf.data, s.buf.pos + white.length⟩, s.ios, 0⟩ hOk (good_fits c.ios hg)
  rw [hr1] at hge
  obtain ⟨_, h2, _, _⟩ := bump_cons hOk hr1
  have hne : c.inp.tr.notEof (c.inp.tr.toInt x) = true := by
    unfold Traits.notEof
    split
    · simpa using h2
    · rename_i ho
      have h00 := h0 (by simpa using ho)
      have : c.inp.tr.toInt x ≠ 0 := by
        intro he
        unfold Traits.toInt at he
        rw [if_neg ho] at he
        exact h00 (BitVec.eq_of_toNat_eq (by simpa using he))
      simp [h2, this]
  refine ⟨⟨⟨s.buf.data, s.buf.pos + (white.length + 1)⟩, s.ios, 0 + 1⟩, ?_, ?_, rfl⟩
  · unfold IS.extractChar
    rw [ws_eq c s h hg, e1]
    simp only [hge, hne, if_true, toChar_toInt, IS.after, setstate_good hg, Nat.add_assoc]
  · rw [rest_consumed c s, hr, ← List.drop_drop, List.drop_append]; simp

example : (IS.init [0x20, 0x41, 0x42]).extractChar ⟨⟨⟨false, true⟩, .span⟩, ⟨true⟩⟩ 0x3F =
    some (⟨⟨[0x20, 0x41, 0x42], 2⟩, Ios.init, 1⟩, 0x41) := by decide +kernel

/-- At the end of the text `in >> ch` sets `failbit` and `eofbit` and leaves the variable alone. -/
theorem extract_char_end (c : ISCfg) (s : IS) (value : Ch) (h : s.Ok c) (hg : s.ios.good = true)
    (hw : ∀ y ∈ s.rest, Spec.White y) :
    ∃ s', s.extractChar c value = some (s', value) ∧ s'.rest = [] ∧ s'.ios = s.ios.setstate c.ios (failbit ||| eofbit) := by
  have e1 : s.rest.takeWhile isSpace = s.rest := by
    have := List.takeWhile_append_of_pos (p := isSpace) (l₁ := s.rest) (l₂ := []) (fun x hm => (isSpace_iff x).mpr (hw x hm))
    simpa using this
  have hi := h.inside
  have hrl := rest_length hi
  have hOk : IS.Ok c ⟨⟨s.buf.data, s.buf.pos + s.rest.length⟩, s.ios, 0⟩ := ⟨h.readable, by simp only; omega⟩
  have hr1 : IS.rest ⟨⟨s.buf.data, s.buf.pos + s.rest.length⟩, s.ios, 0⟩ = [] := by rw [rest_consumed c s]; simp
  have hge := get_spec c ⟨⟨s.buf.data, s.buf.pos + s.rest.length⟩, s.ios, 0⟩ hOk (good_fits c.ios hg)
  rw [hr1] at hge
  have hne : c.inp.tr.notEof eofCode = false := by unfold Traits.notEof; split <;> simp
  refine ⟨⟨⟨s.buf.data, s.buf.pos + s.rest.length⟩, s.ios.setstate c.ios (failbit ||| eofbit), 0 + 1⟩, ?_, hr1, rfl⟩
  unfold IS.extractChar
  rw [ws_eq c s h hg, e1]
  simp only [hge, hne, IS.after, Nat.add_zero, Bool.false_eq_true, if_false]

/-- Violation: with the standard traits the character NUL is taken from the stream but not stored; the stream stays
good. -/
theorem extract_char_nul (c : ISCfg) (ho : c.inp.tr.own = false) (s : IS) (value : Ch) (h : s.Ok c) (hg : s.ios.good = true)
    (r : List Ch) (hr : s.rest = 0 :: r) :
    ∃ s', s.extractChar c value = some (s', value) ∧ s'.rest = r ∧ s'.ios = s.ios := by
  have hz : isSpace 0 = false := by decide
  have e1 : s.rest.takeWhile isSpace = [] := by rw [hr, List.takeWhile_cons, hz]; rfl
  have hOk : IS.Ok c ⟨s.buf, s.ios, 0⟩ := ⟨h.readable, h.inside⟩
  have hr1 : IS.rest ⟨s.buf, s.ios, 0⟩ = 0 :: r := hr
  have hge := get_spec c ⟨s.buf, s.ios, 0⟩ hOk (good_fits c.ios hg)
  rw [hr1] at hge
  have hne : c.inp.tr.notEof (c.inp.tr.toInt 0) = false := by simp [Traits.notEof, Traits.toInt, ho]
  refine ⟨⟨⟨s.buf.data, s.buf.pos + 1⟩, s.ios, 0 + 1⟩, ?_, ?_, rfl⟩
  · unfold IS.extractChar
    rw [ws_eq c s h hg, e1]
    simp only [List.length_nil, Nat.add_zero, hge, hne, IS.after, setstate_good hg, Bool.false_eq_true, if_false]
  · rw [rest_consumed c s, hr]; rfl

example : (IS.init [0x00, 0x42]).extractChar ⟨⟨⟨false, true⟩, .span⟩, ⟨true⟩⟩ 0x3F =
    some (⟨⟨[0x00, 0x42], 1⟩, Ios.init, 1⟩, 0x3F) := by decide +kernel

/-! ## Words -/

theorem strEmpty_rep {dc : DynArray.Cfg Ch} {a : Arr Ch} {l : List Ch} (h : Rep dc a l) : strEmpty dc a = .ok (l = []) := by
  have hs := h.size_eq
  unfold strEmpty
  unfold DynArray.size at hs
  by_cases hn : dc.nullTerm = true
  · have hlt := h.lt_of_term hn
    simp only [hn, if_true] at hs ⊢
    cases hb : a.buf with
    | nil => rw [hb] at hlt; simp at hlt
    | cons x r =>
      simp only [rd, List.getElem?_cons_zero, Res.ofOption_some, Res.bind_ok, Res.ok.injEq]
      have hl : l.length < dc.modulus := by
        have := fits_lt h h.room_le; omega
      rw [hb] at hs
      unfold strlen at hs
      by_cases hx : x = dc.zero
      · simp only [hx, if_true, Res.ofOption_some, Res.bind_ok, Nat.zero_mod, Res.ok.injEq] at hs
        simp only [hx, decide_true]
        have : l = [] := List.eq_nil_of_length_eq_zero hs.symm
        simp [this]
      · have hne : l ≠ [] := by
          rintro rfl
          have ht := h.term hn
          rw [hb] at ht
          simp at ht
          exact hx ht
        simp [hx, hne]
  · simp only [hn, Bool.false_eq_true, if_false] at hs ⊢
    simp only [Res.ok.injEq] at hs ⊢
    rw [hs]
    cases l <;> simp

theorem doInput_spec (c : ISCfg) (dc : DynArray.Cfg Ch) : ∀ (word : List Ch) (k : Nat) (s : IS) (a : Arr Ch) (l tail : List Ch),
    s.Ok c → s.ios.good = true → Rep dc a l → s.rest = word ++ tail → (∀ x ∈ word, ¬ Spec.White x) →
    (∀ x r, tail = x :: r → Spec.White x) → (l ++ word).length ≤ room dc a → (dc.nullTerm = true → dc.zero ∉ word) →
    word.length < k →
    ∃ s' a', IS.doInput c dc k s a = .ok (s', a') ∧ Rep dc a' (l ++ word) ∧ s'.rest = tail ∧
      s'.ios = s.ios.setstate c.ios (if tail = [] then (if l ++ word = [] then failbit ||| eofbit else eofbit) else 0) := by
  intro word
  induction word with
  | nil =>
    intro k s a l tail h hg hR hr _ ht _ _ hk
    cases k with
    | zero => omega
    | succ k =>
      rw [IS.doInput, peek_spec c s h hg, hr]
      cases tail with
      | nil =>
        have hend := (bump_nil h (by simpa using hr)).2
        have hav : In.inAvail c.inp s.buf = -1 := by
          have := inAvail_end c.inp s.buf.data h.readable
          rw [← hend] at this; exact this
        simp only [List.append_nil, Res.ofOption_some, Res.bind_ok, if_true, hav, strEmpty_rep hR]
        by_cases hl : l = []
        · refine ⟨_, a, rfl, hR, ?_, ?_⟩
          · simp only [hl, decide_true, if_true, IS.setstate]
            show s.rest = []
            simpa using hr
          · simp only [hl, decide_true, if_true, IS.setstate, setstate_setstate]
        · refine ⟨_, a, rfl, hR, ?_, ?_⟩
          · simp only [hl, decide_false, IS.setstate]
            show s.rest = []
            simpa using hr
          · simp [hl, IS.setstate]
      | cons x r =>
        have hx := (isSpace_iff x).mpr (ht x r rfl)
        have hne : c.inp.tr.toInt x ≠ eofCode := (bump_cons h (by simpa using hr)).2.1
        simp only [List.nil_append, Res.ofOption_some, Res.bind_ok, if_neg hne, toChar_toInt, hx, if_true]
        refine ⟨_, a, rfl, by simpa using hR, ?_, ?_⟩
        · show s.rest = x :: r
          simpa using hr
        · rw [if_neg (by simp), setstate_good hg]
  | cons x word ih =>
    intro k s a l tail h hg hR hr hw ht hroom hz hk
    cases k with
    | zero => omega
    | succ k =>
      have hx : isSpace x = false := by
        cases hq : isSpace x
        · rfl
        · exact absurd ((isSpace_iff x).mp hq) (hw x (by simp))
      obtain ⟨h1, h2, h3, h4⟩ := bump_cons h (x := x) (r := word ++ tail) (by simpa using hr)
      simp only [List.length_append, List.length_cons] at hroom
      obtain ⟨a1, e1, e2, e3⟩ := pushBack_rep hR x (by simp; omega) (fun hn e => hz hn (by simp [e]))
      have hge := get_spec c ⟨s.buf, s.ios, 0⟩ ⟨h.readable, h.inside⟩ (good_fits c.ios hg)
      have hr1 : IS.rest ⟨s.buf, s.ios, 0⟩ = x :: (word ++ tail) := by show s.rest = _; simpa using hr
      rw [hr1] at hge
      simp only [IS.after, setstate_good hg] at hge
      rw [IS.doInput, peek_spec c s h hg, hr]
      simp only [List.cons_append, Res.ofOption_some, Res.bind_ok, if_neg h2, toChar_toInt, hx, Bool.false_eq_true, if_false, e1,
        hge]
      obtain ⟨s', a', f1, f2, f3, f4⟩ := ih k ⟨⟨s.buf.data, s.buf.pos + 1⟩, s.ios, 0 + 1⟩ a1 (l ++ [x]) tail ⟨h.readable, h3⟩ hg e2 h4
        (fun y hy => hw y (by simp [hy])) ht (by
          have : room dc a1 = room dc a := by unfold room; rw [e3]
          rw [this]; simp; omega) (fun hn hm => hz hn (by simp [hm])) (by simp at hk; omega)
      refine ⟨s', a', f1, by simpa using f2, f3, ?_⟩
      rw [f4]; simp

/-- C62 for strings: on a good stream `in >> text` skips white space, replaces the text by the characters up to the next
white space or the end, and leaves the stream there.  `eofbit` is set exactly when the text ran out, `failbit` exactly
when there was no character to take.  The word must fit (else C11), and a NUL-terminated string cannot take a NUL. -/
theorem extract_str_partial (c : ISCfg) (dc : DynArray.Cfg Ch) (s : IS) (a : Arr Ch) (l : List Ch) (h : s.Ok c)
    (hg : s.ios.good = true) (hR : Rep dc a l) (white word tail : List Ch) (hr : s.rest = white ++ (word ++ tail))
    (hws : ∀ x ∈ white, Spec.White x) (hw : ∀ x ∈ word, ¬ Spec.White x) (ht : ∀ x r, tail = x :: r → Spec.White x)
    (hmax : word = [] → tail = []) (hroom : word.length ≤ room dc a) (hz : dc.nullTerm = true → dc.zero ∉ word) :
    ∃ s' a', s.extractStr c dc a = .ok (s', a') ∧ Rep dc a' word ∧ Holds dc a' word ∧ s'.rest = tail ∧
      s'.ios = s.ios.setstate c.ios (if tail = [] then (if word = [] then failbit ||| eofbit else eofbit) else 0) := by
  have e1 : s.rest.takeWhile isSpace = white := by
    rw [hr, List.takeWhile_append_of_pos (fun y hm => (isSpace_iff y).mpr (hws y hm))]
    cases word with
    | nil => rw [hmax rfl]; simp
    | cons x r =>
      have hx : isSpace x = false := by
        cases hq : isSpace x
        · rfl
        · exact absurd ((isSpace_iff x).mp hq) (hw x (by simp))
      simp [List.takeWhile_cons, hx]
  have hi := h.inside
  have hrl := rest_length hi
  have hlen : white.length + word.length ≤ s.rest.length := by rw [hr]; simp
  obtain ⟨a1, f1, f2, f3⟩ := clear_rep hR
  have hr1 : IS.rest ⟨⟨s.buf.data, s.buf.pos + white.length⟩, s.ios, 0⟩ = word ++ tail := by
    rw [rest_consumed c s, hr, List.drop_append]; simp
  obtain ⟨s', a', g1, g2, g3, g4⟩ := doInput_spec c dc word (s.buf.data.length + 1)
    ⟨⟨s.buf.data, s.buf.pos + white.length⟩, s.ios, 0⟩ a1 [] tail ⟨h.readable, by simp only; omega⟩ hg f2 hr1 hw ht
    (by have : room dc a1 = room dc a := by unfold room; rw [f3]
        rw [this]; simpa using hroom) hz (by omega)
  refine ⟨s', a', ?_, by simpa using g2, (by simpa using g2 : Rep dc a' word).holds, g3, by simpa using g4⟩
  unfold IS.extractStr
  rw [ws_eq c s h hg, e1]
  simp only [Res.ofOption_some, Res.bind_ok, f1]
  exact g1

example : (IS.init [0x20, 0x41, 0x42, 0x20, 0x43]).extractStr ⟨⟨⟨false, true⟩, .span⟩, ⟨true⟩⟩ ⟨256, true, 0, true⟩
    ⟨[0x5A, 0, 7, 7], 0⟩ = .ok (⟨⟨[0x20, 0x41, 0x42, 0x20, 0x43], 3⟩, Ios.init, 0⟩, ⟨[0x41, 0x42, 0, 7], 0⟩) := by decide +kernel

/-- Violation: on a stream that is not good, `in >> text` empties the string (and sets `failbit` and `eofbit`). -/
theorem extract_str_failed (c : ISCfg) (dc : DynArray.Cfg Ch) (s : IS) (a : Arr Ch) (l : List Ch) (hR : Rep dc a l)
    (hg : s.ios.good = false) (hav : s.buf.inAvail c.inp ≠ 0) :
    ∃ s' a', s.extractStr c dc a = .ok (s', a') ∧ Holds dc a' [] ∧ s'.rest = s.rest ∧
      s'.ios = s.ios.setstate c.ios (failbit ||| eofbit) := by
  obtain ⟨a1, f1, f2, f3⟩ := clear_rep hR
  refine ⟨⟨s.buf, s.ios.setstate c.ios (failbit ||| eofbit), 0⟩, a1, ?_, f2.holds, rfl, rfl⟩
  unfold IS.extractStr
  rw [ws_not_good c s hg]
  simp only [Res.ofOption_some, Res.bind_ok, f1]
  rw [IS.doInput]
  simp only [IS.peek, hg, Bool.false_eq_true, if_false, Res.ofOption_some, Res.bind_ok, if_true, if_neg hav, strEmpty_rep f2,
    decide_true, IS.setstate, setstate_setstate]

end Verif.Streams
