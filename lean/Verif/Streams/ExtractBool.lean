import Verif.Streams.Extract
import Verif.Chooser.Props
import Verif.Streams.OstreamProps

/-!
# C79: extraction of `bool` (`in >> flag`), by digit or, with `boolalpha`, by name

Modelled from `src/estd/istream.h`, `src/estd/internal/locale/num_get.h`,
`src/estd/internal/locale/iterated/num_get.h` and `src/estd/internal/locale/numpunct.h`, over the input stream of
`Streams/Istream.lean` (non-blocking policy), the iterators of `Streams/Extract.lean` and the chooser of
`Chooser/Props.lean` (whose `unsigned short` index is a natural number here: reading past a name is undefined long
before it wraps).
-/
namespace Verif.Streams
open Verif

/-! ## Model -/

/-- `truename()` and `falsename()`, numpunct.h:66-67, in the order of `names`, iterated/num_get.h:397-399 -/
def boolNames : List (List Nat) := [[116, 114, 117, 101], [102, 97, 108, 115, 101]]

/-- `get(c, err, v)` without `boolalpha`, iterated/num_get.h:301-325: whether `failbit` is added, and `v` -/
def boolDigit (x : Ch) : Bool × Bool := if x = 0x30 then (false, false) else if x = 0x31 then (false, true) else (true, true)

/-- `get(c, err, v)` with `boolalpha`, iterated/num_get.h:360-376: the chooser afterwards, and when finished whether
`failbit` is added, and `v`; `none` is undefined behaviour (of the chooser) -/
def boolName (st : Chooser.St) (x : Ch) : Option (Chooser.St × Option (Bool × Bool)) :=
  match Chooser.process boolNames st x.toNat with
  | none => none
  | some (st', false) => some (st', none)
  | some (st', true) =>
    match st'.chosen with
    | some k => some (st', some (false, k = 0))
    | none => some (st', some (true, false))

/-- the two of them; the numeric one has no state and is always finished (322-324) -/
def boolStep (alpha : Bool) (st : Chooser.St) (x : Ch) : Option (Chooser.St × Option (Bool × Bool)) :=
  if alpha then boolName st x else some (st, some (boolDigit x))

/-- how the loop ends: normally (the iterator, `failbit` added, `eofbit` added, `v`), by undefined behaviour, or not
within the rounds allowed -/
inductive BoolExt where
  | ok (i : BufIt) (fail eof v : Bool)
  | ub
  | more
  deriving DecidableEq, Repr

/-- `while(!n.get(in, end, err, v));`, num_get.h:143, with `get(i, end, err, v)`, iterated/num_get.h:327-334, 378-385 -/
def boolLoop (c : InCfg) (alpha : Bool) : Nat → BufIt → Chooser.St → Bool → BoolExt
  | 0, _, _, _ => .more
  | k + 1, i, st, v =>
    if i.equal ⟨i.buf, true⟩ then .ok i false true v
    else
      match i.post c with
      | none => .ub
      | some (i', x) =>
        match boolStep alpha st x with
        | none => .ub
        | some (_, some (fail, v')) => .ok i' fail false v'
        | some (st', none) => boolLoop c alpha k i' st' v

/-- `in >> flag`, istream.h:113-148, num_get.h:133-146, 241-250.  `none`: undefined, or no end within the rounds allowed
(two more than there are characters). -/
def IS.extractBool (c : ISCfg) (s : IS) (value : Bool) : Option (IS × Bool) :=
  match s.ws c with
  | none => none
  | some s1 =>
    match boolLoop c.inp (s1.ios.flags &&& boolalpha != 0) (s1.buf.data.length + 2) ⟨s1.buf, false⟩ ⟨none, 0⟩ value with
    | .ok i fail eof v =>
      some (IS.setstate c ⟨i.buf, s1.ios, s1.gcount⟩
        (s1.ios.rdstate ||| (if fail then failbit else 0) ||| (if eof then eofbit else 0)), v)
    | _ => none

/-- extracting one flag after the other -/
def IS.extractBools (c : ISCfg) : List Bool → IS → Option (IS × List Bool)
  | [], s => some (s, [])
  | v :: vs, s =>
    match s.extractBool c v with
    | none => none
    | some (s', b) =>
      match IS.extractBools c vs s' with
      | none => none
      | some (s'', bs) => some (s'', b :: bs)

/-! ## Specification -/

/-- the text of a name -/
def Spec.nameOf (v : Bool) : List Ch := (if v then "true" else "false").toList.map fun ch => BitVec.ofNat 8 ch.toNat

/-- the text of a digit -/
def Spec.digitOf (v : Bool) : List Ch := if v then [0x31] else [0x30]

/-- how a flag is written on a stream with these flags: by name with `boolalpha` (bit 5), otherwise as a digit -/
def Spec.boolText (flags : BitVec 8) (v : Bool) : List Ch := if Spec.has flags 5 then Spec.nameOf v else Spec.digitOf v

/-! ## The loop over characters that are there -/

/-- the loop over a text: characters consumed, `failbit`, `eofbit`, `v` -/
def boolRun (alpha : Bool) : Chooser.St → Bool → Nat → List Ch → Option (Nat × Bool × Bool × Bool)
  | _, v, n, [] => some (n, false, true, v)
  | st, v, n, x :: l =>
    match boolStep alpha st x with
    | none => none
    | some (_, some (fail, v')) => some (n + 1, fail, false, v')
    | some (st', none) => boolRun alpha st' v (n + 1) l

theorem boolLoop_eq (c : InCfg) (alpha : Bool) : ∀ (l : List Ch) (k : Nat) (b : In) (st : Chooser.St) (v : Bool) (n : Nat),
    Spec.Readable c b.data → b.pos ≤ b.data.length → b.data.drop b.pos = l → l ≠ [] → l.length < k →
    match boolRun alpha st v n l with
    | none => boolLoop c alpha k ⟨b, false⟩ st v = .ub
    | some (m, fail, eof, v') => n ≤ m ∧ ∃ e, boolLoop c alpha k ⟨b, false⟩ st v = .ok ⟨⟨b.data, b.pos + (m - n)⟩, e⟩ fail eof v' := by
  intro l
  induction l with
  | nil => intro _ _ _ _ _ _ _ _ h; exact absurd rfl h
  | cons x r ih =>
    intro k b st v n h hp hl _ hk
    cases k with
    | zero => omega
    | succ k =>
      have e0 := post_spec c b x r h hp hl
      obtain ⟨_, e2, e3⟩ := next_spec c b x r h hp hl
      rw [boolLoop]
      simp only [BufIt.equal, Bool.false_and, Bool.false_eq_true, if_false, Bool.not_false, Bool.not_true, Bool.and_false,
        e0, boolRun]
      rcases hs : boolStep alpha st x with _ | ⟨st', _ | ⟨f, v'⟩⟩
      · simp
      · simp only
        cases r with
        | nil =>
          cases k with
          | zero => simp at hk
          | succ k => simp [boolRun, boolLoop, BufIt.equal]
        | cons y r =>
          have hb : decide (y :: r = []) = false := by simp
          have := ih k ⟨b.data, b.pos + 1⟩ st' v (n + 1) h e2 e3 (by simp) (by simp at hk ⊢; omega)
          rw [hb]
          split at this
          · exact this
          · rename_i m f g w he
            obtain ⟨h1, e, h2⟩ := this
            refine ⟨by omega, e, ?_⟩
            rw [h2]
            have : b.pos + 1 + (m - (n + 1)) = b.pos + (m - n) := by omega
            simp only [this]
      · simp

/-- one extraction on a good stream with something behind the white space -/
theorem extractBool_step (c : ISCfg) (s : IS) (value : Bool) (h : s.Ok c) (hg : s.ios.good = true)
    (hne : s.rest.dropWhile isSpace ≠ []) :
    s.extractBool c value =
      (boolRun (s.ios.flags &&& boolalpha != 0) ⟨none, 0⟩ value 0 (s.rest.dropWhile isSpace)).map fun r =>
      (⟨⟨s.buf.data, s.buf.pos + ((s.rest.takeWhile isSpace).length + r.1)⟩,
        s.ios.setstate c.ios ((if r.2.1 then failbit else 0) ||| if r.2.2.1 then eofbit else 0), 0⟩, r.2.2.2) := by
  have hd := drop_takeWhile_length isSpace s.rest
  have hlen : (s.rest.takeWhile isSpace).length ≤ s.rest.length := (List.takeWhile_prefix _).length_le
  have hrl := rest_length h.inside
  have hi := h.inside
  have key := boolLoop_eq c.inp (s.ios.flags &&& boolalpha != 0) (s.rest.dropWhile isSpace) (s.buf.data.length + 2)
    ⟨s.buf.data, s.buf.pos + (s.rest.takeWhile isSpace).length⟩ ⟨none, 0⟩ value 0 h.readable (by simp only; omega)
    (by rw [← hd]; simp only [IS.rest, List.drop_drop]) hne (by
      have := (List.dropWhile_suffix (l := s.rest) isSpace).length_le; omega)
  unfold IS.extractBool
  rw [ws_eq c s h hg]
  simp only
  split at key
  · rename_i he; rw [he, key]; rfl
  · rename_i m f g w he
    obtain ⟨_, e, h2⟩ := key
    rw [he, h2]
    simp only [IS.setstate, BitVec.or_assoc, setstate_rdstate, Nat.add_assoc, Option.map_some]
    rfl

theorem boolRun_le (alpha : Bool) (l : List Ch) : ∀ (st : Chooser.St) (v : Bool) (n : Nat) r,
    boolRun alpha st v n l = some r → r.1 ≤ n + l.length := by
  induction l with
  | nil => intro st v n r h; simp [boolRun] at h; simp [← h]
  | cons x l ih =>
    intro st v n r h
    rw [boolRun] at h
    split at h
    · simp at h
    · cases h; simp only [List.length_cons]; omega
    · have := ih _ _ _ _ h; simp only [List.length_cons]; omega

/-- an extraction leaves the stream inside its text -/
theorem extractBool_ok (c : ISCfg) (s s' : IS) (value b : Bool) (h : s.Ok c) (hg : s.ios.good = true)
    (hne : s.rest.dropWhile isSpace ≠ []) (he : s.extractBool c value = some (s', b)) : s'.Ok c := by
  rw [extractBool_step c s value h hg hne, Option.map_eq_some_iff] at he
  obtain ⟨r, h1, h2⟩ := he
  have hle := boolRun_le _ _ _ _ _ _ h1
  have hsum : (s.rest.takeWhile isSpace).length + (s.rest.dropWhile isSpace).length = s.rest.length := by
    rw [← List.length_append, List.takeWhile_append_dropWhile]
  have hrl := rest_length h.inside
  have hi := h.inside
  cases h2
  exact ⟨h.readable, by simp only; omega⟩

/-- white space in front is skipped -/
theorem split_white (l white text : List Ch) (hr : l = white ++ text) (hw : ∀ x ∈ white, Spec.White x)
    (hx : ∀ x r, text = x :: r → ¬ Spec.White x) : l.takeWhile isSpace = white ∧ l.dropWhile isSpace = text := by
  have ht : text.takeWhile isSpace = [] ∧ text.dropWhile isSpace = text := by
    cases text with
    | nil => simp
    | cons x r =>
      have : isSpace x = false := by
        cases hq : isSpace x
        · rfl
        · exact absurd ((isSpace_iff x).mp hq) (hx x r rfl)
      simp [List.takeWhile_cons, List.dropWhile_cons, this]
  constructor
  · rw [hr, List.takeWhile_append_of_pos (fun x hm => (isSpace_iff x).mpr (hw x hm)), ht.1, List.append_nil]
  · rw [hr, List.dropWhile_append_of_pos (fun x hm => (isSpace_iff x).mpr (hw x hm)), ht.2]

theorem alpha_iff (f : BitVec 8) : (f &&& boolalpha != 0) = true ↔ Spec.has f 5 := by
  revert f; unfold Spec.has; decide +kernel

theorem alpha_false (f : BitVec 8) (h : ¬ Spec.has f 5) : (f &&& boolalpha != 0) = false := by
  cases hh : (f &&& boolalpha != 0)
  · rfl
  · exact absurd ((alpha_iff f).mp hh) h

/-! ## Digits -/

/-- C79 without `boolalpha`: on a good stream with something behind the white space, `in >> flag` skips the white space
and takes one character: `0` stores false, `1` true, anything else true with `failbit`.
Missing: only one digit is looked at (`bool_one_digit`), a character that is no digit is taken all the same, and
`eofbit` is never set; the end of the text (`bool_at_end`). -/
theorem bool_digit_partial (c : ISCfg) (s : IS) (value : Bool) (h : s.Ok c) (hg : s.ios.good = true)
    (hf : ¬ Spec.has s.ios.flags 5) (white : List Ch) (x : Ch) (rest : List Ch)
    (hr : s.rest = white ++ x :: rest) (hw : ∀ y ∈ white, Spec.White y) (hx : ¬ Spec.White x) :
    ∃ s', s.extractBool c value = some (s', decide (x ≠ 0x30)) ∧
      Spec.Consumed c s (white.length + 1) (if x = 0x30 ∨ x = 0x31 then 0 else failbit) s' := by
  obtain ⟨e1, e2⟩ := split_white s.rest white (x :: rest) hr hw (by intro y r e; cases e; exact hx)
  rw [extractBool_step c s value h hg (by rw [e2]; simp), e1, e2, alpha_false _ hf]
  refine ⟨⟨⟨s.buf.data, s.buf.pos + (white.length + 1)⟩,
    s.ios.setstate c.ios (if x = 0x30 ∨ x = 0x31 then 0 else failbit), 0⟩, ?_, rest_consumed c s (white.length + 1) _ _,
    rfl, rfl, rfl⟩
  simp only [boolRun, boolStep, boolDigit, Bool.false_eq_true, if_false]
  by_cases h0 : x = 0x30
  · simp [h0]
  · by_cases h1 : x = 0x31
    · simp [h1]
    · simp only [h0, h1, if_false, or_self]; simp; exact h0

/-- **Violation.** Only one digit is looked at: the digits of `10` (no flag) give true, the stream stays good and the
`0` is left behind. -/
theorem bool_one_digit (c : ISCfg) (s : IS) (value : Bool) (h : s.Ok c) (hg : s.ios.good = true)
    (hf : ¬ Spec.has s.ios.flags 5) (rest : List Ch) (hr : s.rest = 0x31 :: rest) :
    ∃ s', s.extractBool c value = some (s', true) ∧ s'.ios.good = true ∧ s'.rest = rest := by
  obtain ⟨s', e, h1, _, h3, _⟩ := bool_digit_partial c s value h hg hf [] 0x31 rest hr (by simp)
    (by rw [← isSpace_iff]; decide)
  refine ⟨s', by simpa using e, ?_, by rw [h1, hr]; rfl⟩
  rw [h3, if_pos (Or.inr rfl), setstate_zero c.ios s.ios (good_fits c.ios hg)]
  exact hg

example : (IS.init [0x20, 0x31, 0x30]).extractBool ⟨⟨⟨false, true⟩, .span⟩, ⟨true⟩⟩ false =
    some (⟨⟨[0x20, 0x31, 0x30], 2⟩, Ios.init, 0⟩, true) := by decide +kernel

/-! ## Names -/

theorem name_toNat (v : Bool) : boolNames[(if v then 0 else 1 : Nat)]? = some ((Spec.nameOf v).map BitVec.toNat) := by
  cases v <;> decide

/-- once a name is chosen: the name is matched to its end, or the text departs from it, or it ends first -/
theorem chosen_run (k : Nat) (name : List Ch) (hk : boolNames[k]? = some (name.map BitVec.toNat)) (v : Bool) :
    ∀ (rest text : List Ch) (i n : Nat), name.drop i = rest → rest ≠ [] →
    (rest <+: text → boolRun true ⟨some k, i⟩ v n text = some (n + rest.length, false, false, decide (k = 0))) ∧
    (∀ common x r y t, rest = common ++ x :: r → text = common ++ y :: t → x ≠ y →
      boolRun true ⟨some k, i⟩ v n text = some (n + common.length + 1, true, false, false)) ∧
    (text <+: rest → text ≠ rest → boolRun true ⟨some k, i⟩ v n text = some (n + text.length, false, true, v)) := by
  intro rest text
  induction text generalizing rest with
  | nil =>
    intro i n _ hne
    refine ⟨?_, ?_, ?_⟩
    · intro h; exact absurd (List.prefix_nil.mp h) hne
    · intro common x r y t _ h _; simp at h
    · intro _ _; simp [boolRun]
  | cons c text ih =>
    intro i n hrest hne
    obtain ⟨x, rest', rfl⟩ : ∃ x r, rest = x :: r := by
      cases rest with
      | nil => exact absurd rfl hne
      | cons x r => exact ⟨x, r, rfl⟩
    have hx : name[i]? = some x := by
      have := congrArg List.head? hrest
      simpa [List.head?_drop] using this
    have hi : i < name.length := (List.getElem?_eq_some_iff.mp hx).1
    have hrest' : name.drop (i + 1) = rest' := by
      have := congrArg List.tail hrest
      simpa [List.tail_drop] using this
    have hlen : rest'.length = name.length - (i + 1) := by rw [← hrest']; simp
    have hrd : rd (name.map BitVec.toNat ++ [0]) i = some x.toNat := by
      rw [rd, List.getElem?_append_left (by simpa using hi)]; simp [hx]
    by_cases hxc : x = c
    · subst hxc
      by_cases hlast : i + 1 = name.length
      · have hr' : rest' = [] := List.length_eq_zero_iff.mp (by omega)
        subst hr'
        have hp : boolStep true ⟨some k, i⟩ x = some (⟨some k, i⟩, some (false, decide (k = 0))) := by
          simp [boolStep, boolName, Chooser.process, hk, hrd, hlast]
        simp only [boolRun, hp]
        refine ⟨fun _ => by simp, ?_, ?_⟩
        · intro common a r y t h1 h2 h3
          cases common with
          | nil => simp at h1 h2; exact absurd (h1.1.symm.trans h2.1) h3
          | cons z zs => simp at h1
        · intro h1 h2
          have := h1.length_le
          simp at this
          exact absurd (by rw [this]) h2
      · have hr' : rest' ≠ [] := by
          intro h0; rw [h0] at hlen; simp at hlen; omega
        have hp : boolStep true ⟨some k, i⟩ x = some (⟨some k, i + 1⟩, none) := by
          simp [boolStep, boolName, Chooser.process, hk, hrd, hlast]
        simp only [boolRun, hp]
        obtain ⟨e1, e2, e3⟩ := ih rest' (i + 1) (n + 1) hrest' hr'
        refine ⟨fun h => ?_, ?_, fun h h2 => ?_⟩
        · rw [e1 (by simpa [List.cons_prefix_cons] using h)]; simp; omega
        · intro common a r y t h1 h2 h3
          cases common with
          | nil => simp at h1 h2; exact absurd (h1.1.symm.trans h2.1) h3
          | cons z zs =>
            simp only [List.cons_append, List.cons.injEq] at h1 h2
            rw [e2 zs a r y t h1.2 h2.2 h3]; simp; omega
        · rw [e3 (by simpa [List.cons_prefix_cons] using h) (by simpa using h2)]; simp; omega
    · have hxn : x.toNat ≠ c.toNat := fun hh => hxc (BitVec.eq_of_toNat_eq hh)
      have hp : boolStep true ⟨some k, i⟩ c = some (⟨none, i⟩, some (true, false)) := by
        simp [boolStep, boolName, Chooser.process, hk, hrd, hxn]
      simp only [boolRun, hp]
      refine ⟨fun h => ?_, ?_, fun h _ => ?_⟩
      · simp [List.cons_prefix_cons, hxc] at h
      · intro common a r y t h1 h2 h3
        cases common with
        | nil => simp
        | cons z zs => simp at h1 h2; exact absurd (h1.1.trans h2.1.symm) hxc
      · simp [List.cons_prefix_cons] at h; exact absurd h.1.symm hxc

theorem first_letter (v w : Bool) (n : Nat) (t : List Ch) :
    boolRun true ⟨none, 0⟩ w n ((Spec.nameOf v).head (by cases v <;> decide) :: t) =
      boolRun true ⟨some (if v then 0 else 1), 1⟩ w (n + 1) t := by
  cases v
  · have : boolStep true ⟨none, 0⟩ 0x66 = some (⟨some 1, 1⟩, none) := by decide +kernel
    show boolRun true ⟨none, 0⟩ w n (0x66 :: t) = _
    rw [boolRun, this]; rfl
  · have : boolStep true ⟨none, 0⟩ 0x74 = some (⟨some 0, 1⟩, none) := by decide +kernel
    show boolRun true ⟨none, 0⟩ w n (0x74 :: t) = _
    rw [boolRun, this]; rfl

/-- a text that begins with the first letter of a name -/
theorem name_run (v w : Bool) (text : List Ch) :
    (Spec.nameOf v <+: text → boolRun true ⟨none, 0⟩ w 0 text = some ((Spec.nameOf v).length, false, false, v)) ∧
    (∀ common x r y t, common ≠ [] → Spec.nameOf v = common ++ x :: r → text = common ++ y :: t → x ≠ y →
      boolRun true ⟨none, 0⟩ w 0 text = some (common.length + 1, true, false, false)) ∧
    (text <+: Spec.nameOf v → text ≠ Spec.nameOf v → text ≠ [] →
      boolRun true ⟨none, 0⟩ w 0 text = some (text.length, false, true, w)) := by
  obtain ⟨a, tl, hn, hne⟩ : ∃ a tl, Spec.nameOf v = a :: tl ∧ tl ≠ [] := by
    cases v
    · exact ⟨_, _, rfl, by decide⟩
    · exact ⟨_, _, rfl, by decide⟩
  have hf : ∀ t, boolRun true ⟨none, 0⟩ w 0 (a :: t) = boolRun true ⟨some (if v then 0 else 1), 1⟩ w 1 t := by
    intro t
    have := first_letter v w 0 t
    simpa [hn] using this
  have key := chosen_run (if v then 0 else 1) (Spec.nameOf v) (name_toNat v) w tl
  have h1 : (Spec.nameOf v).drop 1 = tl := by rw [hn]; rfl
  refine ⟨?_, ?_, ?_⟩
  · rintro ⟨t, rfl⟩
    have := (key (tl ++ t) 1 1 h1 hne).1 (List.prefix_append _ _)
    rw [hn, List.cons_append, hf, this]
    cases v <;> simp <;> omega
  · intro common x r y t hc e1 e2 hxy
    obtain ⟨z, zs, rfl⟩ : ∃ z zs, common = z :: zs := by
      cases common with
      | nil => exact absurd rfl hc
      | cons z zs => exact ⟨z, zs, rfl⟩
    rw [hn] at e1
    simp only [List.cons_append, List.cons.injEq] at e1
    obtain ⟨rfl, e1⟩ := e1
    have := (key (zs ++ y :: t) 1 1 h1 hne).2.1 zs x r y t e1 rfl hxy
    rw [e2, List.cons_append, hf, this]
    simp; omega
  · intro hp hne2 h0
    obtain ⟨z, zs, rfl⟩ : ∃ z zs, text = z :: zs := by
      cases text with
      | nil => exact absurd rfl h0
      | cons z zs => exact ⟨z, zs, rfl⟩
    rw [hn, List.cons_prefix_cons] at hp
    obtain ⟨rfl, hp⟩ := hp
    have := (key zs 1 1 h1 hne).2.2 hp (by intro e; apply hne2; rw [hn, e])
    rw [hf, this]; simp; omega

theorem name_not_white (v : Bool) (common t : List Ch) (hc : common ≠ []) (hp : common <+: Spec.nameOf v) :
    ∀ x r, common ++ t = x :: r → ¬ Spec.White x := by
  intro x r e
  obtain ⟨u, hu⟩ := hp
  cases common with
  | nil => exact absurd rfl hc
  | cons z zs =>
    simp only [List.cons_append, List.cons.injEq] at e
    rw [← e.1, ← isSpace_iff]
    have : (Spec.nameOf v).head? = some z := by simp [← hu]
    cases v
    · have e : z = 0x66 := by
        have h2 : (Spec.nameOf false).head? = some 0x66 := by decide
        rw [h2] at this; cases this; rfl
      rw [e]; decide
    · have e : z = 0x74 := by
        have h2 : (Spec.nameOf true).head? = some 0x74 := by decide
        rw [h2] at this; cases this; rfl
      rw [e]; decide

/-- C79 with `boolalpha`: on a good stream whose text behind the white space begins with the letters of a name,
`in >> flag` takes the whole name, stores its value and leaves the state as it is; if the text departs from the name
after one or more letters, it sets `failbit` and stores false.
Missing: the character by which it departs is taken too; a text that ends inside the name (`bool_name_cut_short`); one
that begins with another character (`bool_first_letter_free`, `bool_no_name_undefined`); the end of the text
(`bool_at_end`). -/
theorem bool_name_partial (c : ISCfg) (s : IS) (value v : Bool) (h : s.Ok c) (hg : s.ios.good = true)
    (hf : Spec.has s.ios.flags 5) (white common rest : List Ch) (hr : s.rest = white ++ (common ++ rest))
    (hw : ∀ y ∈ white, Spec.White y) (hc : common ≠ []) (hp : common <+: Spec.nameOf v) :
    (common = Spec.nameOf v → ∃ s', s.extractBool c value = some (s', v) ∧
      Spec.Consumed c s (white.length + (Spec.nameOf v).length) 0 s') ∧
    (∀ y t, rest = y :: t → common ≠ Spec.nameOf v → ¬ (common ++ [y] <+: Spec.nameOf v) →
      ∃ s', s.extractBool c value = some (s', false) ∧ Spec.Consumed c s (white.length + common.length + 1) failbit s') := by
  obtain ⟨e1, e2⟩ := split_white s.rest white (common ++ rest) hr hw (name_not_white v common rest hc hp)
  have step := extractBool_step c s value h hg (by rw [e2]; simp [hc])
  rw [e1, e2, (alpha_iff _).mpr hf] at step
  obtain ⟨r1, r2, _⟩ := name_run v value (common ++ rest)
  refine ⟨fun e => ?_, ?_⟩
  · subst e
    rw [r1 (List.prefix_append _ _)] at step
    exact ⟨_, step, rest_consumed c s _ _ _, rfl, by simp, rfl⟩
  · intro y t e hne hny
    subst e
    obtain ⟨u, hu⟩ := hp
    obtain ⟨x, r, rfl⟩ : ∃ x r, u = x :: r := by
      cases u with
      | nil => exact absurd (by simpa using hu) hne
      | cons x r => exact ⟨x, r, rfl⟩
    have hxy : x ≠ y := by
      rintro rfl
      exact hny ⟨r, by simpa using hu⟩
    rw [r2 common x r y t hc hu.symm rfl hxy] at step
    exact ⟨_, step, by rw [Nat.add_assoc]; exact rest_consumed c s _ _ _, rfl, by simp, rfl⟩

example : (IS.mk ⟨[0x20, 0x66, 0x61, 0x6C, 0x73, 0x65, 0x21], 0⟩ ⟨0x20, 0, 0⟩ 0).extractBool ⟨⟨⟨false, true⟩, .span⟩, ⟨true⟩⟩ true =
    some (⟨⟨[0x20, 0x66, 0x61, 0x6C, 0x73, 0x65, 0x21], 6⟩, ⟨0x20, 0, 0⟩, 0⟩, false) := by decide +kernel

example : (IS.mk ⟨[0x74, 0x72, 0x69, 0x70], 0⟩ ⟨0x20, 0, 0⟩ 0).extractBool ⟨⟨⟨false, true⟩, .span⟩, ⟨true⟩⟩ true =
    some (⟨⟨[0x74, 0x72, 0x69, 0x70], 3⟩, ⟨0x20, failbit, 0⟩, 0⟩, false) := by decide +kernel

/-- **Violation.** A name cut short by the end of the text is no error: `in >> flag` consumes it, sets `eofbit` only
(`fail()` stays false) and leaves the variable as it was. -/
theorem bool_name_cut_short (c : ISCfg) (s : IS) (value v : Bool) (h : s.Ok c) (hg : s.ios.good = true)
    (hf : Spec.has s.ios.flags 5) (white text : List Ch) (hr : s.rest = white ++ text)
    (hw : ∀ y ∈ white, Spec.White y) (hc : text ≠ []) (hp : text <+: Spec.nameOf v) (hne : text ≠ Spec.nameOf v) :
    ∃ s', s.extractBool c value = some (s', value) ∧ s'.rest = [] ∧ s'.ios.fail = false ∧ s'.ios.eof = true := by
  obtain ⟨e1, e2⟩ := split_white s.rest white text hr hw (by
    have := name_not_white v text [] hc hp
    simpa using this)
  have step := extractBool_step c s value h hg (by rw [e2]; exact hc)
  rw [e1, e2, (alpha_iff _).mpr hf, (name_run v value text).2.2 hp hne hc] at step
  refine ⟨_, step, ?_, ?_, ?_⟩
  · rw [rest_consumed c s, hr]; simp
  · simp only [Ios.fail, Ios.rdstate, Ios.setstate, good_state hg]
    unfold IosCfg.truncState
    split <;> simp [failbit, eofbit, badbit]
  · simp only [Ios.eof, Ios.rdstate, Ios.setstate, good_state hg]
    unfold IosCfg.truncState
    split <;> simp [eofbit]

example : (IS.mk ⟨[0x74, 0x72, 0x75], 0⟩ ⟨0x20, 0, 0⟩ 0).extractBool ⟨⟨⟨false, true⟩, .span⟩, ⟨true⟩⟩ true =
    some (⟨⟨[0x74, 0x72, 0x75], 3⟩, ⟨0x20, eofbit, 0⟩, 0⟩, true) := by decide +kernel

/-- **Violation.** The first letter does not matter unless it begins the other name: any character, not white space and
neither `t` nor `f`, followed by `rue` or `alse` is taken for the name, without error. -/
theorem bool_first_letter_free (c : ISCfg) (s : IS) (value v : Bool) (h : s.Ok c) (hg : s.ios.good = true)
    (hf : Spec.has s.ios.flags 5) (x : Ch) (t : List Ch) (hr : s.rest = x :: ((Spec.nameOf v).drop 1 ++ t))
    (hx : ¬ Spec.White x) (ht : x ≠ 0x74) (hff : x ≠ 0x66) :
    ∃ s', s.extractBool c value = some (s', v) ∧ s'.rest = t ∧ s'.ios.good = true := by
  obtain ⟨e1, e2⟩ := split_white s.rest [] _ hr (by simp) (by intro y r e; cases e; exact hx)
  have step := extractBool_step c s value h hg (by rw [e2]; simp)
  have ht' : ¬ (116 = x.toNat) := fun hh => ht (BitVec.eq_of_toNat_eq (by rw [← hh]; rfl))
  have hf' : ¬ (102 = x.toNat) := fun hh => hff (BitVec.eq_of_toNat_eq (by rw [← hh]; rfl))
  have s0 : boolStep true ⟨none, 0⟩ x = some (⟨none, 1⟩, none) := by
    simp [boolStep, boolName, Chooser.process, Chooser.scan, boolNames, rd, ht', hf']
  have run : boolRun true ⟨none, 0⟩ value 0 (x :: ((Spec.nameOf v).drop 1 ++ t)) =
      some ((Spec.nameOf v).length, false, false, v) := by
    have s1 : ∀ y r, boolRun true ⟨none, 0⟩ value 0 (x :: y :: r) = (match boolStep true ⟨none, 1⟩ y with
      | none => none
      | some (_, some (fail, v')) => some (2, fail, false, v')
      | some (st', none) => boolRun true st' value 2 r) := by intro y r; simp [boolRun, s0]
    cases v
    · have key := (chosen_run 1 (Spec.nameOf false) (name_toNat false) value [0x6C, 0x73, 0x65] ([0x6C, 0x73, 0x65] ++ t) 2 2
        (by decide) (by simp)).1 (List.prefix_append _ _)
      have s2 : boolStep true ⟨none, 1⟩ 0x61 = some (⟨some 1, 2⟩, none) := by decide +kernel
      show boolRun true ⟨none, 0⟩ value 0 (x :: 0x61 :: ([0x6C, 0x73, 0x65] ++ t)) = _
      rw [s1, s2]
      simp only [key]
      rfl
    · have key := (chosen_run 0 (Spec.nameOf true) (name_toNat true) value [0x75, 0x65] ([0x75, 0x65] ++ t) 2 2
        (by decide) (by simp)).1 (List.prefix_append _ _)
      have s2 : boolStep true ⟨none, 1⟩ 0x72 = some (⟨some 0, 2⟩, none) := by decide +kernel
      show boolRun true ⟨none, 0⟩ value 0 (x :: 0x72 :: ([0x75, 0x65] ++ t)) = _
      rw [s1, s2]
      simp only [key]
      rfl
  rw [e1, e2, (alpha_iff _).mpr hf, run] at step
  refine ⟨_, step, ?_, ?_⟩
  · rw [rest_consumed c s, hr]
    cases v <;> simp [Spec.nameOf]
  · have := setstate_zero c.ios s.ios (good_fits c.ios hg)
    simp only [Bool.false_eq_true, if_false]
    rw [show (0 : BitVec 8) ||| 0 = 0 from rfl, this]; exact hg

example : (IS.mk ⟨[0x78, 0x72, 0x75, 0x65], 0⟩ ⟨0x20, 0, 0⟩ 0).extractBool ⟨⟨⟨false, true⟩, .span⟩, ⟨true⟩⟩ false =
    some (⟨⟨[0x78, 0x72, 0x75, 0x65], 4⟩, ⟨0x20, 0, 0⟩, 0⟩, true) := by decide +kernel

/-- **Violation.** With `boolalpha`, six characters that occur in neither name (and are not null characters) make
`in >> flag` read past the end of a name: undefined behaviour, whatever follows. -/
theorem bool_no_name_undefined (c : ISCfg) (s : IS) (value : Bool) (h : s.Ok c) (hg : s.ios.good = true)
    (hf : Spec.has s.ios.flags 5) (word t : List Ch) (hr : s.rest = word ++ t) (hl : word.length = 6)
    (hx : ∀ x ∈ word, x ≠ 0 ∧ x ∉ Spec.nameOf true ∧ x ∉ Spec.nameOf false)
    (hws : ∀ x r, word = x :: r → ¬ Spec.White x) : s.extractBool c value = none := by
  match word, hl with
  | [a0, a1, a2, a3, a4, a5], _ =>
  obtain ⟨e1, e2⟩ := split_white s.rest [] _ hr (by simp) (by intro y r e; simp at e; exact hws y _ (by rw [e.1]))
  have step := extractBool_step c s value h hg (by rw [e2]; simp)
  have hne : ∀ x ∈ [a0, a1, a2, a3, a4, a5], ∀ m : Nat, m ∈ [0, 116, 114, 117, 101, 102, 97, 108, 115] → ¬ (m = x.toNat) := by
    intro x hx1 m hm e
    obtain ⟨h0, h1, h2⟩ := hx x hx1
    have hm' : x = BitVec.ofNat 8 m := by rw [e]; simp
    subst hm'
    simp only [List.mem_cons, List.not_mem_nil, or_false] at hm
    rcases hm with rfl | rfl | rfl | rfl | rfl | rfl | rfl | rfl | rfl <;>
      first | exact h0 (by decide) | exact h1 (by decide) | exact h2 (by decide)
  have st : ∀ i, i < 5 → ∀ x ∈ [a0, a1, a2, a3, a4, a5], boolStep true ⟨none, i⟩ x = some (⟨none, i + 1⟩, none) := by
    intro i hi x hx1
    have hh := hne x hx1
    have : i = 0 ∨ i = 1 ∨ i = 2 ∨ i = 3 ∨ i = 4 := by omega
    rcases this with rfl | rfl | rfl | rfl | rfl <;>
      simp [boolStep, boolName, Chooser.process, Chooser.scan, boolNames, rd, hh 0, hh 116, hh 114, hh 117, hh 101, hh 102, hh 97, hh 108, hh 115]
  have s5 : boolStep true ⟨none, 5⟩ a5 = none := by
    simp [boolStep, boolName, Chooser.process, Chooser.scan, boolNames, rd]
  rw [e1, e2, (alpha_iff _).mpr hf] at step
  rw [step]
  simp [boolRun, st, s5]

example : (IS.mk ⟨[0x78, 0x79, 0x7A, 0x78, 0x79, 0x7A], 0⟩ ⟨0x20, 0, 0⟩ 0).extractBool ⟨⟨⟨false, true⟩, .span⟩, ⟨true⟩⟩ false =
    none := by decide +kernel

/-! ## The end of the text -/

/-- **Violation.** With nothing but white space left, `in >> flag` sets `failbit` but not `eofbit` and stores true;
with `boolalpha` it sets `eofbit` but not `failbit` (the stream still tests as successful) and stores nothing. -/
theorem bool_at_end (c : ISCfg) (s : IS) (value : Bool) (h : s.Ok c) (hg : s.ios.good = true)
    (hw : ∀ x ∈ s.rest, Spec.White x) :
    (¬ Spec.has s.ios.flags 5 → ∃ s', s.extractBool c value = some (s', true) ∧ s'.ios.fail = true ∧ s'.ios.eof = false) ∧
    (Spec.has s.ios.flags 5 → ∃ s', s.extractBool c value = some (s', value) ∧ s'.ios.fail = false ∧ s'.ios.eof = true) := by
  have e1 : s.rest.takeWhile isSpace = s.rest := by
    have := List.takeWhile_append_of_pos (p := isSpace) (l₁ := s.rest) (l₂ := []) (fun x hm => (isSpace_iff x).mpr (hw x hm))
    simpa using this
  have hrl := rest_length h.inside
  have hi := h.inside
  have hend : s.buf.pos + s.rest.length = s.buf.data.length := by omega
  have hg2 := sgetc_rest c.inp ⟨s.buf.data, s.buf.data.length⟩ [] h.readable (by simp) (by simp)
  have hb : (In.mk s.buf.data s.buf.data.length).snextc c.inp = some (⟨s.buf.data, s.buf.data.length⟩, eofCode) := by
    simp [In.snextc, In.sbumpc, hg2]
  have hpost : BufIt.post c.inp ⟨⟨s.buf.data, s.buf.data.length⟩, false⟩ = some (⟨⟨s.buf.data, s.buf.data.length⟩, true⟩, 0xFF) := by
    simp only [BufIt.post, Bool.false_eq_true, if_false, hg2, BufIt.next, hb, inAvail_end c.inp s.buf.data h.readable, toChar_eof]
    simp
  have heq : ∀ b : In, BufIt.equal ⟨b, false⟩ ⟨b, true⟩ = false := fun _ => rfl
  have heq2 : ∀ b : In, BufIt.equal ⟨b, true⟩ ⟨b, true⟩ = true := fun _ => rfl
  constructor
  · intro hf
    have : s.extractBool c value = some (⟨⟨s.buf.data, s.buf.data.length⟩, s.ios.setstate c.ios failbit, 0⟩, true) := by
      unfold IS.extractBool
      rw [ws_eq c s h hg, e1, hend]
      simp only [alpha_false _ hf, boolLoop, heq, hpost, Bool.false_eq_true, if_false, boolStep, boolDigit]
      simp [IS.setstate, setstate_rdstate]
    refine ⟨_, this, ?_, ?_⟩
    · simp only [Ios.fail, Ios.rdstate, Ios.setstate, good_state hg]
      unfold IosCfg.truncState
      split <;> simp [failbit, badbit]
    · simp only [Ios.eof, Ios.setstate, Ios.rdstate, good_state hg]
      unfold IosCfg.truncState
      split <;> simp [failbit, eofbit]
  · intro hf
    have hst : boolStep true ⟨none, 0⟩ 0xFF = some (⟨none, 1⟩, none) := by decide +kernel
    have : s.extractBool c value = some (⟨⟨s.buf.data, s.buf.data.length⟩, s.ios.setstate c.ios eofbit, 0⟩, value) := by
      unfold IS.extractBool
      rw [ws_eq c s h hg, e1, hend]
      simp only [(alpha_iff _).mpr hf, boolLoop, heq, hpost, Bool.false_eq_true, if_false, hst, heq2, if_true]
      simp [IS.setstate, setstate_rdstate]
    refine ⟨_, this, ?_, ?_⟩
    · simp only [Ios.fail, Ios.rdstate, Ios.setstate, good_state hg]
      unfold IosCfg.truncState
      split <;> simp [failbit, badbit, eofbit]
    · simp only [Ios.eof, Ios.setstate, Ios.rdstate, good_state hg]
      unfold IosCfg.truncState
      split <;> simp [eofbit]

example : ((IS.mk ⟨[0x20], 0⟩ ⟨0x20, 0, 0⟩ 0).extractBool ⟨⟨⟨false, true⟩, .span⟩, ⟨true⟩⟩ true).map (·.2) = some true ∧
    ((IS.init [0x20]).extractBool ⟨⟨⟨false, true⟩, .span⟩, ⟨true⟩⟩ false).map (·.2) = some true := by decide +kernel

/-! ## What was written is read back -/

/-- the text of `out << flag` is what the specification says -/
theorem boolText_eq (ios : Ios) (v : Bool) : (Spec.boolText ios.flags v).map BitVec.toNat = putBool ios v := by
  unfold Spec.boolText putBool
  by_cases hf : Spec.has ios.flags 5
  · have h2 := (alpha_iff _).mpr hf
    rw [if_pos hf, if_pos (by simpa using h2)]
    cases v <;> decide
  · have h2 := alpha_false _ hf
    rw [if_neg hf, if_neg (by simpa using h2)]
    cases v <;> decide

/-- one flag followed by anything -/
theorem bool_one (c : ISCfg) (s : IS) (value v : Bool) (h : s.Ok c) (hg : s.ios.good = true) (white rest : List Ch)
    (hr : s.rest = white ++ (Spec.boolText s.ios.flags v ++ rest)) (hw : ∀ y ∈ white, Spec.White y) :
    ∃ s', s.extractBool c value = some (s', v) ∧ s'.rest = rest ∧ s'.Ok c ∧ s'.ios = s.ios := by
  have hz := setstate_zero c.ios s.ios (good_fits c.ios hg)
  by_cases hf : Spec.has s.ios.flags 5
  · have ht : Spec.boolText s.ios.flags v = Spec.nameOf v := by simp [Spec.boolText, hf]
    rw [ht] at hr
    obtain ⟨s', e, h1, h2, h3, _⟩ := (bool_name_partial c s value v h hg hf white (Spec.nameOf v) rest hr hw
      (by cases v <;> decide) (List.prefix_refl _)).1 rfl
    have hne : s.rest.dropWhile isSpace ≠ [] := by
      rw [(split_white s.rest white _ hr hw (name_not_white v _ rest (by cases v <;> decide) (List.prefix_refl _))).2]
      cases v <;> simp [Spec.nameOf]
    refine ⟨s', e, ?_, extractBool_ok c s s' value v h hg hne e, by rw [h3, hz]⟩
    rw [h1, hr, ← List.append_assoc, ← List.length_append, List.drop_left]
  · have ht : Spec.boolText s.ios.flags v = Spec.digitOf v := by simp [Spec.boolText, hf]
    rw [ht] at hr
    obtain ⟨x, hx, hxv, hxo, hxw⟩ : ∃ x, Spec.digitOf v = [x] ∧ decide (x ≠ 0x30) = v ∧ (x = 0x30 ∨ x = 0x31) ∧ ¬ Spec.White x := by
      cases v
      · exact ⟨0x30, rfl, by decide, by decide, by rw [← isSpace_iff]; decide⟩
      · exact ⟨0x31, rfl, by decide, by decide, by rw [← isSpace_iff]; decide⟩
    rw [hx] at hr
    obtain ⟨s', e, h1, h2, h3, _⟩ := bool_digit_partial c s value h hg hf white x rest (by simpa using hr) hw hxw
    have hne : s.rest.dropWhile isSpace ≠ [] := by
      rw [(split_white s.rest white (x :: rest) (by simpa using hr) hw (by intro y r e; cases e; exact hxw)).2]; simp
    refine ⟨s', by rw [e, hxv], ?_, extractBool_ok c s s' value _ h hg hne e, by rw [h3, if_pos hxo, hz]⟩
    rw [h1, hr, ← List.append_assoc, List.drop_left' (by simp)]

/-- C79, the round trip: any number of flags, written as `out << flag` writes them under the same format flags and each
preceded by white space (none is needed: names and digits need no separator), are read back, one after the other, with
the stream good throughout and standing behind the last of them. -/
theorem bool_round_trip (c : ISCfg) (vs : List Bool) : ∀ (s : IS) (values : List Bool) (whites : List (List Ch)) (rest : List Ch),
    s.Ok c → s.ios.good = true → values.length = vs.length → whites.length = vs.length →
    (∀ w ∈ whites, ∀ y ∈ w, Spec.White y) →
    s.rest = (List.zipWith (fun w v => w ++ Spec.boolText s.ios.flags v) whites vs).flatten ++ rest →
    ∃ s', s.extractBools c values = some (s', vs) ∧ s'.rest = rest ∧ s'.ios = s.ios := by
  induction vs with
  | nil =>
    intro s values whites rest _ _ hl1 hl2 _ hr
    have : values = [] := List.length_eq_zero_iff.mp hl1
    subst this
    have : whites = [] := List.length_eq_zero_iff.mp hl2
    subst this
    exact ⟨s, rfl, by simpa using hr, rfl⟩
  | cons v vs ih =>
    intro s values whites rest h hg hl1 hl2 hw hr
    match values, whites, hl1, hl2 with
    | value :: values, w :: whites, hl1, hl2 =>
    simp only [List.zipWith_cons_cons, List.flatten_cons, List.append_assoc] at hr
    obtain ⟨s', e, h1, h2, h3⟩ := bool_one c s value v h hg w _ hr (hw w (by simp))
    obtain ⟨s'', e', h1', h3'⟩ := ih s' values whites rest h2 (by rw [h3]; exact hg) (by simpa using hl1) (by simpa using hl2)
      (fun w' hw' => hw w' (by simp [hw'])) (by rw [h1, h3])
    exact ⟨s'', by simp [IS.extractBools, e, e'], h1', by rw [h3', h3]⟩

end Verif.Streams
