import Verif.Streams.IstreamProps
import Verif.Charconv.NumGet
import Verif.Text.Ctype

/-!
# C62: formatted extraction (`in >> value`) and `istreambuf_iterator`

Modelled from `src/estd/istream.h`, `src/estd/internal/istreambuf_iterator.h`, `src/estd/iterator.h`,
`src/estd/internal/locale/num_get.h` and `src/estd/internal/istream_runtimearray.hpp`, over the input stream of
`Streams/Istream.lean` (non-blocking policy) and the digit machine of `Charconv/NumGet.lean`.
-/
namespace Verif.Streams
open Verif Verif.DynArray

/-! ## Model -/

/-- `isspace((char) ch, loc)`, locale.h:65-69, with the mask `ctype_base::space` -/
def isSpace (x : Ch) : Bool := Text.ctIs (Text.bit .space) x.toNat

/-- the loop of `ws`, istream.h:98-107.  The first argument bounds the number of rounds (`none` when it is used up, as
for undefined behaviour); `ws` gives it one more round than the text has characters. -/
def IS.wsLoop (c : ISCfg) : Nat → IS → Option IS
  | 0, _ => none
  | k + 1, s =>
    match s.peek c with
    | none => none
    | some (s', ch) =>
      if isSpace (toChar ch) then
        match s'.ignore c 1 with
        | none => none
        | some s'' => IS.wsLoop c k s''
      else some s'

/-- `in >> ws`, istream.h:89-108 -/
def IS.ws (c : ISCfg) (s : IS) : Option IS := IS.wsLoop c (s.buf.data.length + 1) s

/-- `istreambuf_iterator`: the buffer, or null for the end iterator (istreambuf_iterator.h:39, 43, 63-81) -/
structure BufIt where
  buf : In
  atEnd : Bool
  deriving DecidableEq, Repr

/-- prefix `++`, istreambuf_iterator.h:88-101 -/
def BufIt.next (c : InCfg) (i : BufIt) : Option BufIt :=
  if i.atEnd then some i
  else
    match i.buf.snextc c with
    | none => none
    | some (b, ch) => some ⟨b, ch = eofCode ∧ b.inAvail c = -1⟩

/-- `*i`, istreambuf_iterator.h:148-151; on the end iterator a null pointer is followed -/
def BufIt.deref (c : InCfg) (i : BufIt) : Option Int := if i.atEnd then none else i.buf.sgetc c

/-- `i == j`, istreambuf_iterator.h:50-57, iterator.h:23-38 -/
def BufIt.equal (i j : BufIt) : Bool := if i.atEnd && j.atEnd then true else if !i.atEnd && !j.atEnd then true else false

/-- Two of these iterators compare equal exactly when both or neither are at the end. -/
theorem BufIt.equal_iff (i j : BufIt) : i.equal j = true ↔ i.atEnd = j.atEnd := by
  cases hi : i.atEnd <;> cases hj : j.atEnd <;> simp [BufIt.equal, hi, hj]

/-- postfix `++` and `*` of the proxy it returns, istreambuf_iterator.h:103-117, 130-145 -/
def BufIt.post (c : InCfg) (i : BufIt) : Option (BufIt × Ch) :=
  if i.atEnd then some (i, toChar eofCode)
  else
    match i.buf.sgetc c with
    | none => none
    | some ch =>
      match i.next c with
      | none => none
      | some i' => some (i', toChar ch)

/-- how a loop ends: normally, by undefined behaviour, or not within the rounds allowed -/
inductive Ext where
  | ok (i : BufIt) (st : Charconv.NumState) (eof : Bool)
  | ub
  | more
  deriving DecidableEq, Repr

/-- the loop of `get_signed_number`, num_get.h:50-74, over `istreambuf_iterator`s; the `int_type` read is converted to
`char_type` by the parameter of `n.get` (iterated/num_get.h:202).  `finalize` does nothing to an integer. -/
def numExtract (c : InCfg) (t : Charconv.IntTy) (base : Nat) : Nat → BufIt → Charconv.NumState → Ext
  | 0, _, _ => .more
  | k + 1, i, s =>
    if i.equal ⟨i.buf, true⟩ then .ok i s true
    else
      match i.deref c with
      | none => .ub
      | some ch =>
        match Charconv.numStep t base s (toChar ch).toNat with
        | (s', true) => .ok i s' false
        | (s', false) =>
          match i.next c with
          | none => .ub
          | some i' => numExtract c t base k i' s'

/-- choice of base, num_get.h:167-197 (unsigned), 203-222 (signed); `none` is `get_interpreted`.  `octal` is
`FEATURE_ESTD_OSTREAM_OCTAL` (feature/ios.h:20-22, on by default). -/
def baseOf (octal signed : Bool) (flags : BitVec 8) : Option Nat :=
  let f := flags &&& basefield
  if signed then
    if octal ∧ f = oct then some 8 else if f = dec then some 10 else if f = hex then some 16 else none
  else
    if octal ∧ f = oct then some 8 else if f = hex then some 16 else if f = 0 then none else some 10

/-- `in >> value` for an integer, istream.h:113-148; `get_interpreted` is num_get.h:149-156.  `none`: undefined, or no
end within the rounds allowed (one more than there are characters). -/
def IS.extractInt (c : ISCfg) (octal : Bool) (t : Charconv.IntTy) (s : IS) (value : Int) : Option (IS × Int) :=
  match s.ws c with
  | none => none
  | some s1 =>
    match baseOf octal t.signed s1.ios.flags with
    | none => some (s1.setstate c (s1.ios.rdstate ||| failbit), value)
    | some base =>
      match numExtract c.inp t base (s1.buf.data.length + 2) ⟨s1.buf, false⟩ ⟨.start, false, 0⟩ with
      | .ok i st eof =>
        some (IS.setstate c ⟨i.buf, s1.ios, s1.gcount⟩
          (s1.ios.rdstate ||| (if st.fail then failbit else 0) ||| (if eof then eofbit else 0)), st.v)
      | _ => none

/-- extracting one integer after the other -/
def IS.extractAll (c : ISCfg) (octal : Bool) : List Charconv.IntTy → IS → Option (IS × List Int)
  | [], s => some (s, [])
  | t :: ts, s =>
    match s.extractInt c octal t 0 with
    | none => none
    | some (s', v) =>
      match IS.extractAll c octal ts s' with
      | none => none
      | some (s'', vs) => some (s'', v :: vs)

/-- `in >> ch`, istream.h:152-167 -/
def IS.extractChar (c : ISCfg) (s : IS) (value : Ch) : Option (IS × Ch) :=
  match s.ws c with
  | none => none
  | some s1 =>
    match s1.get c with
    | none => none
    | some (s2, ch) => some (s2, if c.inp.tr.notEof ch then toChar ch else value)

/-- `empty()`, impl/dynamic_array.h:24-43 (null terminated), 123-131 (explicit length) -/
def strEmpty (c : DynArray.Cfg Ch) (a : Arr Ch) : Res Bool :=
  if c.nullTerm then (Res.ofOption (rd a.buf 0)).bind fun x => .ok (x = c.zero) else .ok (a.msize = 0)

/-- the loop of `do_input`, istream_runtimearray.hpp:33-61; `in_avail()` is never 0 at the end of these buffers, so
`on_nodata` is not reached (were it 0, nothing is modelled: undefined).  The first argument bounds the rounds. -/
def IS.doInput (c : ISCfg) (dc : DynArray.Cfg Ch) : Nat → IS → Arr Ch → Res (IS × Arr Ch)
  | 0, _, _ => .ub
  | k + 1, s, a =>
    (Res.ofOption (s.peek c)).bind fun p =>
      if p.2 = eofCode then
        if p.1.buf.inAvail c.inp = 0 then .ub
        else (strEmpty dc a).bind fun e =>
          .ok ((if e then p.1.setstate c failbit else p.1).setstate c eofbit, a)
      else if isSpace (toChar p.2) then .ok (p.1, a)
      else (pushBack dc a (toChar p.2)).bind fun a' =>
        (Res.ofOption (p.1.get c)).bind fun q => IS.doInput c dc k q.1 a'

/-- `in >> text`, istream_runtimearray.hpp:117-129 -/
def IS.extractStr (c : ISCfg) (dc : DynArray.Cfg Ch) (s : IS) (a : Arr Ch) : Res (IS × Arr Ch) :=
  (Res.ofOption (s.ws c)).bind fun s1 =>
    (clear dc a).bind fun a1 => IS.doInput c dc (s1.buf.data.length + 1) s1 a1

/-- a loop `for(; i != end; ++i)` collecting `*i` -/
def BufIt.collect (c : InCfg) : Nat → BufIt → Option (List Int)
  | 0, _ => none
  | k + 1, i =>
    if i.equal ⟨i.buf, true⟩ then some []
    else
      match i.deref c with
      | none => none
      | some v =>
        match i.next c with
        | none => none
        | some i' => (BufIt.collect c k i').map (v :: ·)

/-! ## Specification -/

/-- white space: blank, tab, line feed, vertical tab, form feed, carriage return -/
def Spec.White (x : Ch) : Prop := Text.Spec.Category.space.has x.toNat

/-- `text` is a numeral of base `base` for `v` in the type: whatever follows it, unless a digit, it is what parses -/
def Spec.Numeral (t : Charconv.IntTy) (base : Nat) (v : Int) (text : List Ch) : Prop :=
  ∀ rest : List Ch, (∀ x r, rest = x :: r → (Charconv.Spec.digit base x.toNat).isSome = false) →
    Charconv.Spec.parse t base ((text ++ rest).map BitVec.toNat) = (text.length, .ok, some v)

/-- the stream with `k` more characters consumed, bits `b` added to its state, `gcount()` reset -/
def Spec.Consumed (c : ISCfg) (s : IS) (k : Nat) (b : BitVec 8) (s' : IS) : Prop :=
  s'.rest = s.rest.drop k ∧ s'.buf.data = s.buf.data ∧ s'.ios = s.ios.setstate c.ios b ∧ s'.gcount = 0

/-! ## White space -/

theorem isSpace_iff (x : Ch) : isSpace x = true ↔ Spec.White x := by
  unfold isSpace Spec.White
  rw [Text.ctype_is_exact]
  simp [Text.bit]

theorem isSpace_ff : isSpace 0xFF = false := by decide

theorem good_state {s : Ios} (h : s.good = true) : s.state = 0 := by
  simpa [Ios.good, Ios.rdstate, goodbit] using h

theorem good_fits (c : IosCfg) {s : Ios} (h : s.good = true) : c.Fits s := by
  unfold IosCfg.Fits IosCfg.truncState; rw [good_state h]; split <;> rfl

theorem drop_takeWhile_length {α : Type} (p : α → Bool) (l : List α) : l.drop (l.takeWhile p).length = l.dropWhile p := by
  induction l with
  | nil => rfl
  | cons x r ih => simp only [List.takeWhile_cons, List.dropWhile_cons]; split <;> simp [*]

theorem wsLoop_spec (c : ISCfg) (k : Nat) : ∀ s : IS, s.Ok c → s.ios.good = true → s.rest.length < k →
    IS.wsLoop c k s = some ⟨⟨s.buf.data, s.buf.pos + (s.rest.takeWhile isSpace).length⟩, s.ios, 0⟩ := by
  induction k with
  | zero => intro s _ _ h; omega
  | succ k ih =>
    intro s h hg hk
    rw [IS.wsLoop, peek_spec c s h hg]
    cases hr : s.rest with
    | nil => simp only [toChar_eof, isSpace_ff]; simp
    | cons x r =>
      simp only [toChar_toInt]
      by_cases hx : isSpace x = true
      · simp only [hx, if_true]
        obtain ⟨h1, h2, h3, h4⟩ := bump_cons h hr
        have hOk : IS.Ok c ⟨s.buf, s.ios, 0⟩ := ⟨h.readable, h.inside⟩
        have e : IS.ignore c ⟨s.buf, s.ios, 0⟩ 1 = some (IS.mk ⟨s.buf.data, s.buf.pos + 1⟩ s.ios 2) := by
          have : iterations 1 = 1 := by decide
          unfold IS.ignore
          rw [this, ignoreLoop_spec c 1 _ hOk (good_fits c.ios hg)]
          have hl : 1 ≤ (IS.rest ⟨s.buf, s.ios, 0⟩).length := by
            show 1 ≤ s.rest.length
            rw [hr]; simp
          rw [if_pos hl]
          simp only [IS.after, setstate_zero c.ios _ (good_fits c.ios hg)]
          rfl
        rw [e]
        have := ih ⟨⟨s.buf.data, s.buf.pos + 1⟩, s.ios, 2⟩ ⟨h.readable, h3⟩ hg (by
          show (s.buf.data.drop (s.buf.pos + 1)).length < k
          rw [h4]; rw [hr] at hk; simp at hk; omega)
        simp only
        rw [this]
        have e2 : IS.rest ⟨⟨s.buf.data, s.buf.pos + 1⟩, s.ios, 2⟩ = r := h4
        rw [e2]
        simp [List.takeWhile_cons, hx]; omega
      · simp [List.takeWhile_cons, hx]

theorem ws_eq (c : ISCfg) (s : IS) (h : s.Ok c) (hg : s.ios.good = true) :
    s.ws c = some ⟨⟨s.buf.data, s.buf.pos + (s.rest.takeWhile isSpace).length⟩, s.ios, 0⟩ := by
  have := rest_length h.inside
  exact wsLoop_spec c _ s h hg (by omega)

/-- `in >> ws` on a good stream skips the white space in front, exactly: everything skipped is white space, what
follows is not, and the state does not change (not even at the end of the text). -/
theorem ws_spec (c : ISCfg) (s : IS) (h : s.Ok c) (hg : s.ios.good = true) :
    ∃ s' skipped, s.ws c = some s' ∧ s.rest = skipped ++ s'.rest ∧ (∀ x ∈ skipped, Spec.White x) ∧
      (∀ x r, s'.rest = x :: r → ¬ Spec.White x) ∧ s'.ios = s.ios ∧ s'.buf.data = s.buf.data := by
  have hd : s.rest.drop (s.rest.takeWhile isSpace).length = s.rest.dropWhile isSpace := drop_takeWhile_length _ _
  have hrest : IS.rest ⟨⟨s.buf.data, s.buf.pos + (s.rest.takeWhile isSpace).length⟩, s.ios, 0⟩ = s.rest.dropWhile isSpace := by
    rw [← hd]; simp only [IS.rest, List.drop_drop]
  refine ⟨_, s.rest.takeWhile isSpace, ws_eq c s h hg, ?_, ?_, ?_, rfl, rfl⟩
  · rw [hrest, List.takeWhile_append_dropWhile]
  · intro x hx
    rw [← isSpace_iff]
    exact List.all_eq_true.mp (List.all_takeWhile (p := isSpace) (l := s.rest)) x hx
  · intro x r hx
    rw [hrest] at hx
    rw [← isSpace_iff]
    intro hs
    have := List.head?_dropWhile_not isSpace s.rest
    rw [hx] at this
    simp [hs] at this

example : (IS.init [0x20, 0x09, 0x41]).ws ⟨⟨⟨false, true⟩, .span⟩, ⟨true⟩⟩ =
    some ⟨⟨[0x20, 0x09, 0x41], 2⟩, Ios.init, 0⟩ := by decide +kernel

/-- On a stream that is not good `ws` skips nothing. -/
theorem ws_not_good (c : ISCfg) (s : IS) (hg : s.ios.good = false) : s.ws c = some ⟨s.buf, s.ios, 0⟩ := by
  simp only [IS.ws, IS.wsLoop, IS.peek, hg, Bool.false_eq_true, if_false, toChar_eof, isSpace_ff]

/-! ## istreambuf_iterator -/

theorem inAvail_end (c : InCfg) (d : List Ch) (h : Spec.Readable c d) : (In.mk d d.length).inAvail c = -1 := by
  rw [in_avail_partial c _ h (by simp) (by intro; simp), if_pos rfl]

theorem getElem?_of_drop {α : Type} {d : List α} {p : Nat} {l : List α} (h : d.drop p = l) : d[p]? = l.head? := by
  rw [← h, List.head?_drop]

theorem sgetc_rest (c : InCfg) (b : In) (l : List Ch) (h : Spec.Readable c b.data) (hp : b.pos ≤ b.data.length)
    (hl : b.data.drop b.pos = l) :
    b.sgetc c = some (match l with | [] => eofCode | x :: _ => c.tr.toInt x) := by
  rw [sgetc_spec h hp, getElem?_of_drop hl]
  cases l <;> rfl

theorem next_spec (c : InCfg) (b : In) (x : Ch) (r : List Ch) (h : Spec.Readable c b.data) (hp : b.pos ≤ b.data.length)
    (hl : b.data.drop b.pos = x :: r) :
    BufIt.next c ⟨b, false⟩ = some ⟨⟨b.data, b.pos + 1⟩, r = []⟩ ∧ b.pos + 1 ≤ b.data.length ∧ b.data.drop (b.pos + 1) = r := by
  obtain ⟨h1, h2, h3, h4⟩ := bump_cons (c := ⟨c, ⟨true⟩⟩) (s := ⟨b, Ios.init, 0⟩) ⟨h, hp⟩ (x := x) (r := r) hl
  simp only at h1 h2 h3 h4
  refine ⟨?_, h3, h4⟩
  have hg := sgetc_rest c ⟨b.data, b.pos + 1⟩ r h h3 h4
  unfold BufIt.next In.snextc
  simp only [Bool.false_eq_true, if_false, h1, if_neg h2, hg]
  cases r with
  | nil =>
    have he : b.pos + 1 = b.data.length := by
      have := List.drop_eq_nil_iff.mp h4; omega
    have := inAvail_end c b.data h
    simp only [he, this]
    simp
  | cons y r =>
    have hy : c.tr.toInt y ≠ eofCode := h.chars y (by
      have : y ∈ b.data.drop (b.pos + 1) := by rw [h4]; simp
      exact List.mem_of_mem_drop this)
    simp [hy]

/-- Iterating with `istreambuf_iterator` from a buffer with characters left visits exactly those characters, in
order, and then compares equal to the end iterator. -/
theorem iterate_partial (c : InCfg) (b : In) (h : Spec.Readable c b.data) (hp : b.pos ≤ b.data.length)
    (hne : b.data.drop b.pos ≠ []) (k : Nat) (hk : b.data.length - b.pos < k) :
    BufIt.collect c k ⟨b, false⟩ = some ((b.data.drop b.pos).map c.tr.toInt) := by
  induction k generalizing b with
  | zero => omega
  | succ k ih =>
    cases hl : b.data.drop b.pos with
    | nil => exact absurd hl hne
    | cons x r =>
      obtain ⟨e1, e2, e3⟩ := next_spec c b x r h hp hl
      rw [BufIt.collect]
      simp only [BufIt.equal, Bool.false_and, Bool.false_eq_true, if_false, Bool.not_false, Bool.not_true, Bool.and_false,
        BufIt.deref, sgetc_rest c b _ h hp hl, e1]
      cases r with
      | nil =>
        cases k with
        | zero => have := congrArg List.length hl; simp at this; omega
        | succ k => simp [BufIt.collect, BufIt.equal]
      | cons y r =>
        have := ih ⟨b.data, b.pos + 1⟩ h e2 (by simp only [e3]; simp) (by simp only; omega)
        simp only [e3] at this
        simp [this]

example : BufIt.collect ⟨⟨false, true⟩, .span⟩ 9 ⟨⟨[0x68, 0x69], 0⟩, false⟩ = some [0x68, 0x69] := by decide +kernel

/-- An iterator made on a buffer with nothing left is not the end iterator: the loop visits one element, end of file,
that is not in the text. -/
theorem iterate_phantom (c : InCfg) (d : List Ch) (h : Spec.Readable c d) (k : Nat) :
    BufIt.collect c (k + 2) ⟨⟨d, d.length⟩, false⟩ = some [eofCode] := by
  have hg := sgetc_rest c ⟨d, d.length⟩ [] h (by simp) (by simp)
  have hb : (In.mk d d.length).snextc c = some (⟨d, d.length⟩, eofCode) := by
    simp [In.snextc, In.sbumpc, hg]
  simp only [BufIt.collect, BufIt.equal, BufIt.deref, BufIt.next, hb, inAvail_end c d h]
  simp [hg]

/-- `*i++` gives the character the iterator was at and moves past it. -/
theorem post_spec (c : InCfg) (b : In) (x : Ch) (r : List Ch) (h : Spec.Readable c b.data) (hp : b.pos ≤ b.data.length)
    (hl : b.data.drop b.pos = x :: r) :
    BufIt.post c ⟨b, false⟩ = some (⟨⟨b.data, b.pos + 1⟩, r = []⟩, x) := by
  obtain ⟨e1, e2, e3⟩ := next_spec c b x r h hp hl
  simp only [BufIt.post, Bool.false_eq_true, if_false, sgetc_rest c b _ h hp hl, e1, toChar_toInt]

/-! ## Integers -/

theorem numLoop_shift (t : Charconv.IntTy) (base : Nat) (l : List Nat) : ∀ (s : Charconv.NumState) (i : Nat),
    Charconv.numLoop t base s i l =
      ((Charconv.numLoop t base s 0 l).1, i + (Charconv.numLoop t base s 0 l).2.1, (Charconv.numLoop t base s 0 l).2.2) := by
  induction l with
  | nil => intro s i; simp [Charconv.numLoop]
  | cons x l ih =>
    intro s i
    simp only [Charconv.numLoop]
    obtain ⟨⟨s', b⟩, hs⟩ : ∃ p, Charconv.numStep t base s x = p := ⟨_, rfl⟩
    rw [hs]
    cases b with
    | true => simp
    | false => simp only; rw [ih s' (i + 1), ih s' (0 + 1)]; simp; omega

/-- over characters that are there, the loop is the one of C20 -/
theorem numExtract_eq (c : InCfg) (t : Charconv.IntTy) (base : Nat) : ∀ (l : List Ch) (k : Nat) (b : In) (s : Charconv.NumState),
    Spec.Readable c b.data → b.pos ≤ b.data.length → b.data.drop b.pos = l → l ≠ [] → l.length < k →
    ∃ i, numExtract c t base k ⟨b, false⟩ s =
        .ok i (Charconv.numLoop t base s 0 (l.map BitVec.toNat)).1 (Charconv.numLoop t base s 0 (l.map BitVec.toNat)).2.2 ∧
      i.buf = ⟨b.data, b.pos + (Charconv.numLoop t base s 0 (l.map BitVec.toNat)).2.1⟩ := by
  intro l
  induction l with
  | nil => intro _ _ _ _ _ _ h; exact absurd rfl h
  | cons x r ih =>
    intro k b s h hp hl _ hk
    cases k with
    | zero => omega
    | succ k =>
      obtain ⟨e1, e2, e3⟩ := next_spec c b x r h hp hl
      rw [numExtract]
      simp only [BufIt.equal, Bool.false_and, Bool.false_eq_true, if_false, Bool.not_false, Bool.not_true, Bool.and_false,
        BufIt.deref, sgetc_rest c b _ h hp hl, e1, toChar_toInt, List.map_cons, Charconv.numLoop]
      obtain ⟨⟨s', d⟩, hs⟩ : ∃ p, Charconv.numStep t base s x.toNat = p := ⟨_, rfl⟩
      rw [hs]
      cases d with
      | true => exact ⟨_, rfl, rfl⟩
      | false =>
        simp only
        cases r with
        | nil =>
          cases k with
          | zero => simp at hk
          | succ k => exact ⟨_, by simp only [numExtract, BufIt.equal]; simp [Charconv.numLoop]; rfl, by simp [Charconv.numLoop]⟩
        | cons y r =>
          obtain ⟨i, f1, f2⟩ := ih k ⟨b.data, b.pos + 1⟩ s' h e2 e3 (by simp) (by simp at hk ⊢; omega)
          have hb : decide (y :: r = []) = false := by simp
          rw [hb, f1, numLoop_shift t base _ s' (0 + 1)]
          refine ⟨i, rfl, ?_⟩
          rw [f2]; simp; omega

theorem rest_consumed (c : ISCfg) (s : IS) (k : Nat) (ios : Ios) (g : Int) :
    IS.rest ⟨⟨s.buf.data, s.buf.pos + k⟩, ios, g⟩ = s.rest.drop k := by
  simp only [IS.rest, List.drop_drop]

theorem setstate_rdstate (c : IosCfg) (s : Ios) (b : BitVec 8) : s.setstate c (s.rdstate ||| b) = s.setstate c b := by
  unfold Ios.setstate Ios.rdstate
  congr 2
  rw [← BitVec.or_assoc, BitVec.or_self]

theorem base_bounds {octal signed : Bool} {flags : BitVec 8} {base : Nat} (hb : baseOf octal signed flags = some base) :
    2 ≤ base ∧ base ≤ 36 := by
  unfold baseOf at hb
  simp only at hb
  repeat' split at hb
  all_goals simp at hb
  all_goals omega

/-- one extraction on a good stream with something behind the white space -/
theorem extract_step (c : ISCfg) (octal : Bool) (t : Charconv.IntTy) (base : Nat) (s : IS) (value : Int) (h : s.Ok c)
    (hg : s.ios.good = true) (hb : baseOf octal t.signed s.ios.flags = some base) (hne : s.rest.dropWhile isSpace ≠ []) :
    let r := Charconv.numGet t base ((s.rest.dropWhile isSpace).map BitVec.toNat)
    s.extractInt c octal t value =
      some (⟨⟨s.buf.data, s.buf.pos + ((s.rest.takeWhile isSpace).length + r.2.1)⟩,
        s.ios.setstate c.ios ((if r.1.fail then failbit else 0) ||| if r.2.2 then eofbit else 0), 0⟩, r.1.v) := by
  intro r
  have hd := drop_takeWhile_length isSpace s.rest
  have hlen : (s.rest.takeWhile isSpace).length ≤ s.rest.length := (List.takeWhile_prefix _).length_le
  have hrl := rest_length h.inside
  have hi := h.inside
  obtain ⟨i, e1, e2⟩ := numExtract_eq c.inp t base (s.rest.dropWhile isSpace) (s.buf.data.length + 2)
    ⟨s.buf.data, s.buf.pos + (s.rest.takeWhile isSpace).length⟩ ⟨.start, false, 0⟩ h.readable (by simp only; omega)
    (by rw [← hd]; simp only [IS.rest, List.drop_drop]) hne (by
      have := (List.dropWhile_suffix (l := s.rest) isSpace).length_le; omega)
  unfold IS.extractInt
  rw [ws_eq c s h hg]
  simp only [hb, e1, e2]
  simp only [IS.setstate, BitVec.or_assoc, setstate_rdstate, Nat.add_assoc]
  rfl

/-- C62 for integers: on a good stream whose text after white space is supported (see C20: it is not empty and a `-` is
followed by a digit), `in >> v` skips the white space, takes the longest numeral of the stream's base, stores its value,
and sets `eofbit` exactly when the numeral runs to the end of the text; without digits it stops there with `failbit` and
stores 0; a number that does not fit sets `failbit` and stores the nearest limit.
Missing: where the stream stands after a number that does not fit (`extract_overflow_stands`), a `-` without digits
(`extract_minus`), the end of the text (`extract_at_end`), a stream already failed (`extract_failed_stream`). -/
theorem extract_partial (c : ISCfg) (octal : Bool) (t : Charconv.IntTy) (base : Nat) (s : IS) (value : Int) (h : s.Ok c)
    (hg : s.ios.good = true) (hb : baseOf octal t.signed s.ios.flags = some base) (white text : List Ch)
    (hr : s.rest = white ++ text) (hw : ∀ x ∈ white, Spec.White x) (hx : ∀ x r, text = x :: r → ¬ Spec.White x)
    (hs : Charconv.Spec.NumGetSupported t base (text.map BitVec.toNat)) :
    ∃ s' v, s.extractInt c octal t value = some (s', v) ∧
      match Charconv.Spec.parse t base (text.map BitVec.toNat) with
      | (n, .ok, some w) => v = w ∧ Spec.Consumed c s (white.length + n) (if n = text.length then eofbit else 0) s'
      | (_, .invalidArgument, _) => v = 0 ∧ Spec.Consumed c s white.length failbit s'
      | _ => v = (if t.signed ∧ text.head? = some 0x2D then t.min else t.max) ∧ s'.ios.fail = true := by
  have ht : text.takeWhile isSpace = [] ∧ text.dropWhile isSpace = text := by
    cases text with
    | nil => simp
    | cons x r =>
      have : isSpace x = false := by
        cases hq : isSpace x
        · rfl
        · exact absurd ((isSpace_iff x).mp hq) (hx x r rfl)
      simp [List.takeWhile_cons, List.dropWhile_cons, this]
  have e1 : s.rest.takeWhile isSpace = white := by
    rw [hr, List.takeWhile_append_of_pos (fun x hm => (isSpace_iff x).mpr (hw x hm)), ht.1, List.append_nil]
  have e2 : s.rest.dropWhile isSpace = text := by
    rw [hr, List.dropWhile_append_of_pos (fun x hm => (isSpace_iff x).mpr (hw x hm)), ht.2]
  have hne : text ≠ [] := by have := hs.1; simpa using this
  have hstep := extract_step c octal t base s value h hg hb (by rw [e2]; exact hne)
  have hb2 := base_bounds hb
  have hnum := Charconv.num_get_partial t base (text.map BitVec.toNat) hb2.1 hb2.2 (by
    intro x hm; obtain ⟨y, _, rfl⟩ := List.mem_map.mp hm; exact y.isLt) hs
  rw [e1, e2] at hstep
  refine ⟨_, _, hstep, ?_⟩
  rcases hpar : Charconv.Spec.parse t base (text.map BitVec.toNat) with ⟨n, ec, ov⟩
  rw [hpar] at hnum
  have hover : (∃ st, (Charconv.numGet t base (text.map BitVec.toNat)).1 = ⟨st, true, if t.signed ∧ (text.map BitVec.toNat).head? = some 45 then t.min else t.max⟩) →
      (Charconv.numGet t base (text.map BitVec.toNat)).1.v = (if t.signed ∧ text.head? = some 0x2D then t.min else t.max) ∧
      Ios.fail (s.ios.setstate c.ios ((if (Charconv.numGet t base (text.map BitVec.toNat)).1.fail then failbit else 0) |||
        if (Charconv.numGet t base (text.map BitVec.toNat)).2.2 then eofbit else 0)) = true := by
    rintro ⟨st, he⟩
    rw [he]
    constructor
    · have : (text.map BitVec.toNat).head? = some 45 ↔ text.head? = some 0x2D := by
        cases text with
        | nil => simp
        | cons x r =>
          simp only [List.map_cons, List.head?_cons, Option.some.injEq]
          exact ⟨fun hh => BitVec.eq_of_toNat_eq hh, fun hh => by rw [hh]; rfl⟩
      simp only [this]
    · simp only [if_true, Ios.fail, Ios.rdstate, Ios.setstate, good_state hg]
      unfold IosCfg.truncState
      generalize (if (Charconv.numGet t base (text.map BitVec.toNat)).2.2 = true then eofbit else 0) = e
      split <;> simp [failbit, badbit] <;> left <;> intro hc <;> have := congrArg (fun z => z.getLsbD 1) hc <;> simp at this
  split at hnum
  · rename_i n' w heq
    cases heq
    obtain ⟨st, he⟩ := hnum
    rw [he]
    simp only [List.length_map]
    refine ⟨trivial, rest_consumed c s _ _ _, rfl, ?_, rfl⟩
    by_cases hn : n = text.length <;> simp [hn]
  · rename_i heq
    cases heq
    obtain ⟨st, he⟩ := hnum
    rw [he]
    refine ⟨rfl, rest_consumed c s _ _ _, rfl, ?_, rfl⟩
    simp
  · rename_i h1 h2
    cases ec with
    | ok =>
      cases ov with
      | none => exact hover hnum
      | some w => exact absurd rfl (h1 n w)
    | invalidArgument => exact absurd rfl (h2 n ov)
    | outOfRange => exact hover hnum
    | tooLarge => exact hover hnum

example : (IS.init [0x20, 0x2D, 0x31, 0x32, 0x2C]).extractInt ⟨⟨⟨false, true⟩, .span⟩, ⟨true⟩⟩ true ⟨true, 127⟩ 7 =
    some (⟨⟨[0x20, 0x2D, 0x31, 0x32, 0x2C], 4⟩, Ios.init, 0⟩, -12) := by decide +kernel

/-- which base is used: the one selected by `dec`, `hex` or `oct` -/
theorem base_spec (signed : Bool) (flags : BitVec 8) :
    (flags &&& basefield = dec → baseOf true signed flags = some 10) ∧
    (flags &&& basefield = hex → baseOf true signed flags = some 16) ∧
    (flags &&& basefield = oct → baseOf true signed flags = some 8) := by
  refine ⟨fun h => ?_, fun h => ?_, fun h => ?_⟩ <;> cases signed <;> simp [baseOf, h, oct, dec, hex]

/-- With no base selected (`in.unsetf(basefield)`, the standard's "detect the base from the prefix") extraction always
fails and leaves the variable alone. -/
theorem extract_no_base (c : ISCfg) (octal : Bool) (t : Charconv.IntTy) (s : IS) (value : Int) (h : s.Ok c)
    (hg : s.ios.good = true) (hf : s.ios.flags &&& basefield = 0) :
    ∃ s', s.extractInt c octal t value = some (s', value) ∧ s'.ios = s.ios.setstate c.ios failbit := by
  have hb : baseOf octal t.signed s.ios.flags = none := by
    cases t.signed <;> simp [baseOf, hf, oct, dec, hex]
  refine ⟨⟨⟨s.buf.data, s.buf.pos + (s.rest.takeWhile isSpace).length⟩, s.ios.setstate c.ios failbit, 0⟩, ?_, rfl⟩
  unfold IS.extractInt
  rw [ws_eq c s h hg]
  simp only [hb, IS.setstate, setstate_rdstate]

example : ((IS.mk ⟨[0x35], 0⟩ ⟨0, 0, 0⟩ 0).extractInt ⟨⟨⟨false, true⟩, .span⟩, ⟨true⟩⟩ true ⟨true, 127⟩ 7).map (·.2) =
    some 7 := by decide +kernel

/-- Violation: with nothing but white space left `in >> v` sets `failbit` and stores 0, but does not set `eofbit`:
a loop `while(!in.eof())` never ends. -/
theorem extract_at_end (c : ISCfg) (octal : Bool) (t : Charconv.IntTy) (base : Nat) (s : IS) (value : Int) (h : s.Ok c)
    (hg : s.ios.good = true) (hb : baseOf octal t.signed s.ios.flags = some base) (hw : ∀ x ∈ s.rest, Spec.White x) :
    ∃ s', s.extractInt c octal t value = some (s', 0) ∧ Spec.Consumed c s s.rest.length failbit s' ∧ s'.ios.eof = false := by
  have e1 : s.rest.takeWhile isSpace = s.rest := by
    have := List.takeWhile_append_of_pos (p := isSpace) (l₁ := s.rest) (l₂ := []) (fun x hm => (isSpace_iff x).mpr (hw x hm))
    simpa using this
  have hrl := rest_length h.inside
  have hi := h.inside
  have hend : s.buf.pos + s.rest.length = s.buf.data.length := by omega
  have hg2 := sgetc_rest c.inp ⟨s.buf.data, s.buf.data.length⟩ [] h.readable (by simp) (by simp)
  have hb2 := base_bounds hb
  have hff : Charconv.Spec.digit base 255 = none := by simp [Charconv.Spec.digit, Charconv.Spec.digitVal]
  have hstep : Charconv.numStep t base ⟨.start, false, 0⟩ (toChar eofCode).toNat = (⟨.nomPos, true, 0⟩, true) := by
    have e : (toChar eofCode).toNat = 255 := by decide
    rw [e]
    simp [Charconv.numStep, Charconv.nominal, Charconv.from_char_spec base 255 hb2.1 hb2.2 (by omega), hff]
  refine ⟨⟨⟨s.buf.data, s.buf.pos + s.rest.length⟩, s.ios.setstate c.ios failbit, 0⟩, ?_, ⟨rest_consumed c s _ _ _, rfl, rfl, rfl⟩, ?_⟩
  · unfold IS.extractInt
    rw [ws_eq c s h hg, e1, hend]
    simp only [hb, numExtract, BufIt.equal, Bool.false_and, Bool.false_eq_true, if_false, Bool.not_false, Bool.not_true,
      Bool.and_false, BufIt.deref, hg2, hstep, if_true, IS.setstate, BitVec.or_assoc, setstate_rdstate]
    simp
  · simp only [Ios.eof, Ios.setstate, Ios.rdstate, good_state hg]
    unfold IosCfg.truncState
    split <;> simp [failbit, eofbit]

example : (IS.init [0x20]).extractInt ⟨⟨⟨false, true⟩, .span⟩, ⟨true⟩⟩ true ⟨true, 127⟩ 7 =
    some (⟨⟨[0x20], 1⟩, ⟨dec ||| right, failbit, 0⟩, 0⟩, 0) := by decide +kernel

/-- Violation: a `-` that no digit follows is taken for the number 0: the stream stays good and has lost the `-`. -/
theorem extract_minus (c : ISCfg) (octal : Bool) (t : Charconv.IntTy) (base : Nat) (s : IS) (value : Int) (h : s.Ok c)
    (hg : s.ios.good = true) (hb : baseOf octal t.signed s.ios.flags = some base) (hs : t.signed = true) (x : Ch)
    (r : List Ch) (hr : s.rest = 0x2D :: x :: r) (hx : Charconv.Spec.digit base x.toNat = none) :
    ∃ s', s.extractInt c octal t value = some (s', 0) ∧ s'.ios.good = true ∧ s'.rest = x :: r := by
  have hb2 := base_bounds hb
  have hm : isSpace 0x2D = false := by decide
  have e1 : s.rest.takeWhile isSpace = [] := by rw [hr, List.takeWhile_cons, hm]; rfl
  have e2 : s.rest.dropWhile isSpace = s.rest := by rw [hr, List.dropWhile_cons, hm]; rfl
  have hstep := extract_step c octal t base s value h hg hb (by rw [e2, hr]; simp)
  have hn := Charconv.num_get_minus_no_fail t base x.toNat (r.map BitVec.toNat) hb2.1 hb2.2 hs x.isLt hx
  have hmap : s.rest.map BitVec.toNat = 45 :: x.toNat :: r.map BitVec.toNat := by rw [hr]; rfl
  rw [e1, e2, hmap, hn] at hstep
  refine ⟨_, hstep, ?_, ?_⟩
  · have := setstate_zero c.ios s.ios (good_fits c.ios hg)
    simp only [Bool.false_eq_true, if_false]
    rw [show (0 : BitVec 8) ||| 0 = 0 from rfl, this]; exact hg
  · rw [rest_consumed c s, hr]; rfl

example : (IS.init [0x2D, 0x41]).extractInt ⟨⟨⟨false, true⟩, .span⟩, ⟨true⟩⟩ true ⟨true, 127⟩ 7 =
    some (⟨⟨[0x2D, 0x41], 1⟩, Ios.init, 0⟩, 0) := by decide +kernel

/-- Violation: a number that does not fit takes the text behind it along (or leaves its own last digits behind). -/
theorem extract_overflow_position :
    (IS.init [0x33, 0x30, 0x30, 0x20, 0x61, 0x62]).extractInt ⟨⟨⟨false, true⟩, .span⟩, ⟨true⟩⟩ true ⟨false, 255⟩ 7 =
      some (⟨⟨[0x33, 0x30, 0x30, 0x20, 0x61, 0x62], 6⟩, ⟨dec ||| right, failbit ||| eofbit, 0⟩, 0⟩, 255) ∧
    (IS.init [0x33, 0x30, 0x30, 0x30]).extractInt ⟨⟨⟨false, true⟩, .span⟩, ⟨true⟩⟩ true ⟨false, 255⟩ 7 =
      some (⟨⟨[0x33, 0x30, 0x30, 0x30], 3⟩, ⟨dec ||| right, failbit, 0⟩, 0⟩, 255) := by decide +kernel

/-- Violation: extraction does not look at the state.  On a stream that is not good it still reads (white space is then
not skipped) and overwrites the variable; the bits already set stay set. -/
theorem extract_failed_stream (c : ISCfg) (octal : Bool) (t : Charconv.IntTy) (base : Nat) (s : IS) (value : Int) (h : s.Ok c)
    (hg : s.ios.good = false) (hb : baseOf octal t.signed s.ios.flags = some base) (hne : s.rest ≠ [])
    (hs : Charconv.Spec.NumGetSupported t base (s.rest.map BitVec.toNat)) (n : Nat) (w : Int)
    (hp : Charconv.Spec.parse t base (s.rest.map BitVec.toNat) = (n, .ok, some w)) :
    ∃ s', s.extractInt c octal t value = some (s', w) ∧
      Spec.Consumed c s n (if n = s.rest.length then eofbit else 0) s' := by
  have hb2 := base_bounds hb
  have hnum := Charconv.num_get_partial t base (s.rest.map BitVec.toNat) hb2.1 hb2.2 (by
    intro x hm; obtain ⟨y, _, rfl⟩ := List.mem_map.mp hm; exact y.isLt) hs
  rw [hp] at hnum
  obtain ⟨st, he⟩ := hnum
  have hrl := rest_length h.inside
  obtain ⟨i, e1, e2⟩ := numExtract_eq c.inp t base s.rest (s.buf.data.length + 2)
    s.buf ⟨.start, false, 0⟩ h.readable h.inside rfl hne (by omega)
  have he' : Charconv.numLoop t base ⟨.start, false, 0⟩ 0 (s.rest.map BitVec.toNat) = _ := he
  rw [he'] at e1 e2
  refine ⟨⟨⟨s.buf.data, s.buf.pos + n⟩, s.ios.setstate c.ios (if n = s.rest.length then eofbit else 0), 0⟩, ?_,
    rest_consumed c s _ _ _, rfl, rfl, rfl⟩
  unfold IS.extractInt
  rw [ws_not_good c s hg]
  simp only [hb, e1, e2, IS.setstate, BitVec.or_assoc, setstate_rdstate, Bool.false_eq_true, if_false, List.length_map]
  by_cases hn : n = s.rest.length <;> simp [hn]

example : (IS.mk ⟨[0x35], 0⟩ ⟨dec, failbit, 0⟩ 0).extractInt ⟨⟨⟨false, true⟩, .span⟩, ⟨true⟩⟩ true ⟨true, 127⟩ 7 =
    some (⟨⟨[0x35], 1⟩, ⟨dec, failbit ||| eofbit, 0⟩, 0⟩, 5) := by decide +kernel

/-- Violation: with the library's own traits and signed `char`, a number that does not fit followed by the character
0xFF never comes back: the loop takes 0xFF for end of file, but characters are left, so it waits. -/
theorem extract_hangs (k : Nat) :
    numExtract ⟨⟨true, true⟩, .span⟩ ⟨false, 255⟩ 10 k ⟨⟨[0x33, 0x30, 0x30, 0xFF], 0⟩, false⟩ ⟨.start, false, 0⟩ = .more := by
  have loop : ∀ k, numExtract ⟨⟨true, true⟩, .span⟩ ⟨false, 255⟩ 10 k ⟨⟨[0x33, 0x30, 0x30, 0xFF], 3⟩, false⟩
      ⟨.overflow, true, 255⟩ = .more := by
    intro k
    induction k with
    | zero => rfl
    | succ k ih =>
      have e1 : BufIt.equal ⟨⟨[0x33, 0x30, 0x30, 0xFF], 3⟩, false⟩ ⟨⟨[0x33, 0x30, 0x30, 0xFF], 3⟩, true⟩ = false := rfl
      have e2 : BufIt.deref ⟨⟨true, true⟩, .span⟩ ⟨⟨[0x33, 0x30, 0x30, 0xFF], 3⟩, false⟩ = some (-1) := by decide
      have e3 : Charconv.numStep ⟨false, 255⟩ 10 ⟨.overflow, true, 255⟩ (toChar (-1)).toNat = (⟨.overflow, true, 255⟩, false) := by
        decide +kernel
      have e4 : BufIt.next ⟨⟨true, true⟩, .span⟩ ⟨⟨[0x33, 0x30, 0x30, 0xFF], 3⟩, false⟩ =
        some ⟨⟨[0x33, 0x30, 0x30, 0xFF], 3⟩, false⟩ := by decide +kernel
      rw [numExtract]
      simp only [e1, e2, e3, e4, Bool.false_eq_true, if_false]
      exact ih
  have step : ∀ (p : Nat) (s s' : Charconv.NumState) (ch : Int),
      BufIt.deref ⟨⟨true, true⟩, .span⟩ ⟨⟨[0x33, 0x30, 0x30, 0xFF], p⟩, false⟩ = some ch →
      Charconv.numStep ⟨false, 255⟩ 10 s (toChar ch).toNat = (s', false) →
      BufIt.next ⟨⟨true, true⟩, .span⟩ ⟨⟨[0x33, 0x30, 0x30, 0xFF], p⟩, false⟩ = some ⟨⟨[0x33, 0x30, 0x30, 0xFF], p + 1⟩, false⟩ →
      (∀ k, numExtract ⟨⟨true, true⟩, .span⟩ ⟨false, 255⟩ 10 k ⟨⟨[0x33, 0x30, 0x30, 0xFF], p + 1⟩, false⟩ s' = .more) →
      ∀ k, numExtract ⟨⟨true, true⟩, .span⟩ ⟨false, 255⟩ 10 k ⟨⟨[0x33, 0x30, 0x30, 0xFF], p⟩, false⟩ s = .more := by
    intro p s s' ch h1 h2 h3 h4 k
    cases k with
    | zero => rfl
    | succ k =>
      rw [numExtract]
      have e1 : BufIt.equal ⟨⟨[0x33, 0x30, 0x30, 0xFF], p⟩, false⟩ ⟨⟨[0x33, 0x30, 0x30, 0xFF], p⟩, true⟩ = false := rfl
      simp only [e1, h1, h2, h3, Bool.false_eq_true, if_false]
      exact h4 k
  exact step 0 _ ⟨.nomPos, false, 3⟩ 0x33 (by decide) (by decide +kernel) (by decide +kernel)
    (step 1 _ ⟨.nomPos, false, 30⟩ 0x30 (by decide) (by decide +kernel) (by decide +kernel)
      (step 2 _ ⟨.overflow, true, 255⟩ 0x30 (by decide) (by decide +kernel) (by decide +kernel) loop)) k

end Verif.Streams
