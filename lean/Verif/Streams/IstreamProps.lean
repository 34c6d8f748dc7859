import Verif.Streams.Istream

/-!
# C37: getline, read, ignore; C47: gcount
-/
namespace Verif.Streams
open Verif

/-! ## Specification -/

/-- the characters before the first one satisfying `p` -/
def Spec.upTo (p : Ch → Bool) (l : List Ch) : List Ch := l.takeWhile fun x => !p x

/-- the characters not read yet -/
def IS.rest (s : IS) : List Ch := s.buf.data.drop s.buf.pos

/-- a stream whose text the buffer can handle, positioned inside it -/
structure IS.Ok (c : ISCfg) (s : IS) : Prop where
  readable : Spec.Readable c.inp s.buf.data
  inside : s.buf.pos ≤ s.buf.data.length

/-- the stream with `k` more characters read, state bits `b` added and `gcount()` being `g` -/
def IS.after (c : ISCfg) (s : IS) (k : Nat) (b : BitVec 8) (g : Int) : IS :=
  ⟨⟨s.buf.data, s.buf.pos + k⟩, s.ios.setstate c.ios b, g⟩

/-- a state that the stream's state field can hold -/
def IosCfg.Fits (c : IosCfg) (s : Ios) : Prop := c.truncState s.state = s.state

/-! ## Lemmas -/

theorem toChar_toInt (t : Traits) (x : Ch) : toChar (t.toInt x) = x := by
  unfold toChar Traits.toInt Traits.promote
  split
  · split
    · exact BitVec.ofInt_toInt
    · rw [BitVec.ofInt_natCast, BitVec.ofNat_toNat]; simp
  · rw [BitVec.ofInt_natCast, BitVec.ofNat_toNat]; simp

theorem toChar_eof : toChar eofCode = 0xFF := by decide

theorem setstate_zero (c : IosCfg) (s : Ios) (h : c.Fits s) : s.setstate c 0 = s := by
  unfold Ios.setstate
  have : s.state ||| (0 : BitVec 8) = s.state := BitVec.or_zero
  rw [this, h]

theorem setstate_fits (c : IosCfg) (s : Ios) (b : BitVec 8) : c.Fits (s.setstate c b) := by
  unfold IosCfg.Fits Ios.setstate IosCfg.truncState
  split <;> simp [BitVec.and_assoc]

theorem truncState_or (c : IosCfg) (a b : BitVec 8) : c.truncState (c.truncState a ||| b) = c.truncState (a ||| b) := by
  unfold IosCfg.truncState
  split
  · ext i hi; simp; cases a[i] <;> cases b[i] <;> simp
  · rfl

theorem setstate_setstate (c : IosCfg) (s : Ios) (a b : BitVec 8) :
    (s.setstate c a).setstate c b = s.setstate c (a ||| b) := by
  unfold Ios.setstate; simp only [truncState_or, BitVec.or_assoc]

/-- `sbumpc` on a stream that has a next character -/
theorem bump_cons {c : ISCfg} {s : IS} (h : s.Ok c) {x : Ch} {r : List Ch} (hr : s.rest = x :: r) :
    s.buf.sbumpc c.inp = some (⟨s.buf.data, s.buf.pos + 1⟩, c.inp.tr.toInt x) ∧ c.inp.tr.toInt x ≠ eofCode ∧
    s.buf.pos + 1 ≤ s.buf.data.length ∧ s.buf.data.drop (s.buf.pos + 1) = r := by
  have hlt : s.buf.pos < s.buf.data.length := by
    by_cases hlt : s.buf.pos < s.buf.data.length
    · exact hlt
    · unfold IS.rest at hr; rw [List.drop_of_length_le (by omega)] at hr; simp at hr
  have hr' := hr
  unfold IS.rest at hr'
  rw [List.drop_eq_getElem_cons hlt] at hr'
  obtain ⟨rfl, h2⟩ := List.cons.inj hr'
  refine ⟨?_, h.readable.chars _ (List.getElem_mem hlt), hlt, h2⟩
  rw [sbumpc_spec h.readable h.inside]
  have : min (s.buf.pos + 1) s.buf.data.length = s.buf.pos + 1 := by omega
  simp only [List.getElem?_eq_getElem hlt, this]

/-- `sbumpc` at the end of the text -/
theorem bump_nil {c : ISCfg} {s : IS} (h : s.Ok c) (hr : s.rest = []) :
    s.buf.sbumpc c.inp = some (s.buf, eofCode) ∧ s.buf.pos = s.buf.data.length := by
  have he : s.buf.pos = s.buf.data.length := by
    unfold IS.rest at hr; have := List.drop_eq_nil_iff.mp hr; have := h.inside; omega
  refine ⟨?_, he⟩
  rw [sbumpc_spec h.readable h.inside]
  have : min (s.buf.pos + 1) s.buf.data.length = s.buf.pos := by omega
  simp [he]
  rw [← he]

theorem rest_length {s : IS} (h : s.buf.pos ≤ s.buf.data.length) : s.rest.length = s.buf.data.length - s.buf.pos := by
  simp [IS.rest]

/-! ## get, peek, unget, read -/

/-- `get()` returns the next character and advances past it, or reports end of file with `failbit` and `eofbit`. -/
theorem get_spec (c : ISCfg) (s : IS) (h : s.Ok c) (hf : c.ios.Fits s.ios) :
    s.get c = match s.rest with
      | [] => some (s.after c 0 (failbit ||| eofbit) (s.gcount + 1), eofCode)
      | x :: _ => some (s.after c 1 0 (s.gcount + 1), c.inp.tr.toInt x) := by
  cases hr : s.rest with
  | nil => simp only [IS.get, (bump_nil h hr).1, ↓reduceIte, IS.setstate, IS.after, Nat.add_zero]
  | cons x r =>
    obtain ⟨h1, h2, _⟩ := bump_cons h hr
    simp only [IS.get, h1, if_neg h2, IS.after, setstate_zero _ _ hf]

/-- `peek()` on a good stream returns the next character, or end of file, and reads nothing. -/
theorem peek_spec (c : ISCfg) (s : IS) (h : s.Ok c) (hg : s.ios.good = true) :
    s.peek c = some (⟨s.buf, s.ios, 0⟩, match s.rest with | [] => eofCode | x :: _ => c.inp.tr.toInt x) := by
  simp only [IS.peek, hg, ↓reduceIte, sgetc_spec h.readable h.inside, Option.map_some]
  by_cases he : s.buf.pos = s.buf.data.length
  · have h1 : s.rest = [] := by simp [IS.rest, he]
    have h2 : s.buf.data[s.buf.pos]? = none := by simp [he]
    simp only [h1, h2]
  · have hlt : s.buf.pos < s.buf.data.length := by have := h.inside; omega
    have h1 : s.rest = s.buf.data[s.buf.pos] :: s.buf.data.drop (s.buf.pos + 1) := List.drop_eq_getElem_cons hlt
    simp only [h1, List.getElem?_eq_getElem hlt]

/-- `unget()` right after a successful `get()` puts the stream back where it was. -/
theorem get_unget (c : ISCfg) (s : IS) (h : s.Ok c) (hf : c.ios.Fits s.ios) (hne : s.rest ≠ []) :
    ∃ s1 ch s2, s.get c = some (s1, ch) ∧ s1.unget c = some s2 ∧ s2.buf = s.buf ∧ s2.ios = s.ios := by
  cases hr : s.rest with
  | nil => exact absurd hr hne
  | cons x r =>
    obtain ⟨h1, h2, h3, h4⟩ := bump_cons h hr
    have hs := h.readable.short
    have hlt : s.buf.pos < s.buf.data.length := by omega
    have hx : s.buf.data[s.buf.pos] = x := by
      have := hr; unfold IS.rest at this; rw [List.drop_eq_getElem_cons hlt] at this
      exact (List.cons.inj this).1
    refine ⟨_, _, ⟨s.buf, s.ios, 0⟩, by rw [get_spec c s h hf, hr], ?_, rfl, rfl⟩
    simp only [IS.unget, IS.after, In.sungetc]
    have hg : (In.mk s.buf.data (s.buf.pos + 1)).gbump (-1) = s.buf := by
      rw [gbump_pos _ (-1) (by simp only; omega) (by simp only; omega)]
      have e : (((s.buf.pos + 1 : Nat) : Int) + -1).toNat = s.buf.pos := by omega
      simp only [e]
    have h0 : s.buf.pos + 1 > 0 := by omega
    simp only [h0, ↓reduceIte, hg, In.xsgetc, rd, List.getElem?_eq_getElem hlt, Option.map_some, hx, if_neg h2, setstate_zero _ _ hf]

/-- `unget()` at the very beginning sets `badbit` and moves nothing; the count is reset. -/
theorem unget_at_start (c : ISCfg) (s : IS) (h0 : s.buf.pos = 0) :
    s.unget c = some ⟨s.buf, s.ios.setstate c.ios badbit, 0⟩ := by
  simp [IS.unget, In.sungetc, h0, IS.setstate]

/-- `read(s, n)` stores the next `min n (what is left)` characters and nothing more, and sets `eofbit`, and only that,
exactly when there were fewer than `n`. -/
theorem read_spec (c : ISCfg) (s : IS) (h : s.Ok c) (hf : c.ios.Fits s.ios) (dest : List Ch) (n : Nat)
    (hd : n ≤ dest.length) (hk : Spec.allowed c.inp ⟨s.buf.data, s.buf.pos⟩ (.getn n)) :
    s.read c dest n = some (s.after c (min n s.rest.length) (if s.rest.length < n then eofbit else 0) n,
      s.rest.take n ++ dest.drop (min n s.rest.length)) := by
  have hi := h.inside
  simp only [IS.read, sgetn_spec h.readable hi dest n hd hk, rest_length hi]
  have e : min (s.buf.pos + n) s.buf.data.length = s.buf.pos + min n (s.buf.data.length - s.buf.pos) := by omega
  by_cases hlt : s.buf.data.length - s.buf.pos < n
  · rw [if_pos (by omega), if_pos hlt]; simp only [IS.setstate, IS.after, e]; rfl
  · rw [if_neg (by omega), if_neg hlt]; simp only [IS.after, e, setstate_zero _ _ hf]; rfl

example : (IS.init [104, 105]).read ⟨⟨⟨false, true⟩, .span⟩, ⟨true⟩⟩ [7, 7, 7, 7] 3 =
    some (⟨⟨[104, 105], 2⟩, ⟨dec ||| right, eofbit, 0⟩, 3⟩, [104, 105, 7, 7]) := by decide +kernel

/-- `readsome(s, n)` with characters left takes `min n (what is left)` of them. -/
theorem readsome_partial (c : ISCfg) (s : IS) (h : s.Ok c) (dest : List Ch) (n : Nat) (hne : s.rest ≠ [])
    (hs : c.inp.tr.own = true → s.rest.length < 32768) (hd : min n s.rest.length ≤ dest.length)
    (hk : Spec.allowed c.inp ⟨s.buf.data, s.buf.pos⟩ (.getn (min n s.rest.length))) :
    s.readsome c dest (n : Int) =
      some (IS.mk ⟨s.buf.data, s.buf.pos + min n s.rest.length⟩ s.ios ((min n s.rest.length : Nat) : Int),
        s.rest.take n ++ dest.drop (min n s.rest.length), ((min n s.rest.length : Nat) : Int)) := by
  have hi := h.inside
  have hl := rest_length hi
  have hpos : 0 < s.rest.length := List.length_pos_iff.mpr hne
  have ha : s.buf.inAvail c.inp = (s.buf.data.length : Int) - s.buf.pos := by
    rw [in_avail_partial c.inp s.buf h.readable hi (by rw [← hl]; exact hs), if_neg (by omega)]
  have e : min (n : Int) (s.buf.inAvail c.inp) = ((min n s.rest.length : Nat) : Int) := by rw [ha]; omega
  simp only [IS.readsome, e, sgetn_spec h.readable hi dest _ hd hk]
  have e1 : min (s.buf.pos + min n s.rest.length) s.buf.data.length = s.buf.pos + min n s.rest.length := by omega
  have e2 : min (min n s.rest.length) (s.buf.data.length - s.buf.pos) = min n s.rest.length := by omega
  have e3 : (s.buf.data.drop s.buf.pos).take (min n s.rest.length) = s.rest.take n := by
    rw [← List.take_take]; show List.take n (List.take s.rest.length s.rest) = _; rw [List.take_length]
  rw [e1, e2, e3]

example : (IS.init [104, 105]).readsome ⟨⟨⟨false, true⟩, .span⟩, ⟨true⟩⟩ [7] 1 =
    some (⟨⟨[104, 105], 1⟩, Ios.init, 1⟩, [104], 1) := by decide +kernel

/-- At the end of a span, `readsome` is undefined whatever the count: it asks for -1 characters. -/
theorem readsome_at_end (c : ISCfg) (s : IS) (h : s.Ok c) (hk : c.inp.kind = .span) (dest : List Ch) (n : Nat)
    (hr : s.rest = []) : s.readsome c dest n = none := by
  have he := (bump_nil h hr).2
  have ha : s.buf.inAvail c.inp = -1 := by
    rw [in_avail_partial c.inp s.buf h.readable h.inside (by intro; omega), if_pos he]
  have e : min (n : Int) (s.buf.inAvail c.inp) = -1 := by rw [ha]; omega
  have hc : c.inp = ⟨c.inp.tr, .span⟩ := by rw [← hk]
  simp only [IS.readsome, e]
  rw [hc, sgetn_negative _ _ _ _ (by omega)]

/-! ## getline -/

/-- characters `getline` does not store: the delimiter, and 0xFF, which its comparison takes for end of file -/
def Spec.stops (delim : Ch) (x : Ch) : Bool := x == delim || x == 0xFF

/-- What the code does: the characters up to the first stop (or the end), at most `n`; how many it consumes; which bit
it sets. -/
def Spec.line (delim : Ch) (rest : List Ch) (n : Nat) : List Ch × Nat × BitVec 8 :=
  let l := Spec.upTo (Spec.stops delim) rest
  if n < l.length then (l.take n, n + 1, failbit)
  else
    match rest[l.length]? with
    | none => (l, l.length, eofbit)
    | some x => (l, l.length + 1, if x = 0xFF then eofbit else failbit)

theorem line_cons (delim x : Ch) (r : List Ch) (n : Nat) (hx : Spec.stops delim x = false) :
    Spec.line delim (x :: r) (n + 1) =
      (x :: (Spec.line delim r n).1, (Spec.line delim r n).2.1 + 1, (Spec.line delim r n).2.2) := by
  unfold Spec.line Spec.upTo
  simp only [List.takeWhile_cons, hx, Bool.not_false, ↓reduceIte, List.length_cons, Nat.add_lt_add_iff_right,
    List.getElem?_cons_succ]
  split
  · simp
  · split <;> rfl

theorem line_zero (delim x : Ch) (r : List Ch) (hx : Spec.stops delim x = false) :
    Spec.line delim (x :: r) 0 = ([], 1, failbit) := by
  unfold Spec.line Spec.upTo
  simp [hx]

theorem line_stop (delim x : Ch) (r : List Ch) (n : Nat) (hx : Spec.stops delim x = true) :
    Spec.line delim (x :: r) n = ([], 1, if x = 0xFF then eofbit else failbit) := by
  unfold Spec.line Spec.upTo
  simp [hx]

theorem set_take_succ (l : List Ch) (j : Nat) (x : Ch) (hj : j < l.length) :
    (l.set j x).take (j + 1) = l.take j ++ [x] := by
  rw [List.take_succ_eq_append_getElem (by simpa using hj), List.take_set_of_le (by omega)]
  simp

theorem getlineLoop_spec (c : ISCfg) (delim : Ch) (rest : List Ch) :
    ∀ (s : IS) (dest : List Ch) (j n : Nat), s.Ok c → s.rest = rest → j + (Spec.line delim rest n).1.length ≤ dest.length →
      IS.getlineLoop c delim s dest j n =
        some (s.after c (Spec.line delim rest n).2.1 (Spec.line delim rest n).2.2
            (s.gcount + (Spec.line delim rest n).1.length),
          dest.take j ++ (Spec.line delim rest n).1 ++ dest.drop (j + (Spec.line delim rest n).1.length),
          j + (Spec.line delim rest n).1.length) := by
  induction rest with
  | nil =>
    intro s dest j n h hr hd
    rw [IS.getlineLoop, (bump_nil h hr).1]
    simp [Spec.line, Spec.upTo, IS.setstate, IS.after]
  | cons x r ih =>
    intro s dest j n h hr hd
    obtain ⟨h1, h2, h3, h4⟩ := bump_cons h hr
    rw [IS.getlineLoop, h1]
    simp only [toChar_toInt, toChar_eof]
    cases hx : Spec.stops delim x with
    | true =>
      rw [line_stop delim x r n hx] at hd ⊢
      by_cases hff : x = 0xFF
      · simp [hff, IS.setstate, IS.after]
      · have hxd : x = delim := by
          simp only [Spec.stops, Bool.or_eq_true, beq_iff_eq] at hx
          exact hx.resolve_right hff
        rw [if_neg hff, if_pos (Or.inr hxd), if_neg hff]
        simp [IS.setstate, IS.after]
    | false =>
      have hx' : ¬ x = delim ∧ ¬ x = 0xFF := by
        simpa [Spec.stops] using hx
      rw [if_neg hx'.2]
      cases n with
      | zero =>
        rw [line_zero delim x r hx] at hd ⊢
        simp [IS.setstate, IS.after]
      | succ n =>
        rw [line_cons delim x r n hx] at hd ⊢
        simp only [List.length_cons] at hd ⊢
        rw [if_neg (by simp only [not_or]; exact ⟨by omega, hx'.1⟩), dif_pos (by omega)]
        have e : ((n + 1 : Nat) : Int) - 1 = (n : Nat) := by omega
        rw [e, ih ⟨⟨s.buf.data, s.buf.pos + 1⟩, s.ios, s.gcount + 1⟩ (dest.set j x) (j + 1) n ⟨h.readable, h3⟩ h4
          (by simp; omega)]
        simp only [IS.after]
        have hj : j < dest.length := by omega
        congr 2
        · congr 1
          · congr 1; omega
          · push_cast; omega
        · congr 1
          · rw [set_take_succ dest j x hj, List.drop_set_of_lt (by omega)]
            have e : j + 1 + (Spec.line delim r n).1.length = j + ((Spec.line delim r n).1.length + 1) := by omega
            rw [e]
            simp only [List.append_assoc, List.cons_append, List.nil_append]
          · omega

theorem rest_after (c : ISCfg) (s : IS) (k : Nat) (b : BitVec 8) (g : Int) : (s.after c k b g).rest = s.rest.drop k := by
  simp [IS.after, IS.rest, List.drop_drop]

theorem upTo_stop (delim x : Ch) (line more : List Ch) (hl : ∀ y ∈ line, y ≠ delim ∧ y ≠ 0xFF)
    (hx : Spec.stops delim x = true) : Spec.upTo (Spec.stops delim) (line ++ x :: more) = line := by
  induction line with
  | nil => simp [Spec.upTo, hx]
  | cons y r ih =>
    have hy := hl y (by simp)
    have : Spec.stops delim y = false := by simpa [Spec.stops] using hy
    have h2 := ih (fun z hz => hl z (by simp [hz]))
    simp only [Spec.upTo] at h2 ⊢
    simp [this, h2]

theorem upTo_all (delim : Ch) (line : List Ch) (hl : ∀ y ∈ line, y ≠ delim ∧ y ≠ 0xFF) :
    Spec.upTo (Spec.stops delim) line = line := by
  induction line with
  | nil => rfl
  | cons y r ih =>
    have hy := hl y (by simp)
    have : Spec.stops delim y = false := by simpa [Spec.stops] using hy
    have h2 := ih (fun z hz => hl z (by simp [hz]))
    simp only [Spec.upTo] at h2 ⊢
    simp [this, h2]

/-- **Everything `getline` does**, given room for what it stores and a terminator: what is stored (with its terminator,
the rest of the destination untouched), what is consumed, which state bit is added, and `gcount()`. -/
theorem getline_exact (c : ISCfg) (s : IS) (h : s.Ok c) (dest : List Ch) (n : Nat) (delim : Ch)
    (hd : (Spec.line delim s.rest n).1.length < dest.length) :
    s.getline c dest n delim =
      some (s.after c (Spec.line delim s.rest n).2.1 (Spec.line delim s.rest n).2.2 (Spec.line delim s.rest n).1.length,
        (Spec.line delim s.rest n).1 ++ 0 :: dest.drop ((Spec.line delim s.rest n).1.length + 1)) := by
  unfold IS.getline
  rw [getlineLoop_spec c delim s.rest ⟨s.buf, s.ios, 0⟩ dest 0 n ⟨h.readable, h.inside⟩ rfl (by omega)]
  simp only [List.take_zero, List.nil_append, Nat.zero_add, Int.zero_add]
  rw [wr_lt (by simp; omega)]
  simp only [Option.map_some, IS.after]
  congr 2
  rw [List.set_append_right _ _ (by omega), Nat.sub_self]
  rw [List.drop_eq_getElem_cons hd, List.set_cons_zero]

theorem getlineLoop_overrun (c : ISCfg) (delim : Ch) (rest : List Ch) :
    ∀ (s : IS) (dest : List Ch) (j n : Nat), s.Ok c → s.rest = rest → j ≤ dest.length →
      dest.length < j + (Spec.line delim rest n).1.length → IS.getlineLoop c delim s dest j n = none := by
  induction rest with
  | nil => intro s dest j n h hr hj hd; simp [Spec.line, Spec.upTo] at hd; omega
  | cons x r ih =>
    intro s dest j n h hr hj hd
    obtain ⟨h1, h2, h3, h4⟩ := bump_cons h hr
    rw [IS.getlineLoop, h1]
    simp only [toChar_toInt, toChar_eof]
    cases hx : Spec.stops delim x with
    | true => rw [line_stop delim x r n hx] at hd; simp at hd; omega
    | false =>
      have hx' : ¬ x = delim ∧ ¬ x = 0xFF := by simpa [Spec.stops] using hx
      rw [if_neg hx'.2]
      cases n with
      | zero => rw [line_zero delim x r hx] at hd; simp at hd; omega
      | succ n =>
        rw [line_cons delim x r n hx] at hd
        simp only [List.length_cons] at hd
        rw [if_neg (by simp only [not_or]; exact ⟨by omega, hx'.1⟩)]
        by_cases hj' : j < dest.length
        · rw [dif_pos hj']
          have e : ((n + 1 : Nat) : Int) - 1 = (n : Nat) := by omega
          rw [e]
          exact ih ⟨⟨s.buf.data, s.buf.pos + 1⟩, s.ios, s.gcount + 1⟩ (dest.set j x) (j + 1) n ⟨h.readable, h3⟩ h4
            (by simp; omega) (by simp; omega)
        · rw [dif_neg hj']

/-- **Violation.**  Called the documented way, with the size of the buffer, `getline` writes outside it whenever the
line has at least that many characters (`n` characters and a terminator, not `n - 1`). -/
theorem getline_overruns (c : ISCfg) (s : IS) (h : s.Ok c) (dest : List Ch) (delim : Ch)
    (hl : dest.length ≤ (Spec.upTo (Spec.stops delim) s.rest).length) :
    s.getline c dest dest.length delim = none := by
  have hlen : (Spec.line delim s.rest dest.length).1.length = dest.length := by
    unfold Spec.line
    simp only
    split
    · simp; omega
    · next hn =>
      have : (Spec.upTo (Spec.stops delim) s.rest).length = dest.length := by omega
      split <;> exact this
  unfold IS.getline
  rw [getlineLoop_spec c delim s.rest ⟨s.buf, s.ios, 0⟩ dest 0 dest.length ⟨h.readable, h.inside⟩ rfl (by omega)]
  simp only [hlen, wr]
  rw [if_neg (by simp; omega)]
  rfl

example : (IS.init [97, 98, 99, 10]).getline ⟨⟨⟨false, true⟩, .span⟩, ⟨true⟩⟩ [0, 0, 0] 3 10 = none := by
  exact getline_overruns _ _ ⟨⟨by decide, by simp [IS.init, In.init], by decide⟩, by decide⟩ [0, 0, 0] 10 (by decide)

/-- What holds of the property: when fewer than `n` characters precede the delimiter (none of them 0xFF), a buffer of
`n` characters gets exactly them and a terminator, and the delimiter is consumed and not stored.  Missing: the limit of
`n - 1` (`getline_overruns`), and that `failbit` stays clear here (`getline_delimiter_fails`). -/
theorem getline_partial (c : ISCfg) (s : IS) (h : s.Ok c) (dest line more : List Ch) (delim : Ch)
    (hr : s.rest = line ++ delim :: more) (hl : ∀ x ∈ line, x ≠ delim ∧ x ≠ 0xFF) (hlen : line.length < dest.length) :
    ∃ s', s.getline c dest dest.length delim = some (s', line ++ 0 :: dest.drop (line.length + 1)) ∧
      s'.rest = more ∧ s'.gcount = line.length := by
  have hup : Spec.upTo (Spec.stops delim) s.rest = line := by
    rw [hr]; exact upTo_stop _ _ _ _ hl (by simp [Spec.stops])
  have hline : (Spec.line delim s.rest dest.length).1 = line ∧ (Spec.line delim s.rest dest.length).2.1 = line.length + 1 := by
    unfold Spec.line
    simp only [hup]
    rw [if_neg (by omega), hr]
    simp
  rw [getline_exact c s h dest dest.length delim (by rw [hline.1]; omega)]
  refine ⟨_, by rw [hline.1], ?_, by simp [IS.after, hline.1]⟩
  rw [rest_after, hline.2, hr]; simp

example : (IS.init [97, 98, 10, 99]).rest = [97, 98] ++ (10 : Ch) :: [99] := by decide

/-- **Violation.**  Finding the delimiter always sets `failbit`. -/
theorem getline_delimiter_fails (c : ISCfg) (s : IS) (h : s.Ok c) (dest line more : List Ch) (delim : Ch) (n : Nat)
    (hr : s.rest = line ++ delim :: more) (hl : ∀ x ∈ line, x ≠ delim ∧ x ≠ 0xFF) (hff : delim ≠ 0xFF)
    (hn : line.length ≤ n) (hlen : line.length < dest.length) :
    ∃ s' d, s.getline c dest n delim = some (s', d) ∧ s'.ios.fail = true := by
  have hup : Spec.upTo (Spec.stops delim) s.rest = line := by
    rw [hr]; exact upTo_stop _ _ _ _ hl (by simp [Spec.stops])
  have hline : Spec.line delim s.rest n = (line, line.length + 1, failbit) := by
    unfold Spec.line
    simp only [hup]
    rw [if_neg (by omega), hr]
    simp [hff]
    intro h; exact absurd h hff
  rw [getline_exact c s h dest n delim (by rw [hline]; exact hlen), hline]
  refine ⟨_, _, rfl, ?_⟩
  rw [(fail_iff _).1]
  right
  exact ((state_ops c.ios s.ios failbit 1 (by omega)).1).mpr (Or.inr (by decide))

/-- Reaching the limit loses a character: the stream has consumed one more than was stored. -/
theorem getline_limit_drops (c : ISCfg) (s : IS) (h : s.Ok c) (dest : List Ch) (delim : Ch) (n : Nat)
    (hl : n < (Spec.upTo (Spec.stops delim) s.rest).length) (hd : n < dest.length) :
    ∃ s' d, s.getline c dest n delim = some (s', d) ∧ d.take n = s.rest.take n ∧ s'.rest = s.rest.drop (n + 1) := by
  have hline : Spec.line delim s.rest n = ((Spec.upTo (Spec.stops delim) s.rest).take n, n + 1, failbit) := by
    unfold Spec.line; simp only; rw [if_pos hl]
  have htake : (Spec.upTo (Spec.stops delim) s.rest).take n = s.rest.take n := by
    have hp : Spec.upTo (Spec.stops delim) s.rest <+: s.rest := List.takeWhile_prefix _
    obtain ⟨t, ht⟩ := hp
    conv => rhs; rw [← ht]
    rw [List.take_append_of_le_length (by omega)]
  have hlen : ((Spec.upTo (Spec.stops delim) s.rest).take n).length = n := by simp; omega
  rw [getline_exact c s h dest n delim (by rw [hline]; simp only; omega), hline]
  refine ⟨_, _, rfl, ?_, ?_⟩
  · simp only; rw [List.take_append_of_le_length (by omega), htake, List.take_take, Nat.min_self]
  · rw [rest_after]

/-- At the end of the text without a delimiter: everything stored, `eofbit` set, `failbit` not touched. -/
theorem getline_at_eof (c : ISCfg) (s : IS) (h : s.Ok c) (dest : List Ch) (delim : Ch) (n : Nat)
    (hl : ∀ x ∈ s.rest, x ≠ delim ∧ x ≠ 0xFF) (hn : s.rest.length ≤ n) (hd : s.rest.length < dest.length) :
    s.getline c dest n delim =
      some (s.after c s.rest.length eofbit s.rest.length, s.rest ++ 0 :: dest.drop (s.rest.length + 1)) := by
  have hup : Spec.upTo (Spec.stops delim) s.rest = s.rest := by
    exact upTo_all _ _ hl
  have hline : Spec.line delim s.rest n = (s.rest, s.rest.length, eofbit) := by
    unfold Spec.line; simp only [hup]; rw [if_neg (by omega)]; simp
  rw [getline_exact c s h dest n delim (by rw [hline]; exact hd), hline]

/-- A 0xFF character ends the line as if it were the end of the file, with either traits. -/
theorem getline_ff_ends (c : ISCfg) (s : IS) (h : s.Ok c) (dest line more : List Ch) (delim : Ch) (n : Nat)
    (hr : s.rest = line ++ 0xFF :: more) (hl : ∀ x ∈ line, x ≠ delim ∧ x ≠ 0xFF) (hn : line.length ≤ n)
    (hlen : line.length < dest.length) :
    ∃ s', s.getline c dest n delim = some (s', line ++ 0 :: dest.drop (line.length + 1)) ∧ s'.ios.eof = true ∧
      s'.rest = more := by
  have hup : Spec.upTo (Spec.stops delim) s.rest = line := by
    rw [hr]; exact upTo_stop _ _ _ _ hl (by simp [Spec.stops])
  have hline : Spec.line delim s.rest n = (line, line.length + 1, eofbit) := by
    unfold Spec.line
    simp only [hup]
    rw [if_neg (by omega), hr]
    simp
  rw [getline_exact c s h dest n delim (by rw [hline]; exact hlen), hline]
  refine ⟨_, rfl, ?_, ?_⟩
  · rw [(fail_iff _).2.2]
    exact ((state_ops c.ios s.ios eofbit 2 (by omega)).1).mpr (Or.inr (by decide))
  · rw [rest_after, hr]; simp

example : Spec.Readable ⟨⟨false, true⟩, .span⟩ [97, 0xFF, 98] := ⟨by decide, by simp, by decide⟩

/-! ## ignore -/

/-- what the `ignore` loops leave `gcount()` at: `get()` and the loop both count -/
theorem ignoreLoop_spec (c : ISCfg) (n : Nat) :
    ∀ (s : IS), s.Ok c → c.ios.Fits s.ios →
      IS.ignoreLoop c s n =
        some (if n ≤ s.rest.length then s.after c n 0 (s.gcount + 2 * n)
          else s.after c s.rest.length (failbit ||| eofbit) (s.gcount + 2 * s.rest.length + 1)) := by
  induction n with
  | zero => intro s h hf; have e := setstate_zero c.ios s.ios hf; simp only [IS.ignoreLoop, IS.after, Nat.zero_le, ↓reduceIte, e]; simp
  | succ n ih =>
    intro s h hf
    rw [IS.ignoreLoop, get_spec c s h hf]
    cases hr : s.rest with
    | nil =>
      simp only [↓reduceIte, List.length_nil]
      rw [if_neg (by omega)]
      simp only [IS.setstate, IS.after, setstate_setstate]
      congr 3; simp
    | cons x r =>
      obtain ⟨_, h2, h3, h4⟩ := bump_cons h hr
      simp only [if_neg h2, IS.after, setstate_zero _ _ hf]
      have := ih ⟨⟨s.buf.data, s.buf.pos + 1⟩, s.ios, s.gcount + 1 + 1⟩ ⟨h.readable, h3⟩ hf
      rw [this]
      simp only [IS.after, IS.rest, h4, List.length_cons]
      congr 1
      by_cases hn : n ≤ r.length
      · rw [if_pos hn, if_pos (by omega)]
        have e1 : s.buf.pos + 1 + n = s.buf.pos + (n + 1) := by omega
        have e2 : s.gcount + 1 + 1 + 2 * (n : Int) = s.gcount + 2 * ((n + 1 : Nat) : Int) := by omega
        rw [e1, e2, setstate_zero _ _ hf]
      · rw [if_neg hn, if_neg (by omega)]
        have e1 : s.buf.pos + 1 + r.length = s.buf.pos + (r.length + 1) := by omega
        have e2 : s.gcount + 1 + 1 + 2 * (r.length : Int) + 1 = s.gcount + 2 * ((r.length + 1 : Nat) : Int) + 1 := by omega
        rw [e1, e2]

/-- `ignore(n)` discards `min n (what is left)` characters; asked for more than there are it sets `failbit` and
`eofbit`. -/
theorem ignore_spec (c : ISCfg) (s : IS) (h : s.Ok c) (hf : c.ios.Fits s.ios) (n : Nat) (hn : n < 2147483648) :
    ∃ s', s.ignore c n = some s' ∧ s'.rest = s.rest.drop n ∧ s'.buf.data = s.buf.data ∧
      s'.ios = s.ios.setstate c.ios (if n ≤ s.rest.length then 0 else failbit ||| eofbit) := by
  have e : iterations (n : Int) = n := by unfold iterations; omega
  unfold IS.ignore
  rw [e, ignoreLoop_spec c n s h hf]
  refine ⟨_, rfl, ?_⟩
  split
  · exact ⟨rest_after .., rfl, rfl⟩
  · refine ⟨?_, rfl, rfl⟩
    rw [rest_after, List.drop_of_length_le (by omega), List.drop_of_length_le (by omega)]

example : ((IS.init [97, 98, 99]).ignore ⟨⟨⟨false, true⟩, .span⟩, ⟨true⟩⟩ 2).map IS.rest = some [99] := by
  decide +kernel

/-- what `ignore(n, delim)` takes: through the first delimiter, at most `n` -/
def Spec.through (delim : Ch) (rest : List Ch) (n : Nat) : Nat :=
  min n ((Spec.upTo (· == delim) rest).length + 1)

theorem ignoreUntilLoop_spec (c : ISCfg) (delim : Ch) (n : Nat) :
    ∀ (s : IS), s.Ok c → c.ios.Fits s.ios →
      ∃ g, IS.ignoreUntilLoop c (c.inp.tr.toInt delim) s n =
        some (s.after c (min (Spec.through delim s.rest n) s.rest.length)
          (if Spec.through delim s.rest n ≤ s.rest.length then 0 else failbit ||| eofbit) g) := by
  induction n with
  | zero =>
    intro s h hf
    refine ⟨s.gcount, ?_⟩
    have e := setstate_zero c.ios s.ios hf
    simp only [IS.ignoreUntilLoop, Spec.through, IS.after, Nat.zero_le, ↓reduceIte, e, Nat.zero_min]
    simp
  | succ n ih =>
    intro s h hf
    rw [IS.ignoreUntilLoop, get_spec c s h hf]
    cases hr : s.rest with
    | nil =>
      refine ⟨s.gcount + 1, ?_⟩
      simp only [↓reduceIte, List.length_nil, Nat.min_zero]
      rw [if_neg (by simp [Spec.through])]
      simp only [IS.setstate, IS.after, setstate_setstate]
      congr 3
    | cons x r =>
      obtain ⟨_, h2, h3, h4⟩ := bump_cons h hr
      simp only [if_neg h2]
      by_cases hx : x = delim
      · refine ⟨s.gcount + 1, ?_⟩
        have ht : Spec.through delim (x :: r) (n + 1) = 1 := by
          simp [Spec.through, Spec.upTo, hx]
        rw [if_pos (by rw [hx]), ht]
        simp [IS.after]
      · have hne : c.inp.tr.toInt x ≠ c.inp.tr.toInt delim := fun he => hx (toInt_inj _ _ _ he)
        have ht : Spec.through delim (x :: r) (n + 1) = Spec.through delim r n + 1 := by
          simp [Spec.through, Spec.upTo, hx]
        rw [if_neg hne, ht]
        simp only [IS.after, setstate_zero _ _ hf]
        obtain ⟨g, hg⟩ := ih ⟨⟨s.buf.data, s.buf.pos + 1⟩, s.ios, s.gcount + 1 + 1⟩ ⟨h.readable, h3⟩ hf
        refine ⟨g, ?_⟩
        rw [hg]
        have hrest : (IS.mk ⟨s.buf.data, s.buf.pos + 1⟩ s.ios (s.gcount + 1 + 1)).rest = r := h4
        simp only [IS.after, hrest, List.length_cons, Nat.add_le_add_iff_right, Nat.add_min_add_right]
        congr 3; omega

/-- `ignore(n, delim)` discards characters up to and including the first delimiter, at most `n`, and at most what is
left, in which last case it sets `failbit` and `eofbit`. -/
theorem ignore_until_spec (c : ISCfg) (s : IS) (h : s.Ok c) (hf : c.ios.Fits s.ios) (n : Nat) (hn : n < 2147483648)
    (delim : Ch) (hd : c.inp.tr.toInt delim ≠ eofCode) :
    ∃ s', s.ignoreUntil c n (c.inp.tr.toInt delim) = some s' ∧
      s'.rest = s.rest.drop (min n ((Spec.upTo (· == delim) s.rest).length + 1)) ∧ s'.buf.data = s.buf.data ∧
      s'.ios = s.ios.setstate c.ios
        (if min n ((Spec.upTo (· == delim) s.rest).length + 1) ≤ s.rest.length then 0 else failbit ||| eofbit) := by
  have e : iterations (n : Int) = n := by unfold iterations; omega
  obtain ⟨g, hg⟩ := ignoreUntilLoop_spec c delim n s h hf
  unfold IS.ignoreUntil
  rw [if_neg hd, e, hg]
  refine ⟨_, rfl, ?_, rfl, rfl⟩
  rw [rest_after]
  unfold Spec.through
  by_cases hle : min n ((Spec.upTo (· == delim) s.rest).length + 1) ≤ s.rest.length
  · rw [Nat.min_eq_left hle]
  · rw [Nat.min_eq_right (by omega), List.drop_of_length_le (by omega)]
    exact (List.drop_of_length_le (by omega)).symm

example : ((IS.init [97, 98, 10, 99]).ignoreUntil ⟨⟨⟨false, true⟩, .span⟩, ⟨true⟩⟩ 9 10).map IS.rest = some [99] := by
  decide +kernel

/-! ## gcount (C47) -/

/-- A stream that has not extracted anything reports 0, is at the start of its text and is good. -/
theorem gcount_initially (c : ISCfg) (text : List Ch) :
    (IS.init text).gcount = 0 ∧ (IS.init text).rest = text ∧ (IS.init text).ios.rdstate = goodbit := by
  refine ⟨rfl, ?_, rfl⟩
  simp [IS.rest, IS.init, In.init]

/-- After `getline`, `gcount()` is the number of characters stored, and after a block read that found enough
characters, the number read.  Missing: the delimiter `getline` extracted is not counted, and see the next theorems. -/
theorem gcount_partial (c : ISCfg) (s : IS) (h : s.Ok c) (hf : c.ios.Fits s.ios) (dest : List Ch) (n : Nat) (delim : Ch)
    (hd : n < dest.length) (hk : Spec.allowed c.inp ⟨s.buf.data, s.buf.pos⟩ (.getn n)) :
    (∃ s' d, s.getline c dest n delim = some (s', d) ∧ s'.gcount = (Spec.line delim s.rest n).1.length) ∧
    (n ≤ s.rest.length → ∃ s' d, s.read c dest n = some (s', d) ∧ s'.gcount = n ∧ s'.rest = s.rest.drop n) := by
  have hlen : (Spec.line delim s.rest n).1.length ≤ n := by
    unfold Spec.line; simp only; split
    · simp; omega
    · next hn => split <;> (simp only; omega)
  refine ⟨⟨_, _, getline_exact c s h dest n delim (by omega), rfl⟩, fun hn => ?_⟩
  refine ⟨_, _, read_spec c s h hf dest n (by omega) hk, rfl, ?_⟩
  simp only [IS.after, IS.rest, List.drop_drop]
  rw [Nat.min_eq_left]; exact hn

/-- **Violation.**  `get()` adds one to whatever `gcount()` was, even at the end of the text. -/
theorem get_gcount (c : ISCfg) (s : IS) (h : s.Ok c) (hf : c.ios.Fits s.ios) :
    ∃ s' ch, s.get c = some (s', ch) ∧ s'.gcount = s.gcount + 1 := by
  rw [get_spec c s h hf]
  cases s.rest <;> exact ⟨_, _, rfl, rfl⟩

/-- **Violation.**  `ignore(n)` adds twice the number of characters it discarded. -/
theorem ignore_gcount (c : ISCfg) (s : IS) (h : s.Ok c) (hf : c.ios.Fits s.ios) (n : Nat) (hn : n < 2147483648)
    (hr : n ≤ s.rest.length) : ∃ s', s.ignore c n = some s' ∧ s'.gcount = s.gcount + 2 * n := by
  have e : iterations (n : Int) = n := by unfold iterations; omega
  unfold IS.ignore
  rw [e, ignoreLoop_spec c n s h hf, if_pos hr]
  exact ⟨_, rfl, rfl⟩

/-- **Violation.**  After a block read that came up short, `gcount()` is still the number asked for. -/
theorem read_short_gcount (c : ISCfg) (s : IS) (h : s.Ok c) (hf : c.ios.Fits s.ios) (dest : List Ch) (n : Nat)
    (hd : n ≤ dest.length) (hk : Spec.allowed c.inp ⟨s.buf.data, s.buf.pos⟩ (.getn n)) (hs : s.rest.length < n) :
    ∃ s' d, s.read c dest n = some (s', d) ∧ s'.gcount = n ∧ s'.gcount ≠ s.rest.length := by
  refine ⟨_, _, read_spec c s h hf dest n hd hk, rfl, ?_⟩
  simp only [IS.after]; omega

/-- a stream that meets the hypotheses used throughout -/
example : (IS.init [97, 98, 10, 99]).Ok ⟨⟨⟨true, true⟩, .string 256⟩, ⟨true⟩⟩ ∧ IosCfg.Fits ⟨true⟩ (IS.init [97, 98, 10, 99]).ios :=
  ⟨⟨⟨by decide, by simp [IS.init, In.init], by decide⟩, by decide⟩, by unfold IosCfg.Fits; decide⟩

end Verif.Streams
