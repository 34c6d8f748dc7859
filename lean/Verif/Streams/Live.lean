import Verif.Streams.Device
import Verif.Streams.ExtractText

/-!
# C87: input that arrives while it is read

Modelled from `src/estd/internal/ios_policy.h` (the blocking and the non-blocking policy of an input stream),
`src/estd/internal/istream.h`, `src/estd/istream.h`, `src/estd/internal/istream_runtimearray.hpp`,
`src/estd/internal/istreambuf_iterator.h`, `src/estd/internal/locale/num_get.h` and `src/estd/port/arduino/istream.h`.

The characters come from outside while the program runs.  The environment is a list of arrivals: at each call of the
stream buffer the next one (possibly empty) comes in before the call does its work.  `gcount()` is not modelled here
(C47), the receiving string always has room (C11, C62), and counts do not exceed `streamsize`.
-/
namespace Verif.Streams
open Verif Verif.DynArray

/-! ## The model -/

/-- which stream buffer: over a device (port/arduino/streambuf.h, C66), or one that keeps what it received (`sgetc()`
and `sungetc()` as in C36) -/
structure LiveCfg where
  tr : Traits
  device : Bool
  ios : IosCfg

/-- the `int_type` shown for a character: port/arduino/streambuf.h:83, 95 (a plain conversion), streambuf.h:75-79 -/
def LiveCfg.code (c : LiveCfg) (x : Ch) : Int := if c.device then c.tr.promote x else c.tr.toInt x

/-- A stream buffer whose text arrives over time: characters read and kept (the last one first), characters arrived and
not read, arrivals to come, and whether the text ends when all have come. -/
structure Live where
  past : List Ch
  here : List Ch
  toCome : List (List Ch)
  ends : Bool
  deriving DecidableEq, Repr

/-- the next arrival comes in (environment) -/
def Live.tick (w : Live) : Live :=
  match w.toCome with
  | [] => w
  | a :: as => { w with here := w.here ++ a, toCome := as }

/-- `in_avail()`, streambuf.h:184-187: the number of characters, -1 at the end of the text, 0 for "unsure" (base.h:67-68,
99-109; port/arduino/streambuf.h:87-90, where the text never ends) -/
def Live.inAvail (w : Live) : Live × Int :=
  (w.tick, if w.tick.here = [] then (if w.tick.ends ∧ w.tick.toCome = [] then -1 else 0) else w.tick.here.length)

/-- what `sgetc()` shows of the characters arrived -/
def LiveCfg.shown (c : LiveCfg) : List Ch → Int
  | [] => eofCode
  | x :: _ => c.code x

/-- `sgetc()`, streambuf.h:157-160, port/arduino/streambuf.h:92-96 -/
def Live.sgetc (c : LiveCfg) (w : Live) : Live × Int := (w.tick, c.shown w.tick.here)

/-- taking one character, if there is one -/
def Live.take1 (w : Live) : Live :=
  match w.here with
  | [] => w
  | x :: r => { w with past := x :: w.past, here := r }

/-- `sbumpc()`, port/arduino/streambuf.h:80-84; helpers.h:31-45 (there a character shown as end of file is not taken) -/
def Live.sbumpc (c : LiveCfg) (w : Live) : Live × Int :=
  (if c.device = false ∧ c.shown w.tick.here = eofCode then w.tick else w.tick.take1, c.shown w.tick.here)

/-- `snextc()`, streambuf.h:167-172 -/
def Live.snextc (c : LiveCfg) (w : Live) : Live × Int :=
  if (w.sbumpc c).2 = eofCode then ((w.sbumpc c).1, eofCode) else (w.sbumpc c).1.sgetc c

/-- `sungetc()`, streambuf.h:70-73, helpers.h:16-29, string.h:152-161; the value returned is not used -/
def Live.sungetc (w : Live) : Live :=
  match w.tick.past with
  | [] => w.tick
  | x :: p => { w.tick with past := p, here := x :: w.tick.here }

/-- the stream: buffer and state -/
structure LS where
  live : Live
  ios : Ios
  deriving DecidableEq, Repr

/-- `non_blocking` or `blocking`, stream_flags.h:16-17 (`runtime_blocking` names members that do not exist,
ios_policy.h:99, 104, and does not compile when used) -/
inductive Policy where
  | nonBlocking
  | blocking
  deriving DecidableEq, Repr

/-- `sgetc` of the blocking policy, ios_policy.h:61-82; `none`: not back after that many polls -/
def Live.waitGet (c : LiveCfg) : Nat → Live → Option (Live × Int)
  | 0, _ => none
  | k + 1, w =>
    if w.inAvail.2 = -1 then some (w.inAvail.1, eofCode)
    else if w.inAvail.2 = 0 then Live.waitGet c k w.inAvail.1
    else some (w.inAvail.1.sgetc c)

/-- `peek()`, istream.h:32-42, 248-251, with `sgetc` of the policy: ios_policy.h:32-35, 61-82 -/
def LS.peek (c : LiveCfg) (p : Policy) (polls : Nat) (s : LS) : Option (LS × Int) :=
  if s.ios.good then
    match p with
    | .nonBlocking => some (⟨(s.live.sgetc c).1, s.ios⟩, (s.live.sgetc c).2)
    | .blocking => (s.live.waitGet c polls).map fun r => (⟨r.1, s.ios⟩, r.2)
  else some (s, eofCode)

/-- `setstate` -/
def LS.setstate (c : LiveCfg) (s : LS) (b : BitVec 8) : LS := ⟨s.live, s.ios.setstate c.ios b⟩

/-- `get()`, istream.h:99-113: the same for both policies -/
def LS.get (c : LiveCfg) (s : LS) : LS × Int :=
  if (s.live.sbumpc c).2 = eofCode then (LS.setstate c ⟨(s.live.sbumpc c).1, s.ios⟩ (failbit ||| eofbit), eofCode)
  else (⟨(s.live.sbumpc c).1, s.ios⟩, (s.live.sbumpc c).2)

/-- `ignore()`, istream.h:254-271, with count 1 -/
def LS.ignore1 (c : LiveCfg) (s : LS) : LS := if (s.get c).2 = eofCode then (s.get c).1.setstate c eofbit else (s.get c).1

/-- `in >> ws`, istream.h:89-108; `none`: not back after that many rounds (or polls within a round) -/
def LS.ws (c : LiveCfg) (p : Policy) (polls : Nat) : Nat → LS → Option LS
  | 0, _ => none
  | k + 1, s =>
    match s.peek c p polls with
    | none => none
    | some (s', ch) => if isSpace (toChar ch) then LS.ws c p polls k (s'.ignore1 c) else some s'

/-- the loop `for(unsigned i = sz; i > 0; --i) sungetc()`, ios_policy.h:44-45 -/
def Live.backOff : Nat → Live → Live
  | 0, w => w
  | n + 1, w => Live.backOff n w.sungetc

/-- `on_nodata`, ios_policy.h:37-46 (non-blocking) -/
def LS.onNodata (c : LiveCfg) (s : LS) (sz : Nat) : LS := ⟨s.live.backOff sz, s.ios.setstate c.ios nodatabit⟩

/-- what `do_input` does when `peek()` gave end of file, istream_runtimearray.hpp:35-53 (`policy_type::blocking() ==
false` holds for the non-blocking flags, whose value is 0) -/
def LS.inputEnd (c : LiveCfg) (p : Policy) (s : LS) (v : List Ch) : LS :=
  match p with
  | .nonBlocking =>
    if s.live.inAvail.2 = 0 then LS.onNodata c ⟨s.live.inAvail.1, s.ios⟩ v.length
    else (if v = [] then LS.setstate c ⟨s.live.inAvail.1, s.ios⟩ failbit else ⟨s.live.inAvail.1, s.ios⟩).setstate c eofbit
  | .blocking => (if v = [] then s.setstate c failbit else s).setstate c eofbit

/-- `do_input`, istream_runtimearray.hpp:17-62 -/
def LS.doInput (c : LiveCfg) (p : Policy) (polls : Nat) : Nat → LS → List Ch → Option (LS × List Ch)
  | 0, _, _ => none
  | k + 1, s, v =>
    match s.peek c p polls with
    | none => none
    | some (s', ch) =>
      if ch = eofCode then some (s'.inputEnd c p v, v)
      else if isSpace (toChar ch) then some (s', v)
      else LS.doInput c p polls k (s'.get c).1 (v ++ [toChar ch])

/-- `in >> text`, istream_runtimearray.hpp:117-129 -/
def LS.word (c : LiveCfg) (p : Policy) (polls rounds : Nat) (s : LS) : Option (LS × List Ch) :=
  match s.ws c p polls rounds with
  | none => none
  | some s1 => s1.doInput c p polls rounds []

/-- `in >> text` time after time -/
def LS.words (c : LiveCfg) (p : Policy) (polls rounds : Nat) : Nat → LS → Option (LS × List (List Ch))
  | 0, s => some (s, [])
  | n + 1, s =>
    match s.word c p polls rounds with
    | none => none
    | some (s', v) => (LS.words c p polls rounds n s').map fun r => (r.1, v :: r.2)

/-- `in >> ch`, istream.h:152-167 -/
def LS.extractChar (c : LiveCfg) (p : Policy) (polls rounds : Nat) (s : LS) (value : Ch) : Option (LS × Ch) :=
  match s.ws c p polls rounds with
  | none => none
  | some s1 => some ((s1.get c).1, if c.tr.notEof (s1.get c).2 then toChar (s1.get c).2 else value)

/-- the loop of `get_signed_number`, num_get.h:50-74, over `istreambuf_iterator`s (istreambuf_iterator.h:88-101, 148-151),
which go to the stream buffer directly, past the policy.  `atEnd`: the iterator is null.  `none`: not back after that
many rounds. -/
def Live.number (c : LiveCfg) (t : Charconv.IntTy) (base : Nat) :
    Nat → Live → Bool → Charconv.NumState → Option (Live × Charconv.NumState × Bool)
  | 0, _, _, _ => none
  | k + 1, w, atEnd, s =>
    if atEnd then some (w, s, true)
    else
      match Charconv.numStep t base s (toChar (w.sgetc c).2).toNat with
      | (s', true) => some ((w.sgetc c).1, s', false)
      | (s', false) =>
        let n := (w.sgetc c).1.snextc c
        if n.2 = eofCode then Live.number c t base k n.1.inAvail.1 (n.1.inAvail.2 = -1) s'
        else Live.number c t base k n.1 false s'

/-- `in >> value` for an integer, istream.h:113-148, with the base selected by the flags (C62) -/
def LS.extractInt (c : LiveCfg) (p : Policy) (polls rounds : Nat) (octal : Bool) (t : Charconv.IntTy) (s : LS) (value : Int) :
    Option (LS × Int) :=
  match s.ws c p polls rounds with
  | none => none
  | some s1 =>
    match baseOf octal t.signed s1.ios.flags with
    | none => some (s1.setstate c (s1.ios.rdstate ||| failbit), value)
    | some base =>
      match s1.live.number c t base rounds false ⟨.start, false, 0⟩ with
      | none => none
      | some (w, st, eof) =>
        some (LS.setstate c ⟨w, s1.ios⟩ (s1.ios.rdstate ||| (if st.fail then failbit else 0) ||| (if eof then eofbit else 0)),
          st.v)

/-- a program that polls: before each attempt an arrival comes in and nothing comes during it; an attempt that ran out of
data (`nodatabit`) is made again after `clear()` (ios_base.h:153-154).  The arrivals left over are given as well. -/
def LS.retry (c : LiveCfg) (rounds : Nat) : List (List Ch) → LS → Option (LS × List Ch × List (List Ch))
  | [], _ => none
  | a :: as, s =>
    match LS.word c .nonBlocking 0 rounds ⟨{ s.live with here := s.live.here ++ a }, s.ios⟩ with
    | none => none
    | some (s', v) =>
      if s'.ios.rdstate &&& nodatabit ≠ 0 then LS.retry c rounds as ⟨s'.live, s'.ios.clear c.ios goodbit⟩
      else some (s', v, as)

/-! ## The specification -/

/-- everything still to be read, whether it has arrived or not -/
def Spec.unread (s : LS) : List Ch := s.live.here ++ s.live.toCome.flatten

/-- characters that are not shown as end of file (all of them where `char` is unsigned) -/
def Spec.Tellable (c : LiveCfg) (text : List Ch) : Prop := ∀ x ∈ text, c.code x ≠ eofCode

/-- `word` is the first word of `text`, and `rest` is what follows: white space, or nothing -/
def Spec.FirstWord (text word rest : List Ch) : Prop :=
  ∃ white, text = white ++ word ++ rest ∧ (∀ x ∈ white, Spec.White x) ∧ (∀ x ∈ word, ¬ Spec.White x) ∧
    (word = [] → rest = []) ∧ ∀ x r, rest = x :: r → Spec.White x

/-- the words of a text one after the other: what has been taken and what is left -/
inductive Spec.Words : List Ch → List (List Ch) → List Ch → Prop
  | nil (text : List Ch) : Spec.Words text [] text
  | cons {text word rest : List Ch} {ws : List (List Ch)} {left : List Ch} :
      Spec.FirstWord text word rest → Spec.Words rest ws left → Spec.Words text (word :: ws) left

/-! ## The device buffer is the one of C66 -/

theorem toChar_code (c : LiveCfg) (x : Ch) : toChar (c.code x) = x := by
  unfold LiveCfg.code
  split
  · have h := toChar_toInt ⟨true, c.tr.charSigned⟩ x
    simpa [Traits.toInt, Traits.promote] using h
  · exact toChar_toInt c.tr x

/-- With nothing arriving in between, the device configuration does what the device buffer of C66 does. -/
theorem live_device (t : Traits) (i : IosCfg) (past q : List Ch) (e : Bool) :
    (Live.sgetc ⟨t, true, i⟩ ⟨past, q, [], e⟩).2 = Dev.sgetc t ⟨q⟩ ∧
    (Live.sbumpc ⟨t, true, i⟩ ⟨past, q, [], e⟩).2 = (Dev.sbumpc t ⟨q⟩).2 ∧
    (Live.sbumpc ⟨t, true, i⟩ ⟨past, q, [], e⟩).1.here = (Dev.sbumpc t ⟨q⟩).1.pending ∧
    (Live.inAvail ⟨past, q, [], false⟩).2 = Dev.inAvail ⟨q⟩ := by
  cases q with
  | nil => simp [Live.sgetc, Live.sbumpc, Live.tick, Live.take1, LiveCfg.shown, Dev.sgetc, Dev.sbumpc, Dev.read, Dev.peek,
      charResult, Live.inAvail, Dev.inAvail]
  | cons b r =>
    have h : ¬ ((b.toNat : Int) = -1) := by omega
    simp [Live.sgetc, Live.sbumpc, Live.tick, Live.take1, LiveCfg.shown, LiveCfg.code, Dev.sgetc, Dev.sbumpc, Dev.read, Dev.peek,
      charResult, Live.inAvail, Dev.inAvail, promote_toChar, h]

end Verif.Streams
