import Verif.Streams.InProps

/-!
# Model of `basic_istream`'s unformatted input

Modelled from `src/estd/internal/istream.h`, over an input streambuf of `Streams/In.lean`.  `none` is undefined
behaviour (an access outside the caller's buffer).  `FEATURE_ESTD_IOS_GCOUNT` is on, its default (feature/ios.h:5-7);
the blocking policy is the non-blocking one (ios_policy.h:23-48).
-/
namespace Verif.Streams
open Verif

structure ISCfg where
  inp : InCfg
  ios : IosCfg
  deriving DecidableEq, Repr

structure IS where
  buf : In
  ios : Ios
  gcount : Int
  deriving DecidableEq, Repr

/-- constructor, istream.h:319-323: `gcount(0)` -/
def IS.init (text : List Ch) : IS := ⟨In.init text, Ios.init, 0⟩

/-- conversion of an `int_type` to `char` -/
def toChar (v : Int) : Ch := BitVec.ofInt 8 v

/-- `setstate` -/
def IS.setstate (c : ISCfg) (s : IS) (b : BitVec 8) : IS := ⟨s.buf, s.ios.setstate c.ios b, s.gcount⟩

/-- `get()`, istream.h:99-113 -/
def IS.get (c : ISCfg) (s : IS) : Option (IS × Int) :=
  match s.buf.sbumpc c.inp with
  | none => none
  | some (b, ch) =>
    if ch = eofCode then some (IS.setstate c ⟨b, s.ios, s.gcount + 1⟩ (failbit ||| eofbit), ch)
    else some (⟨b, s.ios, s.gcount + 1⟩, ch)

/-- `unget()`, istream.h:116-125 -/
def IS.unget (c : ISCfg) (s : IS) : Option IS :=
  match s.buf.sungetc c.inp with
  | none => none
  | some (b, ch) =>
    if ch = eofCode then some (IS.setstate c ⟨b, s.ios, 0⟩ badbit) else some ⟨b, s.ios, 0⟩

/-- `peek()`, istream.h:32-42, 248-251 -/
def IS.peek (c : ISCfg) (s : IS) : Option (IS × Int) :=
  if s.ios.good then (s.buf.sgetc c.inp).map fun v => (⟨s.buf, s.ios, 0⟩, v)
  else some (⟨s.buf, s.ios, 0⟩, eofCode)

/-- `seekg(off, dir)`, istream.h:127-132 -/
def IS.seekg (c : ISCfg) (s : IS) (dir : Dir) (off : Int) : IS :=
  ⟨s.buf.seek c.inp dir off, s.ios.unsetstate c.ios failbit, s.gcount⟩

/-- `readsome(s, count)`, istream.h:137-149 -/
def IS.readsome (c : ISCfg) (s : IS) (dest : List Ch) (count : Int) : Option (IS × List Ch × Int) :=
  let m := min count (s.buf.inAvail c.inp)
  match s.buf.sgetn c.inp dest m with
  | none => none
  | some (b, d, n) => some (⟨b, s.ios, m⟩, d, n)

/-- `read(s, n)`, istream.h:151-165 -/
def IS.read (c : ISCfg) (s : IS) (dest : List Ch) (n : Int) : Option (IS × List Ch) :=
  match s.buf.sgetn c.inp dest n with
  | none => none
  | some (b, d, k) =>
    if k ≠ n then some (IS.setstate c ⟨b, s.ios, n⟩ eofbit, d) else some (⟨b, s.ios, n⟩, d)

/-- the loop of `getline`, istream.h:176-196; `j` is where `s` points in the destination.  Both comparisons are made on
`char` (`traits_type::eq`, char_traits.h:37).  Returns the stream, the destination and the final `s`. -/
def IS.getlineLoop (c : ISCfg) (delim : Ch) (s : IS) (dest : List Ch) (j : Nat) (count : Int) :
    Option (IS × List Ch × Nat) :=
  match s.buf.sbumpc c.inp with
  | none => none
  | some (b, ch) =>
    if toChar ch = toChar eofCode then some (IS.setstate c ⟨b, s.ios, s.gcount⟩ eofbit, dest, j)
    else if count = 0 ∨ toChar ch = delim then some (IS.setstate c ⟨b, s.ios, s.gcount⟩ failbit, dest, j)
    else if h : j < dest.length then
      IS.getlineLoop c delim ⟨b, s.ios, s.gcount + 1⟩ (dest.set j (toChar ch)) (j + 1) (count - 1)
    else none
termination_by dest.length - j
decreasing_by simp; omega

/-- `getline(s, count, delim)`, istream.h:168-201 -/
def IS.getline (c : ISCfg) (s : IS) (dest : List Ch) (count : Int) (delim : Ch) : Option (IS × List Ch) :=
  match IS.getlineLoop c delim ⟨s.buf, s.ios, 0⟩ dest 0 count with
  | none => none
  | some (s', d, j) => (wr d j 0).map fun d' => (s', d')

/-- the loop of `ignore(count)`, istream.h:256-270 -/
def IS.ignoreLoop (c : ISCfg) (s : IS) : Nat → Option IS
  | 0 => some s
  | n + 1 =>
    match s.get c with
    | none => none
    | some (s', ch) =>
      if ch = eofCode then some (IS.setstate c s' eofbit)
      else IS.ignoreLoop c ⟨s'.buf, s'.ios, s'.gcount + 1⟩ n

/-- `while(count--)` on a 32-bit `streamsize` (iosfwd.h:65): a negative count runs down through the wrap-around (strictly
this overflows; only the end of the text stops it earlier) -/
def iterations (count : Int) : Nat := (count % 4294967296).toNat

/-- `ignore(count)`, istream.h:254-271 -/
def IS.ignore (c : ISCfg) (s : IS) (count : Int) : Option IS := IS.ignoreLoop c s (iterations count)

/-- the loop of `ignore(count, delim)`, istream.h:279-293 -/
def IS.ignoreUntilLoop (c : ISCfg) (delim : Int) (s : IS) : Nat → Option IS
  | 0 => some s
  | n + 1 =>
    match s.get c with
    | none => none
    | some (s', ch) =>
      if ch = eofCode then some (IS.setstate c s' eofbit)
      else if ch = delim then some s'
      else IS.ignoreUntilLoop c delim ⟨s'.buf, s'.ios, s'.gcount + 1⟩ n

/-- `ignore(count, delim)`, istream.h:274-295 -/
def IS.ignoreUntil (c : ISCfg) (s : IS) (count : Int) (delim : Int) : Option IS :=
  if delim = eofCode then s.ignore c count else IS.ignoreUntilLoop c delim s (iterations count)

end Verif.Streams
