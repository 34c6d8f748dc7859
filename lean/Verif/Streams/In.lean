import Verif.Common.Mem
import Verif.Streams.IosProps

/-!
# Model of the input streambufs (span, string)

Modelled from `src/estd/streambuf.h`, `src/estd/internal/impl/streambuf/{base,pos,span,string,helpers}.h` and
`src/estd/traits/char_traits.h`.  `none` is undefined behaviour.  Text of a string buffer is its characters; the unused
cells behind them are not modelled (touching them counts as undefined).
-/
namespace Verif.Streams
open Verif

/-- a `char`, as a byte -/
abbrev Ch := BitVec 8

/-- Which `char_traits`: the library's own (traits/char_traits.h:19-87, `FEATURE_ESTD_CHARTRAITS`) or `std::char_traits`
(char_traits.h:110-111), and whether plain `char` is signed. -/
structure Traits where
  own : Bool
  charSigned : Bool
  deriving DecidableEq, Repr

/-- conversion of a `char` to an integer type -/
def Traits.promote (t : Traits) (c : Ch) : Int := if t.charSigned then c.toInt else c.toNat

/-- `to_int_type`, char_traits.h:35: the library's own is a plain conversion; the standard one goes through
`unsigned char`. -/
def Traits.toInt (t : Traits) (c : Ch) : Int := if t.own then t.promote c else c.toNat

/-- `eof()`, char_traits.h:36 -/
def eofCode : Int := -1

/-- the two kinds of buffer; `W` is the modulus of the string's `size_type` -/
inductive Kind where
  | span
  | string (W : Nat)
  deriving DecidableEq, Repr

structure InCfg where
  tr : Traits
  kind : Kind
  deriving DecidableEq, Repr

/-- an input streambuf: its characters and `_pos`, an `unsigned short` (pos.h:11, 27; span.h:142, string.h:76) -/
structure In where
  data : List Ch
  pos : Nat
  deriving DecidableEq, Repr

/-- constructor: position 0, pos.h:82 -/
def In.init (data : List Ch) : In := ⟨data, 0⟩

/-- `xin_avail()`, span.h:179-182 and string.h:105-108 -/
def In.xinAvail (c : InCfg) (s : In) : Int :=
  match c.kind with
  | .span => (s.data.length : Int) - s.pos
  | .string W => ((s.data.length : Int) - s.pos) % W

/-- `gbump(count)`, pos.h:85 -/
def In.gbump (s : In) (count : Int) : In := { s with pos := (((s.pos : Int) + count) % 65536).toNat }

/-- `xsgetc()`, streambuf.h:75-79, span.h:195, string.h:113-120 -/
def In.xsgetc (c : InCfg) (s : In) : Option Int := (rd s.data s.pos).map c.tr.toInt

/-- `sgetc()`, streambuf.h:157-160; `underflow()` is `eof()`, base.h:92 -/
def In.sgetc (c : InCfg) (s : In) : Option Int := if s.xinAvail c = 0 then some eofCode else s.xsgetc c

/-- `sbumpc()`, streambuf.h:152-155, helpers.h:31-45; `uflow()` is `eof()`, base.h:80 -/
def In.sbumpc (c : InCfg) (s : In) : Option (In × Int) :=
  match s.sgetc c with
  | none => none
  | some ch => if ch ≠ eofCode then some (s.gbump 1, ch) else some (s, eofCode)

/-- `snextc()`, streambuf.h:167-172 -/
def In.snextc (c : InCfg) (s : In) : Option (In × Int) :=
  match s.sbumpc c with
  | none => none
  | some (s', ch) =>
    if ch = eofCode then some (s', eofCode)
    else
      match s'.sgetc c with
      | none => none
      | some r => some (s', r)

/-- copying `n` characters out of the buffer from `pos` into a separate destination: `estd::copy_n`
(algorithm.h:108-119) or `memcpy` -/
def copyChars (src : List Ch) (pos n : Nat) (dest : List Ch) : Option (List Ch) :=
  if n = 0 then some dest
  else if pos + n ≤ src.length ∧ n ≤ dest.length then some ((src.drop pos).take n ++ dest.drop n)
  else none

/-- `pos + count` in `size_type`: types narrower than `int` are added as `int` -/
def sizeAdd (W a b : Nat) : Nat := if W ≤ 65536 then a + b else (a + b) % W

/-- `sgetn(s, count)`, streambuf.h:118-122, through `xsgetn`: span.h:186-193 (a negative count makes `copy_n` run
away), string.h:96-103 with `copy` (runtime_array.h:367-371, container/specializer.h:178-197), whose `count` and `pos`
are converted to `size_type`.  Returns the buffer, the destination and the count. -/
def In.sgetn (c : InCfg) (s : In) (dest : List Ch) (count : Int) : Option (In × List Ch × Int) :=
  match c.kind with
  | .span =>
    let n := min count (s.xinAvail c)
    if n < 0 then none
    else
      match copyChars s.data s.pos n.toNat dest with
      | none => none
      | some d => some (s.gbump n, d, n)
  | .string W =>
    let cnt := (count % W).toNat
    let p := s.pos % W
    let n := if sizeAdd W p cnt > s.data.length then (((s.data.length : Int) - p) % W).toNat else cnt
    match copyChars s.data p n dest with
    | none => none
    | some d => some (s.gbump n, d, n)

/-- `sungetc()`, streambuf.h:70-73, helpers.h:17-29 (span), string.h:152-161; `pbackfail()` is `eof()`, base.h:82-85 -/
def In.sungetc (c : InCfg) (s : In) : Option (In × Int) :=
  if s.pos > 0 then
    match (s.gbump (-1)).xsgetc c with
    | none => none
    | some r => some (s.gbump (-1), r)
  else some (s, eofCode)

/-- conversion to `int_type`: 16 bits for the library's own traits (char_traits.h:24), else `int` -/
def Traits.intType (t : Traits) (v : Int) : Int :=
  if t.own then (v + 32768) % 65536 - 32768 else (v + 2147483648) % 4294967296 - 2147483648

/-- `in_avail()`, streambuf.h:184-187, through `showmanyc`, span.h:184, string.h:110, base.h:102-109 (whose parameter is
an `int_type`) -/
def In.inAvail (c : InCfg) (s : In) : Int :=
  let a := c.tr.intType (s.xinAvail c)
  if a > 0 then a else -1

/-- `seekdir`, ios_base.h:67-71 -/
inductive Dir where
  | beg
  | cur
  | end_
  deriving DecidableEq, Repr

/-- `pubseekoff(off, dir, in)`, streambuf.h:207-210: pos.h:44-59, 87-95 for a span (which does not know `end`),
string.h:129-150 for a string.  Only the effect on the position. -/
def In.seek (c : InCfg) (s : In) (dir : Dir) (off : Int) : In :=
  match dir, c.kind with
  | .beg, _ => { s with pos := (off % 65536).toNat }
  | .cur, _ => s.gbump off
  | .end_, .span => s
  | .end_, .string _ => { s with pos := ((s.data.length + off) % 65536).toNat }

/-- the operations, as one history; `getn n` reads into a fresh buffer of `n` characters -/
inductive InOp where
  | getc
  | bumpc
  | nextc
  | getn (n : Nat)
  | ungetc
  | seek (d : Dir) (off : Int)
  deriving DecidableEq, Repr

/-- what an operation returns: an `int_type`, or the characters stored -/
inductive InRes where
  | code (v : Int)
  | chars (l : List Ch)
  | unit
  deriving DecidableEq, Repr

def In.step (c : InCfg) (s : In) : InOp → Option (In × InRes)
  | .getc => (s.sgetc c).map fun v => (s, .code v)
  | .bumpc => (s.sbumpc c).map fun r => (r.1, .code r.2)
  | .nextc => (s.snextc c).map fun r => (r.1, .code r.2)
  | .getn n => (s.sgetn c (List.replicate n 0) n).map fun r => (r.1, .chars (r.2.1.take r.2.2.toNat))
  | .ungetc => (s.sungetc c).map fun r => (r.1, .code r.2)
  | .seek d off => some (s.seek c d off, .unit)

def In.run (c : InCfg) (s : In) : List InOp → Option (In × List InRes)
  | [] => some (s, [])
  | op :: r =>
    match s.step c op with
    | none => none
    | some (s', v) =>
      match In.run c s' r with
      | none => none
      | some (s'', vs) => some (s'', v :: vs)

end Verif.Streams
