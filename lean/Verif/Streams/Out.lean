import Verif.Streams.IstreamProps
import Verif.DynArray.History

/-!
# Model of the output streambufs (span, string, buffered)

Modelled from `src/estd/streambuf.h` (the wrapper's `sputn`) and
`src/estd/internal/impl/streambuf/{base,pos,span,string,buffer}.h`.  Outcomes are `DynArray.Res`: a value, a failed
`assert`, or undefined behaviour.

Simplifications: the characters to put are passed as the list of their values, so a count is a length (never negative)
and the source does not overlap the destination.
-/
namespace Verif.Streams
open Verif Verif.DynArray

/-- What an implementation class gives the wrapper `streambuf<Impl>` (streambuf.h:29-31): `xsputn`, `overflow`, `sputc`
and `sync`.  Characters are counted, `overflow` and `sputc` return an `int_type`. -/
structure OutImpl (σ : Type) where
  xsputn : σ → List Ch → Res (σ × Nat)
  overflow : σ → Int → Res (σ × Int)
  sputc : σ → Ch → Res (σ × Int)
  sync : σ → Res (σ × Int)

/-- `streambuf::sputn`, streambuf.h:126-150; the character handed to `overflow` converts plainly to `int_type`. -/
def OutImpl.sputn {σ : Type} (t : Traits) (I : OutImpl σ) (s : σ) (text : List Ch) : Res (σ × Nat) :=
  (I.xsputn s text).bind fun (s1, written) =>
    if written < text.length then
      (Res.ofOption (rd text written)).bind fun ch =>
        (I.overflow s1 (t.promote ch)).bind fun (s2, r) =>
          if r ≠ eofCode then
            (I.xsputn s2 (text.drop (written + 1))).bind fun (s3, more) => .ok (s3, written + 1 + more)
          else .ok (s2, written)
    else .ok (s1, written)

/-- the default `overflow`, base.h:87-90 -/
def noOverflow {σ : Type} (s : σ) (_ : Int) : Res (σ × Int) := .ok (s, eofCode)

/-- the default `sync`, base.h:65 -/
def noSync {σ : Type} (s : σ) : Res (σ × Int) := .ok (s, 0)

/-! ## Span -/

/-- an output span streambuf: the span's characters and `_pos` (its `size_type` is `size_t`: no wrap modelled;
span.h:13-28, pos.h:27, 111) -/
structure OutSpan where
  mem : List Ch
  pos : Nat
  deriving DecidableEq, Repr

/-- `xsputn`, span.h:78-84: `memcpy` without a bounds check; writing outside the span is undefined -/
def OutSpan.xsputn (s : OutSpan) (text : List Ch) : Res (OutSpan × Nat) :=
  if s.pos + text.length ≤ s.mem.length then
    .ok (⟨s.mem.take s.pos ++ text ++ s.mem.drop (s.pos + text.length), s.pos + text.length⟩, text.length)
  else .ub

/-- `sputc`, span.h:86-95; `size_bytes()` is the number of characters -/
def OutSpan.sputc (t : Traits) (s : OutSpan) (ch : Ch) : Res (OutSpan × Int) :=
  if s.pos ≥ s.mem.length then .ok (s, eofCode)
  else .ok (⟨s.mem.set s.pos ch, s.pos + 1⟩, t.toInt ch)

/-- `seekoff`, span.h:101-123 with `openmode` including `out`; the position is a `size_t` (negative results wrap and
are then outside the span) -/
def OutSpan.seek (s : OutSpan) (d : Dir) (off : Int) : OutSpan :=
  match d with
  | .cur => { s with pos := (((s.pos : Int) + off) % 2 ^ 64).toNat }
  | .beg => { s with pos := (off % 2 ^ 64).toNat }
  | .end_ => { s with pos := (((s.mem.length : Int) + off) % 2 ^ 64).toNat }

/-- the span streambuf as an implementation -/
def spanOut (t : Traits) : OutImpl OutSpan := ⟨OutSpan.xsputn, noOverflow, OutSpan.sputc t, noSync⟩

/-! ## String -/

/-- `out_stringbuf::xsputn`, string.h:35-42, and `sputc`, string.h:44-48 (`operator+=` is `push_back`); the state is
the string itself -/
def stringOut (t : Traits) (c : Cfg Ch) : OutImpl (Arr Ch) where
  xsputn a text := (append c a text).bind fun a' => .ok (a', text.length)
  overflow := noOverflow
  sputc a ch := (pushBack c a ch).bind fun a' => .ok (a', t.toInt ch)
  sync := noSync

/-! ## Buffered -/

/-- `not_eof(ch)` used as a condition, char_traits.h:38; the standard one returns its argument, or 0 for `eof()` -/
def Traits.notEof (t : Traits) (v : Int) : Bool := if t.own then v != eofCode else v != eofCode && v != 0

/-- `out_buffered_stringbuf`, buffer.h:16-24: the wrapped streambuf and a string that is not null terminated -/
structure Buffered (σ : Type) where
  sink : σ
  buf : Arr Ch

/-- the string of `len` characters (`len ≤ 255`: `size_type` is 8 bits), buffer.h:24 -/
def bufCfg (asserts : Bool) : Cfg Ch := ⟨256, false, 0, asserts⟩

/-- `remaining()`, buffer.h:27-33, in `unsigned` -/
def Buffered.remaining {σ : Type} (b : Buffered σ) : Nat := (b.buf.buf.length + 2 ^ 32 - b.buf.msize) % 2 ^ 32

/-- `ll_sync()`, buffer.h:41-51: the sink's `sputn` of what is pending, whose result is ignored, then `clear()` -/
def Buffered.llSync {σ : Type} (t : Traits) (K : OutImpl σ) (asserts : Bool) (b : Buffered σ) : Res (Buffered σ) :=
  (K.sputn t b.sink (b.buf.buf.take b.buf.msize)).bind fun (sink', _) =>
    (clear (bufCfg asserts) b.buf).bind fun buf' => .ok ⟨sink', buf'⟩

/-- `sync()`, buffer.h:59-64 -/
def Buffered.sync {σ : Type} (t : Traits) (K : OutImpl σ) (asserts : Bool) (b : Buffered σ) : Res (Buffered σ × Int) :=
  if b.buf.msize = 0 then .ok (b, 0) else (b.llSync t K asserts).bind fun b' => .ok (b', 0)

/-- `overflow(ch)`, buffer.h:66-81; returns `'*'` -/
def Buffered.overflow {σ : Type} (t : Traits) (K : OutImpl σ) (asserts : Bool) (b : Buffered σ) (ch : Int) :
    Res (Buffered σ × Int) :=
  (if b.remaining = 0 then b.llSync t K asserts else .ok b).bind fun b1 =>
    (if t.notEof ch then (pushBack (bufCfg asserts) b1.buf (toChar ch)).bind fun a => .ok { b1 with buf := a }
      else .ok b1).bind fun b2 => .ok (b2, 42)

/-- `xsputn`, buffer.h:83-94: appends what fits, and returns `count` -/
def Buffered.xsputn {σ : Type} (asserts : Bool) (b : Buffered σ) (text : List Ch) : Res (Buffered σ × Nat) :=
  (append (bufCfg asserts) b.buf (text.take b.remaining)).bind fun a => .ok ({ b with buf := a }, text.length)

/-- `sputc(ch)`, buffer.h:103-106: plain conversion to `int_type` -/
def Buffered.sputc {σ : Type} (t : Traits) (K : OutImpl σ) (asserts : Bool) (b : Buffered σ) (ch : Ch) :
    Res (Buffered σ × Int) := b.overflow t K asserts (t.promote ch)

/-- the buffered streambuf as an implementation, over any other -/
def bufferedOut {σ : Type} (t : Traits) (K : OutImpl σ) (asserts : Bool) : OutImpl (Buffered σ) :=
  ⟨Buffered.xsputn asserts, Buffered.overflow t K asserts, Buffered.sputc t K asserts, Buffered.sync t K asserts⟩

/-! ## Histories -/

/-- the public put operations: `sputc`, `sputn`, `pubsync` (streambuf.h:126, 196) -/
inductive OutOp where
  | putc (ch : Ch)
  | putn (text : List Ch)
  | sync
  deriving DecidableEq, Repr

/-- what an operation returned -/
inductive OutRes where
  | int (v : Int)
  | count (n : Nat)
  deriving DecidableEq, Repr

/-- one operation -/
def OutImpl.step {σ : Type} (t : Traits) (I : OutImpl σ) (s : σ) : OutOp → Res (σ × OutRes)
  | .putc ch => (I.sputc s ch).bind fun (s', r) => .ok (s', .int r)
  | .putn text => (I.sputn t s text).bind fun (s', n) => .ok (s', .count n)
  | .sync => (I.sync s).bind fun (s', r) => .ok (s', .int r)

/-- a history -/
def OutImpl.run {σ : Type} (t : Traits) (I : OutImpl σ) (s : σ) : List OutOp → Res (σ × List OutRes)
  | [] => .ok (s, [])
  | o :: r => (I.step t s o).bind fun (s', x) => (I.run t s' r).bind fun (s'', xs) => .ok (s'', x :: xs)

end Verif.Streams
