import Verif.Streams.OutProps
import Verif.Charconv.Props

/-!
# Model of formatted output: `basic_ostream`, integer insertion, `num_put`

Modelled from `src/estd/internal/ostream.h`, `src/estd/internal/ostream/integer.h`, `src/estd/ostream.h`,
`src/estd/internal/locale/num_put.h`, `src/estd/iomanip.h`, `src/estd/internal/iomanip.h` and `src/estd/ios.h`, with the
default features (`FEATURE_ESTD_OSTREAM_SETW`, `FEATURE_ESTD_OSTREAM_OCTAL`, internal/feature/ios.h:14-21) and the
default case policy (case chosen by the `uppercase` flag, internal/ios_policy.h:123).

The stream is put over any output implementation (`OutImpl`).  Simplifications: `streamsize` and `unsigned` do not
overflow (widths and lengths are far below 2^31); the local digit buffer starts as zeros in `outInt` (every character
that is used is written first, see `int_output`) and is a parameter in `putInteger`.
-/
namespace Verif.Streams
open Verif Verif.DynArray

/-- `basic_ostream`: the streambuf, `ios_base` and the 6-bit `fillchar` (ios_base.h:220-237) -/
structure OS (σ : Type) where
  buf : σ
  ios : Ios
  fillchar : BitVec 6

/-- construction, ios_base.h:231-235 -/
def OS.init {σ : Type} (b : σ) : OS σ := ⟨b, Ios.init, 0⟩

/-- the value of the bit-field as an `int`: its signedness is that of `char` -/
def fieldValue (t : Traits) (f : BitVec 6) : Int := if t.charSigned then f.toInt else f.toNat

/-- `fill()`, internal/ostream.h:93-96 -/
def fillOf (t : Traits) (f : BitVec 6) : Ch := BitVec.ofInt 8 (0x20 + fieldValue t f)

def OS.getFill {σ : Type} (t : Traits) (os : OS σ) : Ch := fillOf t os.fillchar

/-- `fill(ch)`, internal/ostream.h:98-103 -/
def OS.setFill {σ : Type} (t : Traits) (os : OS σ) (ch : Ch) : OS σ × Ch :=
  ({ os with fillchar := BitVec.ofInt 6 (0x20 + t.promote ch) }, os.getFill t)

variable {σ : Type}

/-- `flush()`, internal/ostream.h:147-153 -/
def OS.flush (c : IosCfg) (K : OutImpl σ) (os : OS σ) : Res (OS σ) :=
  (K.sync os.buf).bind fun (b, r) => .ok { os with buf := b, ios := if r = -1 then os.ios.setstate c badbit else os.ios }

/-- `sentry::destroy`, internal/ostream.h:130-135 -/
def OS.sentry (c : IosCfg) (K : OutImpl σ) (os : OS σ) : Res (OS σ) :=
  if os.ios.isUnitbufSet && os.ios.good then os.flush c K else .ok os

/-- `write(s, n)`, internal/ostream.h:80-86, 162-167 -/
def OS.write (t : Traits) (c : IosCfg) (K : OutImpl σ) (os : OS σ) (text : List Ch) : Res (OS σ) :=
  (K.sputn t os.buf text).bind fun (b, n) =>
    OS.sentry c K { os with buf := b, ios := if n = text.length then os.ios else os.ios.setstate c failbit }

/-- `put(ch, bypass_sentry)`, internal/ostream.h:170-179 -/
def OS.put (c : IosCfg) (K : OutImpl σ) (os : OS σ) (ch : Ch) (bypass : Bool) : Res (OS σ) :=
  (K.sputc os.buf ch).bind fun (b, r) =>
    let os1 : OS σ := { os with buf := b, ios := if r = eofCode then os.ios.setstate c eofbit else os.ios }
    if bypass then .ok os1 else os1.sentry c K

/-- the loop of `fill_n(c, n)` -/
def OS.putMany (c : IosCfg) (K : OutImpl σ) (ch : Ch) : Nat → OS σ → Res (OS σ)
  | 0, os => .ok os
  | n + 1, os => (os.put c K ch false).bind (OS.putMany c K ch n)

/-- `fill_n(n)`, internal/ostream.h:106-116: nothing for `n ≤ 0` -/
def OS.fillN (t : Traits) (c : IosCfg) (K : OutImpl σ) (os : OS σ) (n : Int) : Res (OS σ) :=
  os.putMany c K (os.getFill t) n.toNat

/-- `write_filled_buffer`, internal/ostream/integer.h:11-28 -/
def OS.writeFilled (t : Traits) (c : IosCfg) (K : OutImpl σ) (os : OS σ) (text : List Ch) : Res (OS σ) :=
  let pad := os.ios.getWidth
  let os0 : OS σ := { os with ios := (os.ios.setWidth c 0).1 }
  (if os0.ios.flags &&& right ≠ 0 then os0.fillN t c K (pad - text.length) else .ok os0).bind fun os1 =>
    (os1.write t c K text).bind fun os2 =>
      if os2.ios.flags &&& left ≠ 0 then os2.fillN t c K (pad - text.length) else .ok os2

/-- `get_base(flags & basefield)`, num_put.h:36-41, 70 -/
def getBase (flags : BitVec 8) : Nat :=
  if flags &&& basefield = hex then 16 else if flags &&& basefield = dec then 10 else 8

/-- an integer type of `bits` bits -/
def intTy (signed : Bool) (bits : Nat) : Charconv.IntTy := ⟨signed, 2 ^ (bits - if signed then 1 else 0) - 1⟩

/-- `uint_strlen<8, bits>`, internal/limits/traits.h:36-38, inside `length<8>`, internal/limits/integer.h:39-43 -/
def octLength (signed : Bool) (bits : Nat) : Nat := (bits + 1) / 3 + if signed then 1 else 0

/-- `integer_put::to_chars`, num_put.h:63-91, on the buffer of `length<8> + 1` characters (integer.h:78, 82): base up to
ten uses the decimal facet, where case does not matter -/
def integerPut (signed : Bool) (bits : Nat) (flags : BitVec 8) (v : Int) (buf : List Nat) :
    Option (List Nat × Nat × Charconv.Ec) :=
  Charconv.toCharsOpt (intTy signed bits) (flags &&& uppercase != 0) buf 0 (octLength signed bits + 1) v (getBase flags)

/-- `operator<<(integer)`, ostream.h:53-56 → `out_int_helper`, internal/ostream/integer.h:66-95 -/
def OS.outInt (t : Traits) (c : IosCfg) (K : OutImpl σ) (os : OS σ) (signed : Bool) (bits : Nat) (v : Int) : Res (OS σ) :=
  (Res.ofOption (integerPut signed bits os.ios.flags v (List.replicate (octLength signed bits + 1) 0))).bind
    fun (m, p, ec) =>
      if ec = .ok then os.writeFilled t c K ((m.drop p).map (BitVec.ofNat 8))
      else .ok { os with ios := os.ios.setstate c badbit }

/-- `operator<<(char)`, ostream.h:67-79 -/
def OS.outChar (t : Traits) (c : IosCfg) (K : OutImpl σ) (os : OS σ) (ch : Ch) : Res (OS σ) :=
  (os.fillN t c K (os.ios.getWidth - 1)).bind fun os1 =>
    OS.put c K { os1 with ios := (os1.ios.setWidth c 0).1 } ch false

/-- `operator<<(const char*)`, ostream.h:37-43, on the characters before the terminator -/
def OS.outStr (t : Traits) (c : IosCfg) (K : OutImpl σ) (os : OS σ) (text : List Ch) : Res (OS σ) := os.write t c K text

/-- `endl`, internal/iomanip.h:26-35 -/
def OS.endl (c : IosCfg) (K : OutImpl σ) (os : OS σ) : Res (OS σ) :=
  (os.put c K 10 true).bind fun os1 => os1.flush c K

/-- `setbase(base)`, iomanip.h:37-57; `dec`, `hex`, `oct` (ios.h:34-69) are the same with 10, 16, 8 -/
def OS.setBase (os : OS σ) (base : Int) : OS σ :=
  let fmt : BitVec 8 := if base = 8 then oct else if base = 10 then dec else if base = 16 then hex else 0
  { os with ios := (os.ios.setfMask fmt basefield).1 }

/-- `setw(n)`, iomanip.h:29-35, internal/iomanip.h:17-22 -/
def OS.setw (c : IosCfg) (os : OS σ) (n : Nat) : OS σ := { os with ios := (os.ios.setWidth c n).1 }

/-- the manipulators `left` and `right`, internal/iomanip.h:56-68: they return the stream -/
def OS.leftManip (os : OS σ) : OS σ := os
def OS.rightManip (os : OS σ) : OS σ := os

/-! ## num_put -/

/-- `num_put::put_integer`, num_put.h:129-175: what is written through the output iterator; `buf` is the uninitialised
local array.  The error code is not looked at. -/
def putInteger (signed : Bool) (bits : Nat) (ios : Ios) (fill : Nat) (v : Int) (buf : List Nat) : Option (List Nat) :=
  match integerPut signed bits ios.flags v buf with
  | none => none
  | some (m, p, _) =>
    let result := m.drop p
    if ios.width > result.length then
      let pad := List.replicate (ios.width - result.length) fill
      if ios.flags &&& adjustfield = right then some (pad ++ result)
      else if ios.flags &&& adjustfield = left then some (result ++ pad)
      else some []
    else some result

/-- `num_put::put(bool)`, num_put.h:187-205, numpunct.h:66-67 -/
def putBool (ios : Ios) (v : Bool) : List Nat :=
  if ios.flags &&& boolalpha ≠ 0 then (if v then [116, 114, 117, 101] else [102, 97, 108, 115, 101])
  else [Charconv.toChar10 (if v then 1 else 0)]

/-! ## Sequences of insertions -/

/-- what a program inserts: values and manipulators; `adjust` is `setf(left or right, adjustfield)`, `upper` is
`setf(uppercase)` or `unsetf(uppercase)` -/
inductive Item where
  | int (signed : Bool) (bits : Nat) (v : Int)
  | chr (ch : Ch)
  | str (text : List Ch)
  | setw (n : Nat)
  | setfill (ch : Ch)
  | setbase (b : Int)
  | upper (on : Bool)
  | adjust (toLeft : Bool)
  | endl
  deriving DecidableEq, Repr

/-- one insertion -/
def OS.insert (t : Traits) (c : IosCfg) (K : OutImpl σ) (os : OS σ) : Item → Res (OS σ)
  | .int signed bits v => os.outInt t c K signed bits v
  | .chr ch => os.outChar t c K ch
  | .str text => os.outStr t c K text
  | .setw n => .ok (os.setw c n)
  | .setfill ch => .ok (os.setFill t ch).1
  | .setbase b => .ok (os.setBase b)
  | .upper on => .ok { os with ios := if on then (os.ios.setf uppercase).1 else (os.ios.unsetf uppercase).1 }
  | .adjust toLeft => .ok { os with ios := (os.ios.setfMask (if toLeft then left else right) adjustfield).1 }
  | .endl => os.endl c K

/-- a whole chain of insertions -/
def OS.insertAll (t : Traits) (c : IosCfg) (K : OutImpl σ) : OS σ → List Item → Res (OS σ)
  | os, [] => .ok os
  | os, i :: r => (os.insert t c K i).bind fun os' => OS.insertAll t c K os' r

end Verif.Streams
