/-!
# Model of `ios_base`: stream state, format flags, width

Modelled from `src/estd/internal/ios_base.h`.  `fmtflags` and `iostate` are `uint8_t`, so bit vectors of eight bits.
-/
namespace Verif.Streams

/-- `FEATURE_ESTD_AGGRESSIVE_BITFIELD` (feature/ios.h:9-11, on by default): four bits of state and four of width,
instead of eight and sixteen (ios_base.h:76-92). -/
structure IosCfg where
  aggressive : Bool
  deriving DecidableEq, Repr

/-- `fmtflags` constants, ios_base.h:22-43 -/
def dec : BitVec 8 := 0x01
def hex : BitVec 8 := 0x02
def oct : BitVec 8 := 0x03
def basefield : BitVec 8 := dec ||| hex
def uppercase : BitVec 8 := 0x04
def left : BitVec 8 := 0x08
def right : BitVec 8 := 0x10
def adjustfield : BitVec 8 := left ||| right
def boolalpha : BitVec 8 := 0x20
def unitbuf : BitVec 8 := 0x40
def skipws : BitVec 8 := 0x80

/-- `iostate` constants, ios_base.h:58-65 -/
def goodbit : BitVec 8 := 0x00
def badbit : BitVec 8 := 0x01
def failbit : BitVec 8 := 0x02
def eofbit : BitVec 8 := 0x04
def nodatabit : BitVec 8 := 0x08

/-- `struct state`, ios_base.h:74-102 -/
structure Ios where
  flags : BitVec 8
  state : BitVec 8
  width : Nat
  deriving DecidableEq, Repr

/-- constructor, ios_base.h:83-87, 94-98 -/
def Ios.init : Ios := ⟨dec ||| right, goodbit, 0⟩

/-- assignment to the bit-field `iostate_` keeps the low bits -/
def IosCfg.truncState (c : IosCfg) (v : BitVec 8) : BitVec 8 := if c.aggressive then v &&& 0x0F else v

/-- assignment to the unsigned bit-field `width_` keeps the low bits -/
def IosCfg.truncWidth (c : IosCfg) (n : Int) : Nat := (n % (if c.aggressive then 16 else 65536)).toNat

/-- `unsetstate`, ios_base.h:109-112 -/
def Ios.unsetstate (c : IosCfg) (s : Ios) (b : BitVec 8) : Ios := { s with state := c.truncState (s.state &&& ~~~b) }

/-- `width()`, ios_base.h:117-120 -/
def Ios.getWidth (s : Ios) : Int := s.width

/-- `width(n)`, ios_base.h:122-127 -/
def Ios.setWidth (c : IosCfg) (s : Ios) (n : Int) : Ios × Int := ({ s with width := c.truncWidth n }, s.getWidth)

/-- `setf(flags)`, ios_base.h:130-131 -/
def Ios.setf (s : Ios) (f : BitVec 8) : Ios × BitVec 8 := ({ s with flags := s.flags ||| f }, s.flags)

/-- `setf(flags, mask)`, ios_base.h:133-139 -/
def Ios.setfMask (s : Ios) (f mask : BitVec 8) : Ios × BitVec 8 :=
  ({ s with flags := (s.flags &&& ~~~mask) ||| f }, s.flags)

/-- `unsetf(flags)`, ios_base.h:141-142 -/
def Ios.unsetf (s : Ios) (f : BitVec 8) : Ios × BitVec 8 := ({ s with flags := s.flags &&& ~~~f }, s.flags)

/-- `flags(fmtfl)`, ios_base.h:147-148 -/
def Ios.setFlags (s : Ios) (f : BitVec 8) : Ios × BitVec 8 := ({ s with flags := f }, s.flags)

/-- `rdstate()`, ios_base.h:150-151 -/
def Ios.rdstate (s : Ios) : BitVec 8 := s.state

/-- `clear(state)`, ios_base.h:153-154 -/
def Ios.clear (c : IosCfg) (s : Ios) (b : BitVec 8) : Ios := { s with state := c.truncState b }

/-- `setstate(state)`, ios_base.h:156-159 -/
def Ios.setstate (c : IosCfg) (s : Ios) (b : BitVec 8) : Ios := { s with state := c.truncState (s.state ||| b) }

/-- `good()`, ios_base.h:161-162 -/
def Ios.good (s : Ios) : Bool := s.rdstate == goodbit

/-- `bad()`, ios_base.h:164-165 -/
def Ios.bad (s : Ios) : Bool := s.rdstate &&& badbit != 0

/-- `fail()`, ios_base.h:167-168 -/
def Ios.fail (s : Ios) : Bool := s.rdstate &&& failbit != 0 || s.rdstate &&& badbit != 0

/-- `eof()`, ios_base.h:170-171 -/
def Ios.eof (s : Ios) : Bool := s.rdstate &&& eofbit != 0

/-- `is_unitbuf_set()`, ios_base.h:175 -/
def Ios.isUnitbufSet (s : Ios) : Bool := s.flags &&& unitbuf != 0

/-- the state operations, as one history -/
inductive StateOp where
  | setstate (b : BitVec 8)
  | clear (b : BitVec 8)
  | unsetstate (b : BitVec 8)
  deriving DecidableEq, Repr

def Ios.step (c : IosCfg) (s : Ios) : StateOp → Ios
  | .setstate b => s.setstate c b
  | .clear b => s.clear c b
  | .unsetstate b => s.unsetstate c b

def Ios.run (c : IosCfg) (s : Ios) (ops : List StateOp) : Ios := ops.foldl (Ios.step c) s

end Verif.Streams
