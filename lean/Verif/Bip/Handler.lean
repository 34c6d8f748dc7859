import Verif.Bip.Props

/-!
# Model of a bip buffer shared by the main program and an interrupt handler

The bip buffer of `src/estd/ext/willemt/bipbuffer/bipbuffer.c` has one end for the producer and one for the consumer, and
neither end takes a lock.  One of them is the main program here; its calls are taken apart into single accesses of the
members of `bipbuf_t` and of single bytes of the array, in the order of the source.  (The order in which the operands of
one `-` or `==` are fetched is left to the compiler; they are fetched from left to right here.  `size` never changes after
`bipbuf_init`, so fetching it is no step of its own.)  The other end is an interrupt handler: it may run between any two of
these accesses, any number of times, and its own call runs to the end.  Caches and reordered writes are not modelled: both
run on one core.

`In` below is the main program taking bytes out and the handler putting them in (a receiver), `Out` the other way round
(a transmitter).
-/
namespace Verif.Bip.Handler
open Verif
variable {α : Type u}

/-! ## The main program takes bytes out -/

/-- where the main program is: it looks at the oldest bytes with `bipbuf_peek` (bipbuffer.c:97-107), copies them away, and
drops them with `bipbuf_poll` (bipbuffer.c:109-138).  A number is a value already fetched. -/
inductive InPc where
  /-- between calls -/
  | idle
  /-- bipbuffer.c:100, fetch `a_start` -/
  | peekSize
  /-- bipbuffer.c:65 called from 103, fetch `a_start` -/
  | peekStart
  /-- bipbuffer.c:65 called from 103, fetch `a_end` and compare -/
  | peekEnd (s : Nat)
  /-- bipbuffer.c:106, fetch `a_start` -/
  | peekPtr
  /-- the caller copies the bytes from there one by one -/
  | copy (p : Nat)
  /-- bipbuffer.c:65 called from 111, fetch `a_start` -/
  | pollStart
  /-- bipbuffer.c:65 called from 111, fetch `a_end` and compare -/
  | pollEnd (s : Nat)
  /-- bipbuffer.c:115, fetch `a_start` and compare -/
  | pollSize
  /-- bipbuffer.c:118, fetch `a_start` -/
  | pollPtr
  /-- bipbuffer.c:119, fetch `a_start` -/
  | addRead
  /-- bipbuffer.c:119, store `a_start` -/
  | addWrite (s : Nat)
  /-- bipbuffer.c:122, fetch `a_start` -/
  | cmpStart
  /-- bipbuffer.c:122, fetch `a_end` and compare -/
  | cmpEnd (s : Nat)
  /-- bipbuffer.c:125, fetch `b_inuse` -/
  | inuse
  /-- bipbuffer.c:127, store `a_start` -/
  | toStart
  /-- bipbuffer.c:128, fetch `b_end` -/
  | toFetch
  /-- bipbuffer.c:128, store `a_end` -/
  | toEnd (e : Nat)
  /-- bipbuffer.c:129, store `b_inuse` -/
  | toInuse
  /-- bipbuffer.c:129, store `b_end` -/
  | toClear
  /-- bipbuffer.c:133, store `a_end` -/
  | zeroEnd
  /-- bipbuffer.c:133, store `a_start` -/
  | zeroStart
  /-- bipbuffer.c:72 called from 136, fetch `a_end` -/
  | chkEnd
  /-- bipbuffer.c:72 called from 136, fetch `a_start` -/
  | chkStart (e : Nat)
  /-- bipbuffer.c:72 called from 136, fetch `b_end` and compare -/
  | chkB (e s : Nat)
  /-- bipbuffer.c:73 called from 136, store `b_inuse` -/
  | chkWrite
  deriving DecidableEq, Repr

/-- the shared buffer, the main program's place in its call, the number of bytes it asked for and those it has copied, all
the bytes that `bipbuf_offer` accepted from the handler and all the bytes the main program has taken; bipbuffer.h:4-18 -/
structure InSt (α : Type u) where
  buf : Buf α
  pc : InPc
  n : Nat
  got : List α
  acc : List α
  out : List α
  deriving DecidableEq, Repr

/-- the call is over: the bytes copied are the caller's; bipbuffer.c:137 -/
def InSt.done (s : InSt α) : InSt α := { s with pc := .idle, out := s.out ++ s.got, got := [] }

/-- one access of the main program; bipbuffer.c:97-138.  `none` is a read outside the array. -/
def inTick (s : InSt α) : Option (InSt α) :=
  match s.pc with
  | .idle => some s
  | .peekSize => some { s with pc := if s.buf.size < add32 s.buf.aStart s.n then .idle else .peekStart }
  | .peekStart => some { s with pc := .peekEnd s.buf.aStart }
  | .peekEnd r => some { s with pc := if r = s.buf.aEnd then .idle else .peekPtr }
  | .peekPtr => some { s with pc := .copy s.buf.aStart }
  | .copy p =>
    if s.got.length < s.n then
      (rd s.buf.data (p + s.got.length)).map fun c => { s with got := s.got ++ [c] }
    else some { s with pc := .pollStart }
  | .pollStart => some { s with pc := .pollEnd s.buf.aStart }
  | .pollEnd r => some { s with pc := if r = s.buf.aEnd then .idle else .pollSize }
  | .pollSize => some { s with pc := if s.buf.size < add32 s.buf.aStart s.n then .idle else .pollPtr }
  | .pollPtr => some { s with pc := .addRead }
  | .addRead => some { s with pc := .addWrite s.buf.aStart }
  | .addWrite r => some { s with pc := .cmpStart, buf := { s.buf with aStart := add32 r s.n } }
  | .cmpStart => some { s with pc := .cmpEnd s.buf.aStart }
  | .cmpEnd r => some { s with pc := if r = s.buf.aEnd then .inuse else .chkEnd }
  | .inuse => some { s with pc := if s.buf.bInuse then .toStart else .zeroEnd }
  | .toStart => some { s with pc := .toFetch, buf := { s.buf with aStart := 0 } }
  | .toFetch => some { s with pc := .toEnd s.buf.bEnd }
  | .toEnd e => some { s with pc := .toInuse, buf := { s.buf with aEnd := e } }
  | .toInuse => some { s with pc := .toClear, buf := { s.buf with bInuse := false } }
  | .toClear => some { s with pc := .chkEnd, buf := { s.buf with bEnd := 0 } }
  | .zeroEnd => some { s with pc := .zeroStart, buf := { s.buf with aEnd := 0 } }
  | .zeroStart => some { s with pc := .chkEnd, buf := { s.buf with aStart := 0 } }
  | .chkEnd => some { s with pc := .chkStart s.buf.aEnd }
  | .chkStart e => some { s with pc := .chkB e s.buf.aStart }
  | .chkB e r =>
    if sub64 s.buf.size e < sub32 r s.buf.bEnd then some { s with pc := .chkWrite } else some s.done
  | .chkWrite => some ({ s with buf := { s.buf with bInuse := true } } : InSt α).done

/-- what happens next: the main program starts to take `n` bytes, makes its next access, takes `n` bytes with interrupts
masked, or the handler runs and offers `d`; bipbuffer.c:76-138 -/
inductive InAct (α : Type u) where
  | start (n : Nat)
  | tick
  | masked (n : Nat)
  | irq (d : List α)
  deriving DecidableEq, Repr

/-- one action; bipbuffer.c:76-138.  A start while a call is in progress is not one, and does nothing.  `none` is
undefined behaviour. -/
def inStep (s : InSt α) : InAct α → Option (InSt α)
  | .start n => if s.pc = .idle then some { s with pc := .peekSize, n := n, got := [] } else some s
  | .tick => inTick s
  | .masked n =>
    if s.pc = .idle then
      match poll s.buf n with
      | (none, b') => some { s with buf := b' }
      | (some p, b') => some { s with buf := b', out := s.out ++ (s.buf.data.drop p).take n }
    else some s
  | .irq d => (offer s.buf d).map fun (k, b') => { s with buf := b', acc := s.acc ++ d.take k }

/-- a sequence of actions -/
def inRun (s : InSt α) : List (InAct α) → Option (InSt α)
  | [] => some s
  | a :: as => (inStep s a).bind fun s' => inRun s' as

/-- after `bipbuf_init`, bipbuffer.c:42-47 -/
def inInit (size : Nat) (mem : List α) : InSt α := ⟨init size mem, .idle, 0, [], [], []⟩

/-! ## The main program puts bytes in -/

/-- where the main program is in `bipbuf_offer`, bipbuffer.c:76-95 -/
inductive OutPc where
  /-- between calls -/
  | idle
  /-- bipbuffer.c:25 called from 79, fetch `b_inuse` -/
  | inuse
  /-- bipbuffer.c:27 called from 79, fetch `a_start` -/
  | roomStart
  /-- bipbuffer.c:27 called from 79, fetch `b_end` and compare -/
  | roomB (s : Nat)
  /-- bipbuffer.c:29 called from 79, fetch `a_end` and compare -/
  | roomA
  /-- bipbuffer.c:82, fetch `b_inuse` -/
  | again
  /-- bipbuffer.c:84, fetch `b_end` -/
  | fetchB
  /-- bipbuffer.c:84, the bytes from the `k`th on -/
  | copyB (p k : Nat)
  /-- bipbuffer.c:85, fetch `b_end` -/
  | addB
  /-- bipbuffer.c:85, store `b_end` -/
  | storeB (e : Nat)
  /-- bipbuffer.c:89, fetch `a_end` -/
  | fetchA
  /-- bipbuffer.c:89, the bytes from the `k`th on -/
  | copyA (p k : Nat)
  /-- bipbuffer.c:90, fetch `a_end` -/
  | addA
  /-- bipbuffer.c:90, store `a_end` -/
  | storeA (e : Nat)
  /-- bipbuffer.c:72 called from 93, fetch `a_end` -/
  | chkEnd
  /-- bipbuffer.c:72 called from 93, fetch `a_start` -/
  | chkStart (e : Nat)
  /-- bipbuffer.c:72 called from 93, fetch `b_end` and compare -/
  | chkB (e s : Nat)
  /-- bipbuffer.c:73 called from 93, store `b_inuse` -/
  | chkWrite
  deriving DecidableEq, Repr

/-- the shared buffer, the main program's place in its call, the bytes it is offering, all the bytes whose offer has
returned their number, and all the bytes the handler has taken; bipbuffer.h:4-18 -/
structure OutSt (α : Type u) where
  buf : Buf α
  pc : OutPc
  d : List α
  acc : List α
  out : List α
  deriving DecidableEq, Repr

/-- the call is over and returns the size; bipbuffer.c:94 -/
def OutSt.done (s : OutSt α) : OutSt α := { s with pc := .idle, acc := s.acc ++ s.d, d := [] }

/-- the call is over and returns 0; bipbuffer.c:80 -/
def OutSt.refuse (s : OutSt α) : OutSt α := { s with pc := .idle, d := [] }

/-- one access of the main program; bipbuffer.c:23-30, 70-95.  `none` is a write outside the array. -/
def outTick (s : OutSt α) : Option (OutSt α) :=
  match s.pc with
  | .idle => some s
  | .inuse => some { s with pc := if s.buf.bInuse then .roomStart else .roomA }
  | .roomStart => some { s with pc := .roomB s.buf.aStart }
  | .roomB r => if toInt (sub32 r s.buf.bEnd) < s.d.length then some s.refuse else some { s with pc := .again }
  | .roomA => if toInt (sub64 s.buf.size s.buf.aEnd) < s.d.length then some s.refuse else some { s with pc := .again }
  | .again => some { s with pc := if s.buf.bInuse then .fetchB else .fetchA }
  | .fetchB => some { s with pc := .copyB s.buf.bEnd 0 }
  | .copyB p k =>
    match s.d[k]? with
    | some c => (wr s.buf.data (p + k) c).map fun m => { s with pc := .copyB p (k + 1), buf := { s.buf with data := m } }
    | none => some { s with pc := .addB }
  | .addB => some { s with pc := .storeB s.buf.bEnd }
  | .storeB e => some { s with pc := .chkEnd, buf := { s.buf with bEnd := add32 e s.d.length } }
  | .fetchA => some { s with pc := .copyA s.buf.aEnd 0 }
  | .copyA p k =>
    match s.d[k]? with
    | some c => (wr s.buf.data (p + k) c).map fun m => { s with pc := .copyA p (k + 1), buf := { s.buf with data := m } }
    | none => some { s with pc := .addA }
  | .addA => some { s with pc := .storeA s.buf.aEnd }
  | .storeA e => some { s with pc := .chkEnd, buf := { s.buf with aEnd := add32 e s.d.length } }
  | .chkEnd => some { s with pc := .chkStart s.buf.aEnd }
  | .chkStart e => some { s with pc := .chkB e s.buf.aStart }
  | .chkB e r =>
    if sub64 s.buf.size e < sub32 r s.buf.bEnd then some { s with pc := .chkWrite } else some s.done
  | .chkWrite => some ({ s with buf := { s.buf with bInuse := true } } : OutSt α).done

/-- what happens next: the main program starts to offer `d`, makes its next access, or the handler runs, reads `n` bytes
and drops them; bipbuffer.c:76-138 -/
inductive OutAct (α : Type u) where
  | start (d : List α)
  | tick
  | irq (n : Nat)
  deriving DecidableEq, Repr

/-- one action; bipbuffer.c:76-138.  `none` is undefined behaviour. -/
def outStep (s : OutSt α) : OutAct α → Option (OutSt α)
  | .start d => if s.pc = .idle then some { s with pc := .inuse, d := d } else some s
  | .tick => outTick s
  | .irq n =>
    match poll s.buf n with
    | (none, b') => some { s with buf := b' }
    | (some p, b') => some { s with buf := b', out := s.out ++ (s.buf.data.drop p).take n }

/-- a sequence of actions -/
def outRun (s : OutSt α) : List (OutAct α) → Option (OutSt α)
  | [] => some s
  | a :: as => (outStep s a).bind fun s' => outRun s' as

/-- after `bipbuf_init`, bipbuffer.c:42-47 -/
def outInit (size : Nat) (mem : List α) : OutSt α := ⟨init size mem, .idle, [], [], []⟩

end Verif.Bip.Handler
