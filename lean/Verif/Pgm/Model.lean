import Verif.Common.Mem

/-!
# Text and arrays in the program memory of an AVR

Modelled from `src/estd/exp/pgm/{read.h,accessor.h,impl.h,policy.h,string.h,array.h,allocator.h}` and the parts of
`internal/{runtime_array.h,string.h,container/specializer.h,container/iterator.h,ostream_basic_string.hpp}` they are
used through.

An AVR has two address spaces.  Program memory is a list of bytes, an address is a position in it, and reading outside
gives `none`.  The functions of avr-libc (`pgm_read_byte`, `memcpy_P`, `strnlen_P`, `strncmp_P`) are modelled from its
manual.  Far addresses are not modelled.
-/
namespace Verif.Pgm
open Verif

/-! ## avr-libc -/

/-- the bytes that `memcpy_P(dest, p, n)` writes -/
def memcpyP (flash : List Nat) (p : Nat) : Nat → Option (List Nat)
  | 0 => some []
  | n + 1 => (rd flash p).bind fun b => (memcpyP flash (p + 1) n).map (b :: ·)

/-- `strnlen_P(p, max)`, as used at policy.h:30 -/
def strnlenP (flash : List Nat) (p : Nat) : Nat → Option Nat
  | 0 => some 0
  | max + 1 => (rd flash p).bind fun b => if b = 0 then some 0 else (strnlenP flash (p + 1) max).map (· + 1)

/-- `strncmp_P(s, p, n)`, as used at string.h:55: `s` are the characters of a string in RAM up to its terminator -/
def strncmpP (flash : List Nat) : List Nat → Nat → Nat → Option Int
  | _, _, 0 => some 0
  | [], p, _ + 1 => (rd flash p).map fun b => 0 - (b : Int)
  | c :: cs, p, n + 1 => (rd flash p).bind fun b => if c = b then strncmpP flash cs (p + 1) n else some ((c : Int) - b)

/-! ## Values, read.h -/

/-- `pgm_read_byte_near`, read.h:30, 36 -/
def readByte (flash : List Nat) (p : Nat) : Option Nat := rd flash p

/-- `pgm_read_word_near`, read.h:51, 57: the low byte is first -/
def readWord (flash : List Nat) (p : Nat) : Option Nat :=
  (rd flash p).bind fun lo => (rd flash (p + 1)).map fun hi => lo + 256 * hi

/-- `pgm_read_dword_near`, read.h:64, 71 -/
def readDword (flash : List Nat) (p : Nat) : Option Nat :=
  (readWord flash p).bind fun lo => (readWord flash (p + 2)).map fun hi => lo + 65536 * hi

/-- the value of an unsigned integer from its bytes in RAM, the low byte first -/
def fromBytes : List Nat → Nat
  | [] => 0
  | b :: bs => b + 256 * fromBytes bs

/-- `pgm_read<T>(p)` for an unsigned integer type of `w` bytes, read.h:15-72: reads of their own for types of one, two
and four bytes, `memcpy_P` for the others -/
def pgmRead (flash : List Nat) (w p : Nat) : Option Nat :=
  if w = 1 then readByte flash p
  else if w = 2 then readWord flash p
  else if w = 4 then readDword flash p
  else (memcpyP flash p w).map fromBytes

/-- the result of `pgm_read` as a signed type of `w` bytes, read.h:55-58, 69-72 -/
def signed (w v : Nat) : Int := if 2 * v < 256 ^ w then (v : Int) else (v : Int) - (256 ^ w : Nat)

/-! ## Strings, string.h -/

/-- `basic_pgm_string<char, N>`: where the text is, and `N` if it was given; string.h:104-113, impl.h:55-57 -/
structure PStr where
  data : Nat
  ext : Option Nat
  deriving DecidableEq, Repr

/-- `size()`, policy.h:27-32 with impl.h:85-88: without `N` at most 256 -/
def size (flash : List Nat) (s : PStr) : Option Nat :=
  match s.ext with
  | none => strnlenP flash s.data 256
  | some n => some n

/-- `s[i]`, runtime_array.h:333-337 with impl.h:66-69 and accessor.h:84-85 -/
def charAt (flash : List Nat) (s : PStr) (i : Nat) : Option Nat := pgmRead flash 1 (s.data + i)

/-- `for(it = begin(); it != end(); ++it)` reading elements of `w` bytes: container/iterator.h:90-94, 177-186,
runtime_array.h:274-319, accessor.h:84-85.  `fuel` bounds the steps; running out of it is `none`. -/
def iterate (flash : List Nat) (w : Nat) : Nat → Nat → Nat → Option (List Nat)
  | 0, _, _ => none
  | fuel + 1, it, last =>
    if it = last then some []
    else (pgmRead flash w it).bind fun v => (iterate flash w fuel (it + w) last).map (v :: ·)

/-- the characters `out << s` puts, ostream_basic_string.hpp:14-21 with string.h:73-82 -/
def output (flash : List Nat) (s : PStr) : Option (List Nat) :=
  (size flash s).bind fun n => iterate flash 1 (n + 1) s.data (s.data + n)

/-- the same for an Arduino `Print`, string.h:86-96: `print(const __FlashStringHelper*)` stops at a zero byte, whatever
`N` is -/
def outputArduino (flash : List Nat) (p : Nat) : Option (List Nat) :=
  let l := flash.drop p
  if 0 ∈ l then some (l.takeWhile (· ≠ 0)) else none

/-- `s.copy(dest, count, pos)`: what is written to `dest`, whose number is returned; runtime_array.h:367-371,
string.h:31-44.  The number of elements is limited by the size, not by what is left after `pos`. -/
def copyTo (flash : List Nat) (s : PStr) (count pos : Nat) : Option (List Nat) :=
  (size flash s).bind fun n => memcpyP flash (s.data + pos) (min count n)

/-- `dst += s` for a string in RAM with enough room, container/specializer.h:125-141 -/
def appendTo (flash : List Nat) (s : PStr) (dst : List Nat) : Option (List Nat) :=
  (size flash s).bind fun n => (copyTo flash s n 0).map (dst ++ ·)

/-- `s.compare(t)` for a string `t` in RAM: by size first (internal/string.h:60-70, 115-118), then string.h:47-56 -/
def compare (flash : List Nat) (s : PStr) (t : List Nat) : Option Int :=
  (size flash s).bind fun n =>
    if n < t.length then some (-1)
    else if n > t.length then some 1
    else (strncmpP flash t s.data t.length).map fun r => -r

/-- `s == t`, internal/string.h:404-410 -/
def equal (flash : List Nat) (s : PStr) (t : List Nat) : Option Bool := (compare flash s t).map (· = 0)

/-! ## Arrays, array.h -/

/-- `pgm_array<T, N>`, in program memory itself: where it is, `N`, and the size of its elements; array.h:123-133 -/
structure PArr where
  data : Nat
  n : Nat
  w : Nat
  deriving DecidableEq, Repr

/-- `a[i]`, runtime_array.h:333-337 with impl.h:66-69 and allocators/fixed.h:104-107 -/
def PArr.get (flash : List Nat) (a : PArr) (i : Nat) : Option Nat := pgmRead flash a.w (a.data + i * a.w)

/-- `for(v : a)`, as `iterate`; policy.h:44 -/
def PArr.all (flash : List Nat) (a : PArr) : Option (List Nat) :=
  iterate flash a.w (a.n + 1) a.data (a.data + a.n * a.w)

/-- the elements of `w` bytes each that bytes in RAM are -/
def elements (w : Nat) : Nat → List Nat → List Nat
  | 0, _ => []
  | n + 1, l => fromBytes (l.take w) :: elements w n (l.drop w)

/-- `a.copy(dest, count, pos)`, array.h:34-47 -/
def PArr.copyTo (flash : List Nat) (a : PArr) (count pos : Nat) : Option (List Nat) :=
  (memcpyP flash (a.data + pos * a.w) (min count a.n * a.w)).map (elements a.w (min count a.n))

/-- `test_container<T, N>::operator[]`, array.h:83-87: the index is multiplied by the size of an element, and then again
by the pointer arithmetic on `buffer`, which is an array of `T` -/
def PArr.testGet (flash : List Nat) (a : PArr) (i : Nat) : Option Nat := pgmRead flash a.w (a.data + i * a.w * a.w)

end Verif.Pgm
