import Verif.Common.Mem

/-!
# Model of the FNV hashes

Modelled from `src/estd/internal/functional/hash.h` and `src/estd/internal/string/hash.h`.  Iterators are positions in
a memory of octets (`cast8`, hash.h:48-54, admits only 8-bit elements).
-/
namespace Verif.Hash

/-- `FNV1_64_INIT`, hash.h:34-35 -/
def init64 : BitVec 64 := 0xcbf29ce484222325#64
/-- `FNV1A_32_PRIME`, hash.h:37 -/
def prime32 : BitVec 32 := 16777619#32
/-- `FNV1A_32_OFFSET_BASIS`, hash.h:38 -/
def init32 : BitVec 32 := 2166136261#32

/-- `shift_sum`, hash.h:40-44 -/
def shiftSum (h : BitVec 64) : BitVec 64 :=
  (h <<< 1) + (h <<< 4) + (h <<< 5) + (h <<< 7) + (h <<< 8) + (h <<< 40)

/-- loop body of `fnv_hash<uint32_t, FNV_1>::hash`, hash.h:81-82 -/
def body32_1 (h : BitVec 32) (c : BitVec 8) : BitVec 32 :=
  let h := h * prime32
  h ^^^ c.setWidth 32

/-- loop body of `fnv_hash<uint32_t, FNV_1A>::hash`, hash.h:101-102 -/
def body32_1a (h : BitVec 32) (c : BitVec 8) : BitVec 32 :=
  let h := h ^^^ c.setWidth 32
  h * prime32

/-- loop body of `fnv_hash<uint64_t, FNV_1>::hash`, hash.h:120-121 -/
def body64_1 (h : BitVec 64) (c : BitVec 8) : BitVec 64 :=
  let h := h + shiftSum h
  h ^^^ c.setWidth 64

/-- loop body of `fnv_hash<uint64_t, FNV_1A>::hash`, hash.h:138-139 -/
def body64_1a (h : BitVec 64) (c : BitVec 8) : BitVec 64 :=
  let h := h ^^^ c.setWidth 64
  h + shiftSum h

/-- The loop common to the four specialisations (76-84, 96-104, 115-123, 133-141):
`for(current = begin; current != end; ++current)`.  `n` is the distance left to `end`; reading outside the memory is
undefined. -/
def loop (body : BitVec w → BitVec 8 → BitVec w) (m : List (BitVec 8)) (cur : Nat) :
    Nat → BitVec w → Option (BitVec w)
  | 0, h => some h
  | n + 1, h =>
    match rd m cur with
    | none => none
    | some c => loop body m (cur + 1) n (body h c)

/-- `fnv_hash<…>::hash(begin, end, hashval)`; running backwards never meets `end` -/
def hash (body : BitVec w → BitVec 8 → BitVec w) (m : List (BitVec 8)) (first last : Nat) (hashval : BitVec w) :
    Option (BitVec w) :=
  if first ≤ last then loop body m first (last - first) hashval else none

/-- `container_hash<uint32_t>` / `string_hash`, hash.h:185-195, string/hash.h:12-19, for a container whose elements lie
at `data … data + size` -/
def containerHash (m : List (BitVec 8)) (data size : Nat) : Option (BitVec 32) :=
  hash body32_1a m data (data + size) init32

end Verif.Hash
