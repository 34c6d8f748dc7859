import Verif.Algorithm.Model
/-!
# Model of read-only string operations

`src/estd/internal/runtime_array.h`, `src/estd/internal/string.h`, `src/estd/internal/container/starts_with.h`,
`src/estd/internal/container/ends_with.h`, `src/estd/internal/container/specializer.h`,
`src/estd/traits/char_traits.h`, `src/estd/string_view.h`, `src/estd/span.h`.

A string is the memory starting at its first character together with `size()`; the memory may be longer than
the string (unused capacity, a terminator, or the rest of the object a view looks into).  Characters are `Int`
(the value of a `char`).  `lock`/`unlock` of the non-locking allocators return the buffer address and have no
other effect, so they are not represented.  Sizes are assumed representable (`int` for the loop counters,
runtime_array.h passes `size()` through `int` parameters).  `npos` is the outcome `none` of an inner `Option`;
the outer `Option` is undefined behaviour.
-/
namespace Verif.Strings
open Verif

/-- `allocated_array` seen through `clock()` and `size()` (runtime_array.h:88-91, 252). -/
structure Str where
  mem : List Int
  size : Nat
deriving Repr, DecidableEq

/-- The characters a user sees: `s[0] .. s[size()-1]`. -/
def Str.text (s : Str) : List Int := s.mem.take s.size

/-- The string lies inside its memory. -/
def Str.Ok (s : Str) : Prop := s.size ≤ s.mem.length

instance (s : Str) : Decidable s.Ok := inferInstanceAs (Decidable (_ ≤ _))

/-- `memcmp(s, p, count) == 0`: both objects must have `count` readable bytes. -/
def memEq (a : List Int) (i : Nat) (b : List Int) (j count : Nat) : Option Bool :=
  if i + count ≤ a.length ∧ j + count ≤ b.length then
    some (decide ((a.drop i).take count = (b.drop j).take count))
  else none

/-- Loop of `find` (runtime_array.h:406-413); `i` and `data` are offsets from the string's start.
Incrementing past the memory is undefined. -/
def findLoop (s : Str) (needle : List Int) (count data i : Nat) : Option (Option Nat) :=
  if i = s.size then some none
  else
    match memEq needle 0 s.mem i count with
    | none => none
    | some true => some (some (i - data))
    | some false => if i < s.mem.length then findLoop s needle count data (i + 1) else none
termination_by s.mem.length - i

/-- `find(s, pos, count, npos)`, runtime_array.h:398-418: note `data += pos` before the loop and
`return i - data` inside it. -/
def find (s : Str) (needle : List Int) (pos count : Nat) : Option (Option Nat) :=
  findLoop s needle count pos pos

/-- Loop of `rfind` (runtime_array.h:455-462), `n` is `data - rend`. -/
def rfindLoop (s : Str) (needle : List Int) (count : Nat) : (n : Nat) → Option (Option Nat)
  | 0 => some none
  | pos + 1 =>
    match memEq needle 0 s.mem pos count with
    | none => none
    | some true => some (some pos)
    | some false => rfindLoop s needle count pos

/-- `if(pos >= sz) pos = sz - 1`, runtime_array.h:431, for `sz > 0`; `none` is `npos`. -/
def clampPos (sz : Nat) : Option Nat → Nat
  | none => sz - 1
  | some p => if p ≥ sz then sz - 1 else p

/-- `rfind(s, pos, count, npos)`, runtime_array.h:427-467; `pos = none` is `npos`.  For an empty string
`sz - 1` wraps and `data += pos` leaves the object: undefined.  The sentinel `rend = data - 1` is only
compared against, and is modelled by the loop counter reaching zero. -/
def rfind (s : Str) (needle : List Int) (pos : Option Nat) (count : Nat) : Option (Option Nat) :=
  if s.size = 0 then none
  else
    let pos := clampPos s.size pos
    let remainder := s.size - pos
    if remainder < count then
      if pos < count - remainder then some none
      else rfindLoop s needle count (pos - (count - remainder) + 1)
    else rfindLoop s needle count (pos + 1)

/-- `find(ch, pos)`, string.h:135-158. -/
def findChar (s : Str) (ch : Int) (pos : Nat) : Option (Option Nat) :=
  if pos < s.size then
    match rd s.mem pos with
    | none => none
    | some c => if c = ch then some (some pos) else findChar s ch (pos + 1)
  else some none
termination_by s.size - pos

/-- The default predicate of `find_first_of`/`find_last_of`, `equals_pred` (algorithm.h:249-254, 274-279). -/
def eqP (a b : Int) : Bool := decide (a = b)

/-- `find_first_of(s, pos, count, npos)`, runtime_array.h:469-480. -/
def findFirstOf (s : Str) (set : List Int) (pos count : Nat) : Option (Option Nat) :=
  match Algorithm.findFirstOf s.mem set eqP pos s.size 0 count with
  | none => none
  | some r => some (if r = s.size then none else some r)

/-- `internal::find_last_of` (algorithm.h:238-247) called with `first = data - 1` (runtime_array.h:488-491);
`n` is `last - rend`. -/
def lastOfLoop (s : Str) (set : List Int) (count : Nat) : (n : Nat) → Option (Option Nat)
  | 0 => some none
  | p + 1 =>
    match Algorithm.anyMatch s.mem set eqP p 0 count with
    | none => none
    | some true => some (some p)
    | some false => lastOfLoop s set count p

/-- `find_last_of(s, pos, count, npos)`, runtime_array.h:482-496.  Only `npos` is clamped; for an empty string
the clamp wraps to the sentinel, so the loop does not run. -/
def findLastOf (s : Str) (set : List Int) (pos : Option Nat) (count : Nat) : Option (Option Nat) :=
  match pos with
  | none => lastOfLoop s set count s.size
  | some p => lastOfLoop s set count (p + 1)

/-- `char_traits<char>::length`, char_traits.h:58-65. -/
def cLength (m : List Int) (i : Nat) : Option Nat :=
  match h : rd m i with
  | none => none
  | some c => if c ≠ 0 then (cLength m (i + 1)).map (· + 1) else some 0
termination_by m.length - i
decreasing_by
  have : i < m.length := by
    unfold rd at h; exact (List.getElem?_eq_some_iff.mp h).1
  omega

/-- `char_traits<char>::compare`, char_traits.h:71-80. -/
def traitsCompare (a b : List Int) (i : Nat) : (count : Nat) → Option Int
  | 0 => some 0
  | c + 1 =>
    match rd a i, rd b i with
    | some x, some y => if x < y then some (-1) else if x > y then some 1 else traitsCompare a b (i + 1) c
    | _, _ => none

/-- `compare(s, s_size)`, string.h:60-70 with `helper::compare`, specializer.h:220-230. -/
def compare (s t : Str) : Option Int :=
  if s.size < t.size then some (-1)
  else if s.size > t.size then some 1
  else traitsCompare s.mem t.mem 0 t.size

/-- `compare(const char*)`, string.h:115-118. -/
def compareC (s : Str) (c : List Int) : Option Int :=
  match cLength c 0 with
  | none => none
  | some n => compare s ⟨c, n⟩

/-- `operator==`, runtime_array.h:498-507 with `helper::equal`, specializer.h:199-216. -/
def eqStr (s t : Str) : Option Bool :=
  if s.size ≠ t.size then some false
  else Algorithm.equal eqP s.mem t.mem 0 s.size 0

/-- `starts_with_n(lhs, rhs, count_lhs, count_rhs)`, starts_with.h:10-23.  The counters are `int`;
`while(count_lhs-- && count_rhs--)` leaves `count_lhs` at -1 when the left side is exhausted. -/
def startsWithN (a b : List Int) (i : Nat) (cl cr : Int) : Nat → Option Bool
  | 0 => none
  | fuel + 1 =>
    let t1 := cl ≠ 0
    let cl := cl - 1
    let t2 := t1 ∧ cr ≠ 0
    let cr := if t1 then cr - 1 else cr
    if t2 then
      match rd a i, rd b i with
      | some x, some y => if x ≠ y then some false else startsWithN a b (i + 1) cl cr fuel
      | _, _ => none
    else some (decide (cl ≠ -1))

/-- `starts_with(string)`, runtime_array.h:148-152 and specializer.h:143-157.  The fuel bounds the number of loop
tests; each iteration decrements `count_lhs`, so `size() + 1` tests are never exceeded. -/
def startsWith (s t : Str) : Option Bool := startsWithN s.mem t.mem 0 s.size t.size (s.size + 1)

/-- `starts_with_n(lhs, rhs, count)` with `rhs` null-terminated, starts_with.h:27-40. -/
def startsWithC (a c : List Int) (i : Nat) (count : Int) : Nat → Option Bool
  | 0 => none
  | fuel + 1 =>
    match rd c i with
    | none => none
    | some y =>
      let t1 := y ≠ 0
      let t2 := t1 ∧ count ≠ 0
      let count := if t1 then count - 1 else count
      if t2 then
        match rd a i with
        | none => none
        | some x => if x ≠ y then some false else startsWithC a c (i + 1) count fuel
      else some (decide (count ≠ -1))

/-- `starts_with(const char*)`, string.h:123-127 and specializer.h:232-243. -/
def startsWithCStr (s : Str) (c : List Int) : Option Bool := startsWithC s.mem c 0 s.size (s.size + 1)

/-- `starts_with(lhs, rhs)`, both null-terminated, starts_with.h:44-61. -/
def startsWithCC (a c : List Int) (i : Nat) : Option Bool :=
  match h : rd c i with
  | none => none
  | some y =>
    if y = 0 then some true
    else
      match rd a i with
      | none => none
      | some x => if x ≠ y then some false else startsWithCC a c (i + 1)
termination_by c.length - i
decreasing_by
  have : i < c.length := by
    unfold rd at h; exact (List.getElem?_eq_some_iff.mp h).1
  omega

/-- The loop of `ends_with_n`, ends_with.h:24-25. -/
def endsLoop (a b : List Int) (i j e : Nat) : Option Bool :=
  if h : i < e then
    match rd a i, rd b j with
    | some x, some y => if x ≠ y then some false else endsLoop a b (i + 1) (j + 1) e
    | _, _ => none
  else some true
termination_by e - i

/-- `ends_with_n`, ends_with.h:13-28, and `ends_with`, specializer.h:160-174. -/
def endsWith (s t : Str) : Option Bool :=
  if t.size > s.size then some false
  else endsLoop s.mem t.mem (s.size - t.size) 0 s.size

/-- `ends_with(const char*)`, specializer.h:246-257. -/
def endsWithCStr (s : Str) (c : List Int) : Option Bool :=
  match cLength c 0 with
  | none => none
  | some n => endsWith s ⟨c, n⟩

/-- `starts_with(ch)`, runtime_array.h:154-161: reads the first cell whatever `size()` is. -/
def startsWithChar (s : Str) (ch : Int) : Option Bool := (rd s.mem 0).map (fun c => decide (c = ch))

/-- `ends_with(ch)`, runtime_array.h:171-178: `size() - 1` wraps for an empty string. -/
def endsWithChar (s : Str) (ch : Int) : Option Bool :=
  if s.size = 0 then none else (rd s.mem (s.size - 1)).map (fun c => decide (c = ch))

/-- `copy(dest, count, pos)`, runtime_array.h:367-371 and `copy_to`, specializer.h:178-197; the destination is a
separate object.  `a.size() - pos` wraps when `pos > size()`, which `memcpy` then overruns: undefined unless
nothing is clamped. -/
def copyOut (s : Str) (dest : List Int) (count pos : Nat) : Option (List Int × Nat) :=
  if pos + count > s.size ∧ pos > s.size then none
  else
    let count := if pos + count > s.size then s.size - pos else count
    if pos + count ≤ s.mem.length ∧ count ≤ dest.length then
      some ((s.mem.drop pos).take count ++ dest.drop count, count)
    else none

/-! ## Views -/

/-- A `string_view` or dynamic `span`: the object it looks into, and the offset and length of the view.
`W` is `2 ^ bits` of `size_type`, so lengths wrap. -/
structure View where
  off : Nat
  len : Nat
deriving Repr, DecidableEq

/-- Unsigned subtraction of `size_type`. -/
def usub (W a b : Nat) : Nat := (a + (W - b % W)) % W

/-- `remove_prefix`, string_view.h:88-93 with `adjust_offset_exp`, allocators/fixed.h:443-447. -/
def removePrefix (W : Nat) (v : View) (n : Nat) : View := ⟨v.off + n, usub W v.len n⟩

/-- `remove_suffix`, string_view.h:75-85 with `set_size_exp`, allocators/fixed.h:449-452; `max_size()` of this
allocator is the current length. -/
def removeSuffix (W : Nat) (v : View) (n : Nat) : View := ⟨v.off, usub W v.len n⟩

/-- `substr`, string_view.h:104-123; `count = none` is `npos`. -/
def substr (W : Nat) (v : View) (pos : Nat) (count : Option Nat) : View :=
  let c := removePrefix W v pos
  match count with
  | none => c
  | some n => ⟨c.off, n⟩

/-- `span::subspan`, span.h:201-208; `count = none` is `dynamic_extent`. -/
def subspan (v : View) (offset : Nat) (count : Option Nat) : View :=
  match count with
  | none => ⟨v.off + offset, v.len⟩
  | some n => ⟨v.off + offset, n⟩

/-- `span::first(count)`, span.h:49-52. -/
def first (v : View) (count : Nat) : View := ⟨v.off, count⟩

end Verif.Strings
