import Verif.Common.Mem
/-!
# Model of `src/estd/algorithm.h` and `src/estd/internal/algorithm/raw.h`

Iterators are indices into one flat memory, so that source and destination may alias.  The loops are
the non-`FEATURE_ESTD_ALGORITHM_OPT` bodies (with that feature the library forwards to `std::`).
Every dereference goes through `rd`/`wr`, so running off the memory is `none`.
-/
namespace Verif.Algorithm
open Verif

variable {α : Type u} {β : Type v}

/-- `find_if`, algorithm.h:157-165. -/
def findIf (m : List α) (p : α → Bool) (first last : Nat) : Option Nat :=
  if first = last then some last
  else
    match h : rd m first with
    | none => none
    | some x => if p x then some first else findIf m p (first + 1) last
termination_by m.length - first
decreasing_by
  have : first < m.length := by
    unfold rd at h; exact (List.getElem?_eq_some_iff.mp h).1
  omega

/-- The inner loop of `find_first_of`/`find_last_of` (algorithm.h:243-245 and 267-269): does any element of
`[it, sLast)` match `*cur`?  `*cur` is read in every iteration, so not at all when the range is empty. -/
def anyMatch (m : List α) (s : List β) (p : α → β → Bool) (cur it sLast : Nat) : Option Bool :=
  if it = sLast then some false
  else
    match rd m cur, h : rd s it with
    | some x, some y => if p x y then some true else anyMatch m s p cur (it + 1) sLast
    | _, _ => none
termination_by s.length - it
decreasing_by
  have : it < s.length := by
    unfold rd at h; exact (List.getElem?_eq_some_iff.mp h).1
  omega

/-- `find_first_of`, algorithm.h:262-271.  Advancing an iterator past the end of the memory is undefined. -/
def findFirstOf (m : List α) (s : List β) (p : α → β → Bool) (first last sFirst sLast : Nat) : Option Nat :=
  if first = last then some last
  else
    match anyMatch m s p first sFirst sLast with
    | none => none
    | some true => some first
    | some false => if first < m.length then findFirstOf m s p (first + 1) last sFirst sLast else none
termination_by m.length - first

/-- `internal::find_last_of`, algorithm.h:238-247: walks down from `last` *inclusive*, never inspects
`first` ("first equivalent to 'rend'", algorithm.h:231).  Decrementing below index 0 is undefined. -/
def findLastOf (m : List α) (s : List β) (p : α → β → Bool) (first last sFirst sLast : Nat) : Option Nat :=
  if last = first then some first
  else
    match anyMatch m s p last sFirst sLast with
    | none => none
    | some true => some last
    | some false =>
      match last with
      | 0 => none
      | l + 1 => findLastOf m s p first l sFirst sLast
termination_by last

/-- `equal`, algorithm.h:54-63 (three-iterator form); `eq` is the element `operator==`. -/
def equal (eq : α → β → Bool) (m : List α) (m2 : List β) (first1 last1 first2 : Nat) : Option Bool :=
  if first1 = last1 then some true
  else
    match h : rd m first1, rd m2 first2 with
    | some x, some y => if !(eq x y) then some false else equal eq m m2 (first1 + 1) last1 (first2 + 1)
    | _, _ => none
termination_by m.length - first1
decreasing_by
  have : first1 < m.length := by
    unfold rd at h; exact (List.getElem?_eq_some_iff.mp h).1
  omega

/-- `mismatch`, algorithm.h:186-192. -/
def mismatch (eq : α → β → Bool) (m : List α) (m2 : List β) (first1 last1 first2 : Nat) : Option (Nat × Nat) :=
  if first1 = last1 then some (first1, first2)
  else
    match h : rd m first1, rd m2 first2 with
    | some x, some y => if eq x y then mismatch eq m m2 (first1 + 1) last1 (first2 + 1) else some (first1, first2)
    | _, _ => none
termination_by m.length - first1
decreasing_by
  have : first1 < m.length := by
    unfold rd at h; exact (List.getElem?_eq_some_iff.mp h).1
  omega

/-- Result of the inner loop of `search`: matched, haystack exhausted, or mismatch. -/
inductive Inner | matched | exhausted | broke
deriving DecidableEq, Repr

/-- The inner `for` of `search`, algorithm.h:291-299. -/
def searchInner (m : List α) (s : List β) (p : α → β → Bool) (it last sIt sLast : Nat) : Option Inner :=
  if sIt = sLast then some .matched
  else if it = last then some .exhausted
  else
    match h : rd m it, rd s sIt with
    | some x, some y => if !(p x y) then some .broke else searchInner m s p (it + 1) last (sIt + 1) sLast
    | _, _ => none
termination_by m.length - it
decreasing_by
  have : it < m.length := by
    unfold rd at h; exact (List.getElem?_eq_some_iff.mp h).1
  omega

/-- `search`, algorithm.h:285-302.  The C++ `while(true)` terminates because either the inner loop returns or
`first` advances; an unterminated run would have to read past the memory, which is `none` here. -/
def search (m : List α) (s : List β) (p : α → β → Bool) (first last sFirst sLast : Nat) : Option Nat :=
  match searchInner m s p first last sFirst sLast with
  | none => none
  | some .matched => some first
  | some .exhausted => some last
  | some .broke => if first < m.length then search m s p (first + 1) last sFirst sLast else none
termination_by m.length - first

/-- Loop of `min_element`, algorithm.h:76-80. -/
def minLoop (comp : α → α → Bool) (m : List α) (first last smallest : Nat) : Option Nat :=
  if first = last then some smallest
  else
    match h : rd m first, rd m smallest with
    | some x, some y => minLoop comp m (first + 1) last (if comp x y then first else smallest)
    | _, _ => none
termination_by m.length - first
decreasing_by
  have : first < m.length := by
    unfold rd at h; exact (List.getElem?_eq_some_iff.mp h).1
  omega

/-- `min_element`, algorithm.h:69-82. -/
def minElement (comp : α → α → Bool) (m : List α) (first last : Nat) : Option Nat :=
  if first = last then some last else minLoop comp m (first + 1) last first

/-- Loop of `max_element`, internal/algorithm/raw.h:51-53. -/
def maxLoop (comp : α → α → Bool) (m : List α) (first last largest : Nat) : Option Nat :=
  if first = last then some largest
  else
    match h : rd m first, rd m largest with
    | some x, some y => maxLoop comp m (first + 1) last (if comp y x then first else largest)
    | _, _ => none
termination_by m.length - first
decreasing_by
  have : first < m.length := by
    unfold rd at h; exact (List.getElem?_eq_some_iff.mp h).1
  omega

/-- `max_element`, internal/algorithm/raw.h:43-56. -/
def maxElement (comp : α → α → Bool) (m : List α) (first last : Nat) : Option Nat :=
  if first = last then some last else maxLoop comp m (first + 1) last first

/-- `min(a,b,comp)`, internal/algorithm/raw.h:15-27. -/
def min2 (comp : α → α → Bool) (a b : α) : α := if comp b a then b else a

/-- `max(a,b)`, internal/algorithm/raw.h:33-36; `gt b a` is `b > a`. -/
def max2 (gt : α → α → Bool) (a b : α) : α := if gt b a then b else a

/-- `clamp`, algorithm.h:168-172.  The `assert(!comp(hi, lo))` is modelled as undefined when it fails. -/
def clamp (comp : α → α → Bool) (v lo hi : α) : Option α :=
  if comp hi lo then none
  else some (if comp v lo then lo else if comp hi v then hi else v)

/-- `fill_n`, algorithm.h:31-35: returns the memory and the advanced iterator. -/
def fillN (m : List α) (first count : Nat) (v : α) : Option (List α × Nat) :=
  match count with
  | 0 => some (m, first)
  | c + 1 =>
    match wr m first v with
    | none => none
    | some m' => fillN m' (first + 1) c v

/-- `fill`, algorithm.h:45-48. -/
def fill (m : List α) (first last : Nat) (v : α) : Option (List α) :=
  if first = last then some m
  else if h : first < m.length then fill (m.set first v) (first + 1) last v
  else none
termination_by m.length - first
decreasing_by simp; omega

/-- `copy`, algorithm.h:98-101. -/
def copy (m : List α) (first last d : Nat) : Option (List α × Nat) :=
  if first = last then some (m, d)
  else if h : first < m.length then
    if d < m.length then copy (m.set d m[first]) (first + 1) last (d + 1) else none
  else none
termination_by m.length - first
decreasing_by simp; omega

/-- `copy_n`, algorithm.h:114-117. -/
def copyN (m : List α) (first count d : Nat) : Option (List α × Nat) :=
  match count with
  | 0 => some (m, d)
  | c + 1 =>
    match rd m first with
    | none => none
    | some x =>
      match wr m d x with
      | none => none
      | some m' => copyN m' (first + 1) c (d + 1)

/-- `copy_backward` (algorithm.h:129-132) and `move_backward` (144-147; a move leaves the source cell in a
valid but unspecified state, which for the trivially copyable cells modelled here is unchanged). -/
def copyBackward (m : List α) (first last d : Nat) : Option (List α × Nat) :=
  if first = last then some (m, d)
  else
    match last, d with
    | l + 1, e + 1 =>
      match rd m l with
      | none => none
      | some x =>
        match wr m e x with
        | none => none
        | some m' => copyBackward m' first l e
    | _, _ => none
termination_by last

/-- `iter_swap`, algorithm.h:198-201 (and the generic `estd::swap`, utility.h:182-191; integers are swapped with
exclusive-or, which differs when both iterators point to one object: `Verif.Utility.swap_self_zeroes`). -/
def iterSwap (m : List α) (a b : Nat) : Option (List α) :=
  match rd m a, rd m b with
  | some x, some y =>
    match wr m a y with
    | none => none
    | some m' => wr m' b x
  | _, _ => none

/-- `reverse`, algorithm.h:207-211: `while((first != last) && (first != --last)) iter_swap(first++, last);` -/
def reverse (m : List α) (first last : Nat) : Option (List α) :=
  if first = last then some m
  else
    match last with
    | 0 => none
    | l + 1 =>
      if first = l then some m
      else
        match iterSwap m first l with
        | none => none
        | some m' => reverse m' (first + 1) l
termination_by last

end Verif.Algorithm
