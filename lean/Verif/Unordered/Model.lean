/-!
# Fixed-size unordered containers (`estd::layer1::unordered_map`, `unordered_set`)

Model of `/repo/src/estd/internal/container/unordered/base.h`, `unordered/traits.h`,
`unordered_map.h` and `unordered_set.h`.

The container is a flat array of slots.  A slot whose key equals the null key `T{}` is empty.
Conventions:

* a pointer into the array is a slot number, `cend()` is the length of the array;
* several loops dereference their pointer *before* comparing it with `cend()`, and one looks at the
  slot in front of the array.  What those reads see is a parameter: `hi` is the slot-sized memory
  right behind the array, `lo` the one in front of it.  `none` means that the read is undefined
  behaviour (the C++ rule), `some x` that the memory is readable and holds `x`;
* an operation returns `none` when it has undefined behaviour (such a read with `none`, a write
  outside the array, a dereferenced null pointer);
* the mapped value is kept as its raw storage: `traits.h` overlays the storage of the mapped value
  with two bit fields (`marked_for_gc`, `bucket`), which are read when the key is null.  `Layout`
  says how the bit fields are read from and written to that storage;
* keys are compared with `==` (the default `KeyEqual`), the hash is an arbitrary function.

Simplified: destructors and constructors of keys and mapped values have no effect of their own
beyond the bytes (a destroyed mapped value leaves its bytes behind); `permit_duplicates` is
`false` here (`Verif.Unordered.Multi` has the other case).
-/

namespace Verif.Unordered

/-- unordered/traits.h:82-104 `control_type = pair<key_type, meta>`: the key and the raw storage
that holds either the mapped value or the bit fields. -/
structure Slot (K V : Type) where
  key : K
  raw : V
deriving DecidableEq, Repr

/-- unordered/traits.h:83-102, the anonymous bit-field struct of the union `meta`, seen through the
storage of the mapped value: `gc`/`bkt` read `marked_for_gc`/`bucket`, `mark n` stores 1 and `n` in
them (unordered_map.h:361-362), `unmark` stores 0 in `marked_for_gc` (unordered_map.h:321). -/
structure Layout (V : Type) where
  gc : V → Bool
  bkt : V → Nat
  mark : Nat → V → V
  unmark : V → V

/-- What storing to and loading from the bit fields of unordered/traits.h:87-93 guarantees:
`marked_for_gc` is one bit, `bucket` is six bits wide. -/
structure Layout.Lawful {V : Type} (l : Layout V) : Prop where
  gc_mark : ∀ n v, l.gc (l.mark n v) = true
  bkt_mark : ∀ n v, l.bkt (l.mark n v) = n % 64
  gc_unmark : ∀ v, l.gc (l.unmark v) = false

/-- unordered/traits.h:83-102 for a 32-bit mapped type on a little-endian target:
bit 0 is `marked_for_gc`, bits 1 to 6 are `bucket`. -/
def layout32 : Layout (BitVec 32) where
  gc v := v.getLsbD 0
  bkt v := (v.toNat / 2) % 64
  mark n v := BitVec.ofNat 32 (v.toNat / 128 * 128 + n % 64 * 2 + 1)
  unmark v := BitVec.ofNat 32 (v.toNat / 2 * 2)

/-- unordered/traits.h:215-246, `unordered_set_traits`: the slot is just the key and `is_sparse` is
constantly false. -/
def setLayout : Layout Unit where
  gc _ := false
  bkt _ := 0
  mark _ v := v
  unmark v := v

/-- The template arguments and surroundings of a container: the null key `T{}`
(unordered/traits.h:21-32), the hash function, the number of values of `size_t`, the bit-field
layout, and the memory next to the array (see the file comment). -/
structure Env (K V : Type) where
  null : K
  hash : K → Nat
  word : Nat
  lay : Layout V
  lo : Option (Slot K V)
  hi : Option (Slot K V)

/-- The array `container_` (unordered/base.h:61). -/
abbrev Slots (K V : Type) := List (Slot K V)

section
variable {K V : Type} [DecidableEq K]

/-- unordered/traits.h:139-143 and 229-232 `is_empty`. -/
def isEmpty (e : Env K V) (x : Slot K V) : Bool := x.key = e.null

/-- unordered/traits.h:149-153 `is_null_not_sparse`. -/
def isNullNotSparse (e : Env K V) (x : Slot K V) : Bool := isEmpty e x && !e.lay.gc x.raw

/-- unordered/traits.h:159-164 `is_sparse(v, n)` (for sets 234-235, through `setLayout`). -/
def isSparse (e : Env K V) (n : Nat) (x : Slot K V) : Bool :=
  isEmpty e x && e.lay.gc x.raw && e.lay.bkt x.raw == n

/-- unordered/base.h:127 `bucket_depth`, with the default of unordered/features.h:3-5. -/
def bucketDepth : Nat := 4

/-- unordered/base.h:140-144 `index` (= `bucket`, 509-513), for an array of `N` slots. -/
def index (e : Env K V) (N : Nat) (k : K) : Nat := bucketDepth * e.hash k % e.word % N

/-- Result of `insert_precheck` (unordered/base.h:203-206). -/
inductive Pre where
  /-- pointer + true: construct the new element here -/
  | fresh (i : Nat)
  /-- pointer + false: the key is already there -/
  | dup (i : Nat)
  /-- nullptr + false: no insert can occur -/
  | refused
deriving DecidableEq, Repr

/-- unordered/base.h:222-241, the probing loop of `insert_precheck`; the list is the part of the
array from slot `i` on, `n` the bucket of the key.  At the end of the array `is_empty(*it)` is
evaluated first, on the slot behind the array. -/
def probe (e : Env K V) (N n : Nat) (k : K) : Slots K V → Nat → Option Pre
  | [], i =>
    match e.hi with
    | none => none
    | some h => some (if isEmpty e h then .fresh i else .refused)
  | x :: xs, i =>
    if isEmpty e x then some (.fresh i)
    else if index e N x.key ≠ n then some .refused
    else if k = x.key then some (.dup i)
    else probe e N n k xs (i + 1)

/-- unordered/base.h:207-242 `insert_precheck(key, false)` with `ESTD_UNORDERED_MAP_STRICT` 1
(unordered/features.h:8-10). -/
def precheck (e : Env K V) (s : Slots K V) (k : K) : Option Pre :=
  if k = e.null then some .refused
  else
    let n := index e s.length k
    probe e s.length n k (s.drop n) n

/-- What an inserting member returns: `pair<iterator, bool>`; `none` for a null iterator. -/
abbrev InsRes := Option Nat × Bool

/-- unordered_map.h:250-260 `insert` (and 196-205 `emplace`, 228-248 `try_emplace` with arguments,
262-274; unordered_set.h:43-51).  Constructing behind the array is undefined behaviour. -/
def insert (e : Env K V) (s : Slots K V) (k : K) (v : V) : Option (Slots K V × InsRes) :=
  match precheck e s k with
  | none => none
  | some (.fresh i) => if i < s.length then some (s.set i ⟨k, v⟩, (some i, true)) else none
  | some (.dup i) => some (s, (some i, false))
  | some .refused => some (s, (none, false))

/-- unordered/base.h:421-446, the loop of `find_ll`, fused with the local iterator it uses:
`begin(n)` (542-550, `skip_sparse` 107-113), `operator!=` (366-384) and `operator++` (386-395).
The list is the part of the array from slot `i` on.  Stepping onto the end of the array evaluates
`is_sparse(*it_, n_)` there. -/
def findScan (e : Env K V) (N n : Nat) (k : K) : Slots K V → Nat → Option (Option Nat)
  | [], _ =>
    match e.hi with
    | none => none
    | some _ => some none
  | x :: xs, i =>
    if isSparse e n x then findScan e N n k xs (i + 1)
    else if isEmpty e x then some none
    else if index e N x.key ≠ n then some none
    else if k = x.key then some (some i)
    else findScan e N n k xs (i + 1)

/-- unordered/base.h:420-446 `find_ll` (strict mode); the slot number, or `none` for
`{cend, npos}`.  unordered_map.h:405-415 `find` wraps it. -/
def find (e : Env K V) (s : Slots K V) (k : K) : Option (Option Nat) :=
  if k = e.null then some none
  else
    let n := index e s.length k
    findScan e s.length n k (s.drop n) n

/-- unordered/base.h:482-486 `contains`. -/
def contains (e : Env K V) (s : Slots K V) (k : K) : Option Bool :=
  (find e s k).map Option.isSome

/-- The mapped value a caller reads through the iterator `find` returned (unordered_map.h:405-415,
`->second`); `none` inside when `find` returned `end()`. -/
def lookup (e : Env K V) (s : Slots K V) (k : K) : Option (Option V) :=
  (find e s k).map fun r => r.bind fun i => (s[i]?).map (·.raw)

/-- unordered/base.h:170-186 (`bucket_foreach`) and unordered_map.h:297-305: the slots a local
iteration over bucket `n` visits. -/
def bucketScan (e : Env K V) (N n : Nat) : Slots K V → Nat → Option (List Nat)
  | [], _ =>
    match e.hi with
    | none => none
    | some _ => some []
  | x :: xs, i =>
    if isSparse e n x then bucketScan e N n xs (i + 1)
    else if isEmpty e x then some []
    else if index e N x.key ≠ n then some []
    else (bucketScan e N n xs (i + 1)).map (i :: ·)

/-- unordered_map.h:297-305 `bucket_size`. -/
def bucketSize (e : Env K V) (s : Slots K V) (n : Nat) : Option Nat :=
  (bucketScan e s.length n (s.drop n) n).map List.length

/-- unordered/base.h:473-480 `count`. -/
def count (e : Env K V) (s : Slots K V) (k : K) : Option Nat :=
  let n := index e s.length k
  (bucketScan e s.length n (s.drop n) n).map fun l =>
    (l.filter fun i => (s[i]?).any fun x => k = x.key).length

/-- unordered/base.h:496-505 `size`. -/
def size (e : Env K V) (s : Slots K V) : Nat := (s.filter fun x => !isEmpty e x).length

/-- unordered/base.h:488-494 `empty`. -/
def empty (e : Env K V) (s : Slots K V) : Bool := s.all (isEmpty e)

/-- unordered/base.h:93-99 `skip_empty`: evaluates `is_empty(*it)` before comparing with the end. -/
def skipEmpty (e : Env K V) : Slots K V → Nat → Option Nat
  | [], i =>
    match e.hi with
    | none => none
    | some _ => some i
  | x :: xs, i => if isEmpty e x then skipEmpty e xs (i + 1) else some i

/-- The slots visited by `for(it = begin(); it != end(); ++it)`: unordered/base.h:520-535 `begin`,
`end`, 277-284 `operator++`, each of which calls `skip_empty` (93-105). -/
def iterScan (e : Env K V) : Slots K V → Nat → Option (List Nat)
  | [], _ =>
    match e.hi with
    | none => none
    | some _ => some []
  | x :: xs, i =>
    if isEmpty e x then iterScan e xs (i + 1)
    else (iterScan e xs (i + 1)).map (i :: ·)

/-- unordered_map.h:150-156 `prune_sparse_ll(start, pos, n)` with `start` = slot `n`, together with
`gc_sparse_ll` (313-324).  The argument is `pos + 1`, so that 0 stands for the slot in front of the
array; the loop evaluates `is_sparse(*pos, n)` before comparing `pos` with `start - 1`. -/
def prune (e : Env K V) (n : Nat) (s : Slots K V) : Nat → Option (Slots K V)
  | 0 =>
    match e.lo with
    | none => none
    | some x => if isSparse e n x && 0 != n then none else some s
  | p + 1 =>
    match s[p]? with
    | none => none
    | some x =>
      if isSparse e n x && p + 1 != n then
        prune e n (s.set p ⟨x.key, e.lay.unmark x.raw⟩) p
      else some s

/-- unordered/base.h:75-79 and unordered_map.h:87-91 `destruct`: the key becomes null, the mapped
bytes stay. -/
def destruct (e : Env K V) (x : Slot K V) : Slot K V := ⟨e.null, x.raw⟩

/-- unordered_map.h:350 second half of the condition: `next == cend() || is_null_not_sparse(*next)`,
`next` being the given slot number. -/
def nextFree (e : Env K V) (s : Slots K V) (next : Nat) : Bool :=
  match s[next]? with
  | none => true
  | some y => isNullNotSparse e y

/-- unordered_map.h:335-364 `erase_ll({p, n})` with `auto_prune` (its default). -/
def eraseAt (e : Env K V) (s : Slots K V) (p n : Nat) : Option (Slots K V) :=
  match s[p]? with
  | none => none
  | some x =>
    if nextFree e s (p + 1) then
      prune e n (s.set p ⟨e.null, e.lay.unmark (destruct e x).raw⟩) p
    else some (s.set p ⟨e.null, e.lay.mark n (destruct e x).raw⟩)

/-- unordered_map.h:395-403 `erase(key)`: the new array and the number of erased elements. -/
def erase (e : Env K V) (s : Slots K V) (k : K) : Option (Slots K V × Nat) :=
  match find e s k with
  | none => none
  | some none => some (s, 0)
  | some (some p) => (eraseAt e s p (index e s.length k)).map (·, 1)

/-- unordered_map.h:367-383 `erase(iterator)` for an iterator at slot `p`: the new array and the
slot of the returned iterator, `skip_empty(p + 1)`. -/
def eraseIt (e : Env K V) (s : Slots K V) (p : Nat) : Option (Slots K V × Nat) :=
  match s[p]? with
  | none => none
  | some x =>
    match eraseAt e s p (index e s.length x.key) with
    | none => none
    | some s' => (skipEmpty e (s'.drop (p + 1)) (p + 1)).map (s', ·)

/-- unordered_map.h:182-185 `clear`: only nulls the keys, the bit fields are left as they are. -/
def clear (e : Env K V) (s : Slots K V) : Slots K V := s.map (destruct e)

/-- unordered_map.h:276-294 `insert_or_assign`. -/
def insertOrAssign (e : Env K V) (s : Slots K V) (k : K) (v : V) :
    Option (Slots K V × InsRes) :=
  match find e s k with
  | none => none
  | some (some i) =>
    match s[i]? with
    | none => none
    | some x => some (s.set i ⟨x.key, v⟩, (some i, true))
  | some none => insert e s k v

/-- unordered_map.h:187-194 `operator[]` with `try_emplace(key)` (228-248, no further arguments: only
the key is stored).  The result is the slot whose mapped value is returned; a refused `try_emplace`
returns a null iterator, which is then dereferenced. -/
def subscript (e : Env K V) (s : Slots K V) (k : K) : Option (Slots K V × Nat) :=
  match find e s k with
  | none => none
  | some (some i) => some (s, i)
  | some none =>
    match precheck e s k with
    | none => none
    | some (.fresh i) =>
      match s[i]? with
      | none => none
      | some x => some (s.set i ⟨k, x.raw⟩, i)
    | some (.dup i) => some (s, i)
    | some .refused => none

/-- unordered_map.h:114-135, the loop of `gc_active_ll`: the slot to swap with, if any; the list is
the part of the array from slot `it` up to (not including) the active element. -/
def gcTarget (e : Env K V) (n : Nat) : Slots K V → Nat → Option Nat
  | [], _ => none
  | x :: xs, it =>
    if isEmpty e x then
      if e.lay.gc x.raw && e.lay.bkt x.raw != n then none else some it
    else gcTarget e n xs (it + 1)

/-- unordered/traits.h:107-112 and 242-245 `traits::swap` of two slots of the array.  A slot is swapped with itself only
when just erased; integers are then set to zero (C69), which is their null key already. -/
def swapSlots (s : Slots K V) (i j : Nat) : Option (Slots K V) :=
  match s[i]?, s[j]? with
  | some x, some y => some ((s.set i y).set j x)
  | _, _ => none

/-- unordered_map.h:102-138 `gc_active_ll` (307-310 `gc_active`) for an element at slot `p`; the new
array and the new position of the element. -/
def gcActive (e : Env K V) (s : Slots K V) (p : Nat) : Option (Slots K V × Nat) :=
  match s[p]? with
  | none => none
  | some x =>
    let n := index e s.length x.key
    match gcTarget e n ((s.take p).drop n) n with
    | none => some (s, p)
    | some q => (swapSlots s q p).map (·, q)

/-- unordered/base.h:465, the loop of `erase_and_gc_ll`: where it stops.  The key of a null slot is
hashed as well; at the end of the array the slot behind it is read before `pos < cend()`. -/
def lastScan (e : Env K V) (N n : Nat) : Slots K V → Nat → Option Nat
  | [], i =>
    match e.hi with
    | none => none
    | some _ => some i
  | x :: xs, i => if n = index e N x.key then lastScan e N n xs (i + 1) else some i

/-- unordered/base.h:449-470 `erase_and_gc_ll(pos)`; note that the "bucket" is the slot number of
`pos` (463). -/
def eraseGcAt (e : Env K V) (s : Slots K V) (p : Nat) : Option (Slots K V) :=
  match s[p]? with
  | none => none
  | some x =>
    let s1 := s.set p (destruct e x)
    match s[p + 1]? with
    | none =>
      match e.hi with
      | none => none
      | some h =>
        if isEmpty e h then some s1
        else swapSlots s1 p p
    | some y =>
      if isEmpty e y then some s1
      else
        match lastScan e s.length p (s.drop (p + 1)) (p + 1) with
        | none => none
        | some j => swapSlots s1 (j - 1) p

/-- unordered_set.h:53-61 `unordered_set::erase(key)`. -/
def setErase (e : Env K V) (s : Slots K V) (k : K) : Option (Slots K V × Nat) :=
  match find e s k with
  | none => none
  | some none => some (s, 0)
  | some (some p) => (eraseGcAt e s p).map (·, 1)

/-- The keys in the order of iteration (unordered/base.h:579-582). -/
def iterKeys (e : Env K V) (s : Slots K V) : Option (List K) :=
  (iterScan e s 0).map fun l => l.filterMap fun i => (s[i]?).map (·.key)

/-- unordered/base.h:569-585 `operator==`: sizes, then the keys in slot order.  (The two iterators
advance together and, the sizes being equal, end together.) -/
def equal (e : Env K V) (s t : Slots K V) : Option Bool :=
  if size e s ≠ size e t then some false
  else
    match iterKeys e s, iterKeys e t with
    | some a, some b => some (a = b)
    | _, _ => none

/-- unordered/base.h:53-59, the constructor: every key null, the mapped storage is whatever
`container_{}` left in it. -/
def init (e : Env K V) (raws : List V) : Slots K V := raws.map fun r => ⟨e.null, r⟩

end
end Verif.Unordered
