import Verif.Moving.Machine
/-!
# Vectors and strings in memory that moves while it is not locked

`internal/dynamic_array.h`, `internal/runtime_array.h`, `internal/string.h`, `internal/container/specializer.h` over an
allocator whose locking preference is `standard` (traits/allocator_traits.h:204-205, specializer.h:66-258) and which does
not know the size of its blocks, so that the descriptor remembers the capacity (allocators/handle_desc.h:50-54) and the
array its length (impl/dynamic_array.h:100-155).

Simplifications: sizes are natural numbers; requests for memory are granted (refusals: C72); elements are trivially
copyable and, where `memmove` is used without scaling (dynamic_array.h:503), one byte wide; `memcpy`, `memmove` and
`copy_n` copy element by element; locking the invalid handle is undefined.  Null-terminated arrays over such allocators
write through the invalid handle when constructed (C72, `terminated_construction_ub`) and are left out.
-/
namespace Verif.Moving

variable {α β : Type} [DecidableEq α]

/-- The array object: the handle (`none`: `invalid()`), the capacity the descriptor remembers and the length. -/
structure Vec where
  handle : Option Nat
  cap : Nat
  used : Nat
  deriving DecidableEq, Repr

/-- the default constructor, allocators/handle_desc.h:56-58, impl/dynamic_array.h:117-118 -/
def Vec.fresh : Vec := ⟨none, 0, 0⟩

/-- `size()`, impl/dynamic_array.h:296-302, 138-141 -/
def Vec.size (v : Vec) : Nat := if v.handle = none then 0 else v.used

/-- `lock()` and `clock()`, runtime_array.h:83-91, impl/handle_desc.h:143-151 -/
def Vec.lock (v : Vec) (k : Nat → Prog α β) : Prog α β :=
  match v.handle with
  | none => .undef
  | some h => .lock h k

/-- `unlock()` and `cunlock()`, runtime_array.h:93-101, impl/handle_desc.h:153-161 -/
def Vec.unlock (v : Vec) (k : Prog α β) : Prog α β :=
  match v.handle with
  | none => .undef
  | some h => .unlock h k

/-- `reserve(n)`, dynamic_array.h:396-402, allocators/handle_desc.h:75-85 -/
def reserve (v : Vec) (n : Nat) (k : Vec → Prog α β) : Prog α β :=
  match v.handle with
  | none => .alloc n fun h => k { v with handle := some h, cap := n }
  | some h => .realloc h n fun h' => k { v with handle := some h', cap := n }

/-- `ensure_total_capacity(n, pad)`, dynamic_array.h:132-141 -/
def ensureCapacity (v : Vec) (n pad : Nat) (k : Vec → Prog α β) : Prog α β :=
  if n > v.cap then reserve v (n + pad) k else k v

/-- `ensure_total_size(n)`, dynamic_array.h:144-154 -/
def ensureSize (v : Vec) (n : Nat) (k : Vec → Prog α β) : Prog α β :=
  ensureCapacity v n 0 fun v => k { v with used := n }

/-- `grow(n)`, dynamic_array.h:422-439, 157-179, with the slack of 163 for elements of `esz` bytes: the array, and the size
before -/
def grow (esz : Nat) (v : Vec) (n : Nat) (k : Vec → Nat → Prog α β) : Prog α β :=
  ensureCapacity v (v.size + n) ((32 + esz) / esz) fun v' => k { v' with used := v.size + n } v.size

/-- `copy_n(src, n, p + i)` from the program's own data, specializer.h:92-99, impl/handle_desc.h:32-39 -/
def writeAll (p : Nat) : Nat → List α → Prog α β → Prog α β
  | _, [], k => k
  | i, x :: xs, k => .write p i x (writeAll p (i + 1) xs k)

/-- reading `n` elements from `p + i` into the program's own data -/
def readAll (p : Nat) : Nat → Nat → (List α → Prog α β) → Prog α β
  | _, 0, k => k []
  | i, n + 1, k => .read p i fun x => readAll p (i + 1) n fun xs => k (x :: xs)

/-- copying `n` elements from `q + j` to `p + i`, first to last: `memcpy`, `copy`, and `memmove` to lower addresses -/
def copyUp (p i q j : Nat) : Nat → Prog α β → Prog α β
  | 0, k => k
  | n + 1, k => .read q j fun x => .write p i x (copyUp p (i + 1) q (j + 1) n k)

/-- copying `n` elements from `p + j` to `p + i`, last to first: `copy_backward`, algorithm.h:123-134 -/
def copyDown (p i j : Nat) : Nat → Prog α β → Prog α β
  | 0, k => k
  | n + 1, k => .read p (j + n) fun x => .write p (i + n) x (copyDown p i j n k)

/-- `copy_to(a, dest, count, pos)`, specializer.h:178-197, to memory behind a pointer; `pos` behind the end wraps: undefined -/
def copyTo (w : Vec) (p i count pos : Nat) (k : Prog α β) : Prog α β :=
  w.lock fun q =>
    if w.size < pos then .undef
    else copyUp p i q pos (if pos + count > w.size then w.size - pos else count) (w.unlock k)

/-- `copy(dest, count, pos)` to the program's own data, runtime_array.h:367-371, specializer.h:178-197 -/
def copyOut (w : Vec) (count pos : Nat) (k : List α → Prog α β) : Prog α β :=
  w.lock fun q =>
    if w.size < pos then .undef
    else readAll q pos (if pos + count > w.size then w.size - pos else count) fun xs => w.unlock (k xs)

/-- `append(buf, len)`, dynamic_array.h:457-485, specializer.h:92-99 -/
def appendPtr (esz : Nat) (v : Vec) (src : List α) (k : Vec → Prog α β) : Prog α β :=
  grow esz v src.length fun v' cur => v'.lock fun p => writeAll p cur src (v'.unlock (k v'))

/-- `push_back(value&&)`, dynamic_array.h:611-629, and `emplace_back`, 660-680 -/
def pushMove (esz : Nat) (v : Vec) (x : α) (k : Vec → Prog α β) : Prog α β :=
  grow esz v 1 fun v' cur => v'.lock fun p => .write p cur x (v'.unlock (k v'))

/-- `vs[i].append(vs[j])`, specializer.h:125-141; the operand is looked at again after the array has grown -/
def append (esz : Nat) (vs : List Vec) (i j : Nat) (k : List Vec → Prog α β) : Prog α β :=
  match vs[i]?, vs[j]? with
  | some v, some w =>
    grow esz v w.size fun v' cur => v'.lock fun p =>
      match (vs.set i v')[j]? with
      | some w' => copyTo w' p cur w.size 0 (v'.unlock (k (vs.set i v')))
      | none => .undef
  | _, _ => .undef

/-- `assign(buf, len)`, dynamic_array.h:186-191, impl/handle_desc.h:32-39 -/
def assignPtr (v : Vec) (src : List α) (k : Vec → Prog α β) : Prog α β :=
  ensureSize v src.length fun v' => v'.lock fun p => writeAll p 0 src (v'.unlock (k v'))

/-- `vs[i] = vs[j]`, internal/string.h:305-312, dynamic_array.h:632-639, specializer.h:102-110 -/
def assign (vs : List Vec) (i j : Nat) (k : List Vec → Prog α β) : Prog α β :=
  match vs[i]?, vs[j]? with
  | some v, some w =>
    ensureSize v w.size fun v' => v'.lock fun p =>
      match (vs.set i v')[j]? with
      | some w' => copyTo w' p 0 w.size 0 (v'.unlock (k (vs.set i v')))
      | none => .undef
  | _, _ => .undef

/-- `insert(index, s, count)`, internal/string.h:262-269, `raw_insert`, dynamic_array.h:303-322, from the program's own data -/
def insertPtr (v : Vec) (pos : Nat) (src : List α) (k : Vec → Prog α β) : Prog α β :=
  ensureSize v (v.size + src.length) fun v' => v'.lock fun p =>
    if v.size < pos then .undef
    else copyDown p (pos + src.length) pos (v.size - pos) (writeAll p pos src (v'.unlock (k v')))

/-- `vs[i].insert(pos, vs[j])`, internal/string.h:276-288, `raw_insert`, dynamic_array.h:303-322 -/
def insert (vs : List Vec) (i pos j : Nat) (k : List Vec → Prog α β) : Prog α β :=
  match vs[i]?, vs[j]? with
  | some v, some w =>
    w.lock fun q => ensureSize v (v.size + w.size) fun v' => v'.lock fun p =>
      if v.size < pos then .undef
      else
        match (vs.set i v')[j]? with
        | some w' =>
          copyDown p (pos + w.size) pos (v.size - pos) (copyUp p pos q 0 w.size (v'.unlock (w'.unlock (k (vs.set i v')))))
        | none => .undef
  | _, _ => .undef

/-- `erase(index, count)`, internal/string.h:290-303, `_erase`, dynamic_array.h:489-506 -/
def erase (v : Vec) (index count : Nat) (k : Vec → Prog α β) : Prog α β :=
  if v.size < index then .undef
  else
    v.lock fun p =>
      copyUp p index p (index + min count (v.size - index)) (v.size - (index + min count (v.size - index)))
        ({ v with used := v.size - min count (v.size - index) }.unlock (k { v with used := v.size - min count (v.size - index) }))

/-- `pop_back()`, dynamic_array.h:586-603, impl/handle_desc.h:240-245; on an empty array the length wraps: undefined -/
def popBack (v : Vec) (k : Vec → Prog α β) : Prog α β :=
  if v.size = 0 then .undef
  else v.lock fun _ => v.unlock (k { v with used := v.size - 1 })

/-- `traits_type::compare`, traits/char_traits.h:71-80, with `lt` the order of the elements -/
def cmpLoop (lt : α → α → Bool) (p q : Nat) : Nat → Nat → (Int → Prog α β) → Prog α β
  | _, 0, k => k 0
  | i, n + 1, k => .read p i fun x => .read q i fun y =>
      if lt x y then k (-1) else if lt y x then k 1 else cmpLoop lt p q (i + 1) n k

/-- `compare(a)`, internal/string.h:102-112, 60-70, specializer.h:220-230: the operand is locked first -/
def compare (lt : α → α → Bool) (v w : Vec) (k : Int → Prog α β) : Prog α β :=
  w.lock fun q =>
    if v.size < w.size then w.unlock (k (-1))
    else if v.size > w.size then w.unlock (k 1)
    else v.lock fun p => cmpLoop lt p q 0 w.size fun r => v.unlock (w.unlock (k r))

/-- `estd::equal`, algorithm.h:54-63, of `n` elements from `p + i` and `q + j`; the loops of `starts_with_n`
(internal/container/starts_with.h:15-19) and `ends_with_n` (internal/container/ends_with.h:24-25) are the same -/
def eqLoop (p i q j : Nat) : Nat → (Bool → Prog α β) → Prog α β
  | 0, k => k true
  | n + 1, k => .read p i fun x => .read q j fun y => if x ≠ y then k false else eqLoop p (i + 1) q (j + 1) n k

/-- `operator==`, runtime_array.h:498-507, specializer.h:201-216 -/
def equal (v w : Vec) (k : Bool → Prog α β) : Prog α β :=
  if v.size ≠ w.size then k false
  else v.lock fun p => w.lock fun q => eqLoop p 0 q 0 v.size fun r => v.unlock (w.unlock (k r))

/-- `starts_with`, specializer.h:143-157, internal/container/starts_with.h:11-23: an array does not start with one that is
as long as itself (C13) -/
def startsWith (v w : Vec) (k : Bool → Prog α β) : Prog α β :=
  v.lock fun p => w.lock fun q =>
    eqLoop p 0 q 0 (min v.size w.size) fun r => v.unlock (w.unlock (k (r && decide (w.size < v.size))))

/-- `ends_with`, specializer.h:160-174, internal/container/ends_with.h:14-28 -/
def endsWith (v w : Vec) (k : Bool → Prog α β) : Prog α β :=
  v.lock fun p => w.lock fun q =>
    if w.size > v.size then v.unlock (w.unlock (k false))
    else eqLoop p (v.size - w.size) q 0 w.size fun r => v.unlock (w.unlock (k r))

/-- the loop of `find(ch, pos)`, internal/string.h:144-157: both ways out unlock -/
def findLoop (v : Vec) (x : α) (p : Nat) : Nat → Nat → (Option Nat → Prog α β) → Prog α β
  | _, 0, k => v.unlock (k none)
  | pos, n + 1, k => .read p pos fun y => if y = x then v.unlock (k (some pos)) else findLoop v x p (pos + 1) n k

/-- `find(ch, pos)`, internal/string.h:135-158 -/
def findCh (v : Vec) (x : α) (pos : Nat) (k : Option Nat → Prog α β) : Prog α β :=
  v.lock fun p => findLoop v x p pos (v.size - pos) k

/-- `estd::find_first_of`, algorithm.h:262-280 -/
def firstOfLoop (s : List α) (p : Nat) : Nat → Nat → (Option Nat → Prog α β) → Prog α β
  | _, 0, k => k none
  | pos, n + 1, k => .read p pos fun y => if s.contains y then k (some pos) else firstOfLoop s p (pos + 1) n k

/-- `find_first_of(s, pos, count)`, runtime_array.h:469-480; a `pos` behind the end runs past the block: undefined -/
def findFirstOf (v : Vec) (s : List α) (pos : Nat) (k : Option Nat → Prog α β) : Prog α β :=
  v.lock fun p => if v.size < pos then .undef else firstOfLoop s p pos (v.size - pos) fun r => v.unlock (k r)

/-- `os << str`, internal/string/operators.h:30-42 -/
def print (v : Vec) (k : List α → Prog α β) : Prog α β :=
  v.lock fun p => readAll p 0 v.size fun xs => v.unlock (k xs)

/-- `data()`, internal/string.h:74-82: locks, and nothing unlocks -/
def data (v : Vec) (k : Nat → Prog α β) : Prog α β := v.lock k

/-- statements of a program over some arrays, given by their indices -/
inductive Op (α : Type) where
  | pushBack (i : Nat) (x : α)
  | emplaceBack (i : Nat) (x : α)
  | appendPtr (i : Nat) (src : List α)
  | append (i j : Nat)
  | assignPtr (i : Nat) (src : List α)
  | assign (i j : Nat)
  | insertPtr (i pos : Nat) (src : List α)
  | insert (i pos j : Nat)
  | erase (i index count : Nat)
  | popBack (i : Nat)
  /-- `resize(n)`, dynamic_array.h:383-386, and `clear()`, 388-391 -/
  | resize (i n : Nat)
  /-- dynamic_array.h:396-402 -/
  | reserve (i n : Nat)
  | compare (i j : Nat)
  | equal (i j : Nat)
  | startsWith (i j : Nat)
  | endsWith (i j : Nat)
  | findCh (i : Nat) (x : α) (pos : Nat)
  | findFirstOf (i : Nat) (s : List α) (pos : Nat)
  | copyOut (i count pos : Nat)
  | print (i : Nat)
  deriving DecidableEq, Repr

/-- what a statement yields -/
inductive Out (α : Type) where
  | none
  | int (r : Int)
  | bool (b : Bool)
  | pos (r : Option Nat)
  | text (xs : List α)
  deriving DecidableEq, Repr

/-- what to do with one array of several -/
def on (vs : List Vec) (i : Nat) (f : Vec → Prog α β) : Prog α β :=
  match vs[i]? with
  | none => .undef
  | some v => f v

/-- a statement as a program -/
def Op.prog (lt : α → α → Bool) (esz : Nat) (vs : List Vec) (k : List Vec → Out α → Prog α β) : Op α → Prog α β
  | .pushBack i x => on vs i fun v => Moving.appendPtr esz v [x] fun v' => k (vs.set i v') .none
  | .emplaceBack i x => on vs i fun v => pushMove esz v x fun v' => k (vs.set i v') .none
  | .appendPtr i src => on vs i fun v => Moving.appendPtr esz v src fun v' => k (vs.set i v') .none
  | .append i j => Moving.append esz vs i j fun vs => k vs .none
  | .assignPtr i src => on vs i fun v => Moving.assignPtr v src fun v' => k (vs.set i v') .none
  | .assign i j => Moving.assign vs i j fun vs => k vs .none
  | .insertPtr i pos src => on vs i fun v => Moving.insertPtr v pos src fun v' => k (vs.set i v') .none
  | .insert i pos j => Moving.insert vs i pos j fun vs => k vs .none
  | .erase i index count => on vs i fun v => Moving.erase v index count fun v' => k (vs.set i v') .none
  | .popBack i => on vs i fun v => Moving.popBack v fun v' => k (vs.set i v') .none
  | .resize i n => on vs i fun v => ensureSize v n fun v' => k (vs.set i v') .none
  | .reserve i n => on vs i fun v => Moving.reserve v n fun v' => k (vs.set i v') .none
  | .compare i j => on vs i fun v => on vs j fun w => Moving.compare lt v w fun r => k vs (.int r)
  | .equal i j => on vs i fun v => on vs j fun w => Moving.equal v w fun r => k vs (.bool r)
  | .startsWith i j => on vs i fun v => on vs j fun w => Moving.startsWith v w fun r => k vs (.bool r)
  | .endsWith i j => on vs i fun v => on vs j fun w => Moving.endsWith v w fun r => k vs (.bool r)
  | .findCh i x pos => on vs i fun v => Moving.findCh v x pos fun r => k vs (.pos r)
  | .findFirstOf i s pos => on vs i fun v => Moving.findFirstOf v s pos fun r => k vs (.pos r)
  | .copyOut i count pos => on vs i fun v => Moving.copyOut v count pos fun xs => k vs (.text xs)
  | .print i => on vs i fun v => Moving.print v fun xs => k vs (.text xs)

/-- a history: the arrays at its end and what the statements yielded -/
def history (lt : α → α → Bool) (esz : Nat) : List (Op α) → List Vec → List (Out α) → Prog α (List Vec × List (Out α))
  | [], vs, outs => .ret (vs, outs)
  | o :: os, vs, outs => o.prog lt esz vs fun vs' r => history lt esz os vs' (outs ++ [r])

end Verif.Moving
