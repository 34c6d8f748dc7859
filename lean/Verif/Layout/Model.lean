/-!
# Where objects are placed inside the library's own storage

Many classes of estd keep room for an object of a user's type `T` and build the object in that
room with placement `new`, or look at the room through a cast pointer.  Whether that is
defined depends on two numbers per type only: its size and its alignment.  This file has a
small calculus of sizes, alignments and offsets (the rules of C++ for non-virtual classes, as
the Itanium and Microsoft ABIs apply them), and with it the layout of each such class.

Simplifications: empty base classes take no room and no alignment (both ABIs); no class here
has virtual bases; the members of a base class precede those of the class.  Types of the
platform (pointers, `size_t`, `uint16_t`, `unsigned long`, `int`) are parameters.
-/

namespace Verif.Layout

/-- What matters of an object type: `sizeof` and `alignof`. -/
structure Ty where
  size : Nat
  align : Nat
deriving DecidableEq, Repr

/-- A size and alignment that a C++ object type can have: the alignment is a power of two, and
the size is a positive multiple of it. -/
structure Ty.Ok (t : Ty) : Prop where
  pow2 : ∃ k, t.align = 2 ^ k
  mult : t.align ∣ t.size
  pos : 0 < t.size

/-- The platform: object pointers, `size_t`, `uint16_t`, `unsigned long` and `int`. -/
structure Platform where
  ptr : Ty
  sizeT : Ty
  u16 : Ty
  ulong : Ty
  int : Ty

structure Platform.Ok (P : Platform) : Prop where
  ptr : P.ptr.Ok
  sizeT : P.sizeT.Ok
  u16 : P.u16.Ok
  u16_size : P.u16.size = 2
  ulong : P.ulong.Ok
  int : P.int.Ok

/-- The least multiple of `a` that is not less than `n`. -/
def roundUp (n a : Nat) : Nat := (n + a - 1) / a * a

/-- `byte x[n]`. -/
def bytes (n : Nat) : Ty := ⟨n, 1⟩

/-- `T x[n]`: the elements follow each other with no padding. -/
def arr (n : Nat) (t : Ty) : Ty := ⟨n * t.size, t.align⟩

/-- `alignas(a) T x`: `a` only ever makes the alignment stricter. -/
def alignas (a : Nat) (t : Ty) : Ty := ⟨roundUp t.size (max a t.align), max a t.align⟩

/-- Places the members from offset `off` on, each at the next multiple of its alignment;
`al` is the strictest alignment so far.  Offsets, end and alignment. -/
def place (off al : Nat) : List Ty → List Nat × Nat × Nat
  | [] => ([], off, al)
  | t :: ts =>
    let o := roundUp off t.align
    let r := place (o + t.size) (max al t.align) ts
    (o :: r.1, r.2)

/-- A class with these members (members of base classes first). -/
def struct (ts : List Ty) : Ty :=
  let r := place 0 1 ts
  ⟨roundUp r.2.1 r.2.2, r.2.2⟩

/-- The offsets of its members. -/
def offsets (ts : List Ty) : List Nat := (place 0 1 ts).1

/-- The strictest alignment. -/
def maxAlign (ts : List Ty) : Nat := ts.foldl (fun a t => max a t.align) 1

/-- The largest size. -/
def maxSize (ts : List Ty) : Nat := ts.foldl (fun n t => max n t.size) 0

/-- A union with these members, all at offset 0. -/
def union (ts : List Ty) : Ty := ⟨roundUp (maxSize ts) (maxAlign ts), maxAlign ts⟩

def bool : Ty := ⟨1, 1⟩

/-- src/estd/internal/raw/variant.h: `monostate`, an empty class. -/
def monostate : Ty := ⟨1, 1⟩

/-! ## The classes -/

/-- src/estd/internal/raw/type_traits.h:199-216 `aligned_storage<Len, Align>::type`; `cppAlign`
is FEATURE_CPP_ALIGN.  Without it the array has `Align` elements, not `Len`. -/
def alignedStorage (cppAlign : Bool) (len align : Nat) : Ty :=
  if cppAlign then struct [alignas align (bytes len)] else struct [bytes align]

/-- src/estd/internal/functional.h:83-140 `instance_wrapper<T>` (only with FEATURE_CPP_ALIGN):
a `T` at the start of an `aligned_storage<sizeof(T), alignof(T)>`. -/
def instanceWrapper (t : Ty) : Ty := struct [alignedStorage true t.size t.align]

/-- src/estd/internal/value_evaporator.h:256-284 `raw_instance_provider<T, size>` -/
def rawInstance (size : Nat) : Ty := struct [bytes size]

/-- src/estd/internal/array.h:28-74 `impl::uninitialized_array<T, N>`: `N` times
`struct container { byte data[sizeof(T)]; }`. -/
def uninitializedArray (t : Ty) (n : Nat) : Ty := struct [arr n (struct [bytes t.size])]

/-- src/estd/internal/array.h:76-107 `traditional_array<T, N>`, the base of `estd::array`.
`array` (126-178) carries `__attribute__((packed))`, which packs the class's own members; it
has none.  `packsBases` says that the compiler lets it weaken the base class too (clang up to
version 6 does, GCC does not). -/
def estdArray (packsBases : Bool) (t : Ty) (n : Nat) : Ty :=
  if packsBases then bytes (n * t.size) else struct [arr n t]

/-- src/estd/allocators/fixed.h:363-369 the buffer of `layer1::allocator<T, len>`: `T[len]` for
integral `T`, otherwise `uninitialized_array<T, len>`. -/
def layer1Buffer (integral : Bool) (t : Ty) (n : Nat) : Ty :=
  if integral then arr n t else uninitializedArray t n

/-- `layer1::vector<T, len>`: the buffer (src/estd/internal/impl/dynamic_array.h:247-251), then
`m_size` (115), whose type `sz` is picked from `len` (src/estd/internal/deduce_fixed_size.h). -/
def layer1Vector (integral : Bool) (sz t : Ty) (n : Nat) : Ty :=
  struct [layer1Buffer integral t n, sz]

/-- src/estd/internal/variadic.h:55-70 `largest_type`: of two, the first unless the second is
larger. -/
def largestType : Ty → List Ty → Ty
  | t, [] => t
  | t, u :: ts => largestType (if u.size ≤ t.size then t else u) ts

/-- src/estd/internal/variant/storage.h:39-90 `variant_union<trivial, t, ts...>`: bytes, unless
every alternative is trivial (src/estd/internal/fwd/variant.h:37-38). -/
def variantUnion (trivial : Bool) (t : Ty) (ts : List Ty) : Ty :=
  if trivial then union (t :: ts ++ [bytes 0]) else union [bytes (largestType t ts).size]

/-- src/estd/internal/variant/storage.h:264-269 `variant_storage`: an anonymous union of the
above and `monostate dummy`. -/
def variantStorage (trivial : Bool) (t : Ty) (ts : List Ty) : Ty :=
  struct [union [variantUnion trivial t ts, monostate]]

/-- src/estd/internal/variant.h:58-59, 158 `variant`: the storage is a base, then
`size_t index_`. -/
def variant (P : Platform) (trivial : Bool) (t : Ty) (ts : List Ty) : Ty :=
  struct [variantStorage trivial t ts, P.sizeT]

/-- src/estd/internal/optional.h:77-79, 94-107, 190-192 `optional<T>`:
`variant_storage<T, monostate>`, then `bool initialized_`. -/
def optional (trivial : Bool) (t : Ty) : Ty :=
  struct [variantStorage trivial t [monostate], bool]

/-- src/estd/internal/expected.h:94-114 and src/estd/expected.h:59-64 `expected<T, E>`:
`variant_storage<T, E>`, then `bool has_value_`. -/
def expected (trivial : Bool) (t e : Ty) : Ty :=
  struct [variantStorage trivial t [e], bool]

/-- src/estd/memory.h:50-88 `shared_ptr_control_block<T>`: the virtual table pointer of
`deleter_base`, `T* shared`, the counts (`weak` is FEATURE_ESTD_WEAK_PTR) and
`bool is_active`. -/
def sharedControl (P : Platform) (weak : Bool) : Ty :=
  struct (P.ptr :: P.ptr :: P.u16 :: (if weak then [P.u16] else []) ++ [bool])

/-- src/estd/memory.h:340-348 `layer1::shared_ptr_base`: the control block as the only member
of a base (src/estd/internal/value_evaporator.h:212-217), then the raw buffer.  The object is
built at `offsets[1]`. -/
def layer1SharedMembers (P : Platform) (weak : Bool) (size : Nat) : List Ty :=
  [struct [sharedControl P weak], rawInstance size]

/-- src/estd/ext/willemt/bipbuffer/bipbuffer.h:4-18 the members of `bipbuf_t`; `data[]`, of
unknown length, is the last. -/
def bipMembers (P : Platform) : List Ty := [P.ulong, P.int, P.int, P.int, P.int, bytes 0]

/-- src/estd/internal/bip/buffer.h:71-98 `layer1::bipbuf<N>`: bytes that are used as a
`bipbuf_t` followed by `N` bytes. -/
def layer1Bip (P : Platform) (n : Nat) : Ty := struct [bytes ((struct (bipMembers P)).size + n)]

/-- src/estd/internal/memory/v1/pool.h:15-18 `pool_core::control` -/
def poolCore (P : Platform) : Ty := union [P.ptr, bytes 1]

/-- src/estd/internal/memory/v1/pool.h:90-98 `pool_block<block_size>::control` -/
def poolControl (P : Platform) (bs : Nat) : Ty := union [poolCore P, bytes bs]

/-- src/estd/internal/memory/v1/pool.h:30, 127-133 the members of `pool<block_size, blocks>`:
`head_free_` and the blocks. -/
def poolMembers (P : Platform) (bs blocks : Nat) : List Ty := [P.ptr, arr blocks (poolControl P bs)]

/-- src/estd/internal/container/unordered/traits.h:70-102 `meta`: room for the mapped value,
in a union with a 16-bit word, aligned as the stricter of key and mapped value.  When that is
weaker than the word's own alignment the program is ill-formed (`[dcl.align]`; clang says so);
GCC ignores the request, and so do we. -/
def metaTy (P : Platform) (k m : Ty) : Ty :=
  alignas (if m.align > k.align then m.align else k.align)
    (union [bytes m.size, struct [P.u16], P.u16])

/-- src/estd/internal/container/unordered/traits.h:104 the members of `control_type`,
`pair<key_type, meta>`; src/estd/utility.h:25-29 `pair`. -/
def controlMembers (P : Platform) (k m : Ty) : List Ty := [k, metaTy P k m]

/-- The members of `value_type`, `pair<const key_type, mapped_type>`, as which the iterators
look at the control entries (src/estd/internal/container/unordered/base.h:81-89, 247-290). -/
def valueMembers (k m : Ty) : List Ty := [k, m]

/-- src/estd/internal/container/unordered/fwd.h:59-76 `layer1::unordered_map<K, T, N>`: an
`uninitialized_array` of control entries. -/
def layer1Map (P : Platform) (k m : Ty) (n : Nat) : Ty :=
  struct [uninitializedArray (struct (controlMembers P k m)) n]

/-- src/estd/traits/list_node.h:541-589 `alloc_move`, `alloc_emplace`: allocates this many
nodes in a row; the value is built behind the first. -/
def emplacedNodes (node t : Ty) : Nat := 1 + (1 + t.size / node.size)

/-- src/estd/exp/memory/memory_pool.h:137-153 `item<T, THandle>`. -/
def poolItem (handle t : Ty) : Ty := struct [rawInstance t.size, handle]

end Verif.Layout
