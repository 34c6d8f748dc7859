import Verif.Variadic.Props

/-!
# Tuples

Source: `src/estd/tuple.h`, `src/estd/internal/tuple.h`, `src/estd/internal/tuple/{get,apply,make,sparse}.h`,
`visit_tuple_functor` in `src/estd/internal/variadic/visitor.h`.

A tuple is the list of its elements, outermost class first; each element remembers its type and what its
`tuple_storage` base holds.  `none` is a program that does not compile, or (where the comment says so) undefined
behaviour.  Element types come in three kinds: empty classes, other classes and scalars.
-/

namespace Verif.Variadic

variable {τ α σ : Type}

/-- Kinds of element type that the code or the language tells apart. -/
inductive Kind
  | empty | cls | scalar
deriving DecidableEq

/-- What a `tuple_storage` holds, internal/tuple/sparse.h:12-56: nothing for an empty class in a sparse tuple
(12-25), the value otherwise (28-56).  `uninit` is a scalar nobody has initialised; `refers p` is the storage of an
element of reference type bound to variable `p`. -/
inductive Slot (α : Type)
  | nothing
  | stored (v : α)
  | uninit
  | refers (p : Nat)
deriving DecidableEq

/-- Element types: their kind and the value of `T()`. -/
structure Types (τ α : Type) where
  kind : τ → Kind
  dflt : τ → α

/-- `tuple_storage(T&&)`, internal/tuple/sparse.h:19 and 45-47. -/
def store (T : Types τ α) (sparse : Bool) (t : τ) (v : α) : Slot α :=
  if sparse = true ∧ T.kind t = .empty then .nothing else .stored v

/-- `tuple(UType&&, Args&&...)`, internal/tuple.h:43-53: one constructor argument per element. -/
def construct (T : Types τ α) (sparse : Bool) : List τ → List α → Option (List (τ × Slot α))
  | [], [] => some []
  | t :: ts, v :: vs => (construct T sparse ts vs).map ((t, store T sparse t v) :: ·)
  | _, _ => none

/-- `explicit tuple() = default`, internal/tuple.h:59, over `tuple_storage() = default`, internal/tuple/sparse.h:16
and 51, in a declaration `tuple<...> t;`: class elements run their default constructor, scalars stay
uninitialised. -/
def defaultConstruct (T : Types τ α) (sparse : Bool) (ts : List τ) : List (τ × Slot α) :=
  ts.map (fun t => (t, match T.kind t with
    | .empty => store T sparse t (T.dflt t)
    | .cls => .stored (T.dflt t)
    | .scalar => .uninit))

/-- `GetImpl<sparse, index, First, Rest...>`, internal/tuple/get.h:13-55: step to the base class `index` times. -/
def getImpl : Nat → List (τ × Slot α) → Option (τ × Slot α)
  | _, [] => none
  | 0, e :: _ => some e
  | i + 1, _ :: t => getImpl i t

/-- Value of an element's storage; `mem` holds the program's other variables.  `none` is undefined behaviour (an
uninitialised scalar, a variable that is gone). -/
def read (T : Types τ α) (mem : List α) : τ × Slot α → Option α
  | (t, .nothing) => some (T.dflt t)
  | (_, .stored v) => some v
  | (_, .uninit) => none
  | (_, .refers p) => mem[p]?

/-- `get<I>` of an lvalue, internal/tuple/get.h:60-72, and its value: `first()` is the object
(internal/tuple/sparse.h:38-40) or, for an absent one, a fresh `T()` returned by value (line 21). -/
def get (T : Types τ α) (mem : List α) (i : Nat) (t : List (τ × Slot α)) : Option α :=
  match getImpl i t with
  | none => none
  | some e => read T mem e

/-- `get<I>` of an rvalue, internal/tuple/get.h:51-54 and 74-79: the result is a reference in every case.  Here
`first()` of an absent element is a temporary that dies before the caller sees the reference: undefined
behaviour. -/
def getMove (T : Types τ α) (mem : List α) (i : Nat) (t : List (τ × Slot α)) : Option α :=
  match getImpl i t with
  | none => none
  | some (_, .nothing) => none
  | some e => read T mem e

/-- `get<T>` of a const lvalue, internal/tuple/get.h:101-105: the return type is `const T&`, so for an absent
element the reference is to a temporary: undefined behaviour. -/
def getByType [DecidableEq τ] (T : Types τ α) (mem : List α) (ty : τ) (t : List (τ × Slot α)) : Option α :=
  match singleIndex ty (t.map (·.1)) with
  | none => none
  | some i => getMove T mem i t

/-- Assigning to an element's object: through a reference element to the variable it is bound to. -/
def assignSlot (mem : List α) (v : α) : Slot α → List α × Slot α
  | .nothing => (mem, .nothing)
  | .stored _ => (mem, .stored v)
  | .uninit => (mem, .stored v)
  | .refers p => (mem.set p v, .refers p)

/-- `get<I>(t) = v` on an lvalue, internal/tuple/get.h:67-72 with 46-49.  For an absent element the assignment is to
a temporary. -/
def assign (i : Nat) (v : α) : List α × List (τ × Slot α) → Option (List α × List (τ × Slot α))
  | (_, []) => none
  | (mem, e :: t) =>
    match i with
    | 0 => some ((assignSlot mem v e.2).1, (e.1, (assignSlot mem v e.2).2) :: t)
    | i + 1 =>
      match assign i v (mem, t) with
      | none => none
      | some (mem', t') => some (mem', e :: t')

/-- `get<Is>(t)...` for a pack of indices. -/
def getAll (g : Nat → Option α) : List Nat → Option (List α)
  | [] => some []
  | i :: is =>
    match g i, getAll g is with
    | some v, some vs => some (v :: vs)
    | _, _ => none

/-- `apply` on an lvalue tuple, internal/tuple/apply.h:10-32 with `make_index_sequence` of the tuple's size. -/
def apply {β : Type} (T : Types τ α) (mem : List α) (f : List α → β) (t : List (τ × Slot α)) : Option β :=
  (getAll (fun i => get T mem i t) (makeSeq t.length [])).map f

/-- `apply` on an rvalue tuple, and hence `make_from_tuple`, internal/tuple/make.h:11-18. -/
def applyMove {β : Type} (T : Types τ α) (mem : List α) (f : List α → β) (t : List (τ × Slot α)) : Option β :=
  (getAll (fun i => getMove T mem i t) (makeSeq t.length [])).map f

/-- Argument of `make_tuple`: a variable or a temporary. -/
inductive Arg (α : Type)
  | lvalue (p : Nat)
  | rvalue (v : α)

/-- `make_tuple`, internal/tuple/make.h:20-25: no decay, so `Types` is a reference for each lvalue argument. -/
def makeTuple (T : Types τ α) (sparse : Bool) (args : List (τ × Arg α)) : List (τ × Slot α) :=
  args.map (fun a => (a.1, match a.2 with
    | .lvalue p => .refers p
    | .rvalue v => store T sparse a.1 v))

/-- `visit_tuple_functor`, internal/variadic/visitor.h:36-42, for a tuple without reference elements: fetch the
element, hand it to the user's functor, which may change it in place.  The state is the user's state and the
tuple. -/
def visitElem (T : Types τ α) (f : σ → Nat → α → Bool × σ × α) (s : σ × List (τ × Slot α)) (i : Nat) (_ : τ) :
    Bool × (σ × List (τ × Slot α)) :=
  match get T [] i s.2 with
  | none => (false, s)
  | some v =>
    match f s.1 i v with
    | (b, s', v') =>
      match assign i v' ([], s.2) with
      | none => (b, (s', s.2))
      | some r => (b, (s', r.2))

/-- `tuple::visit`, internal/tuple.h:66-71; 26-27 for the empty tuple.  `types::visitor::visit` answers an `int`,
which the `bool` return type converts. -/
def tupleVisit (T : Types τ α) (f : σ → Nat → α → Bool × σ × α) (t : List (τ × Slot α)) (s : σ) :
    Option (Bool × σ × List (τ × Slot α)) :=
  if t.isEmpty then some (false, s, t)
  else
    match visit (visitElem T f) (t.map (·.1)) (s, t) with
    | none => none
    | some (r, s') => some (decide (r ≠ 0), s')

end Verif.Variadic
