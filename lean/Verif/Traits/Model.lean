import Verif.Chrono.Sleep

/-!
# C89, C90: type traits

Modelled from `src/estd/type_traits.h`, `src/estd/internal/raw/type_traits.h`, `src/estd/internal/llvm_type_traits.h`,
`src/estd/internal/llvm/is_void.h`, `src/estd/internal/type_traits/` (`is_function.h`, `is_member.h`, `is_base_of.h`,
`make_unsigned.h`) and `src/estd/limits.h`.

A type trait is a class template: a primary template and partial or explicit specialisations, each with a pattern.
The model keeps that shape: a `Tmpl` is the table of its specialisations as they stand in the header, and `Tmpl.inst`
picks the one whose pattern matches.  What the language says about types (how qualifiers, references and arrays
combine, what a pattern matches, which types cannot be formed) is the first section and is C++'s, not estd's.
A use that does not compile is `none`.
-/
namespace Verif.Traits

/-! ## The language: types -/

/-- the arithmetic types -/
inductive Arith where
  | bool | char | schar | uchar | wchar | char8 | char16 | char32
  | short | ushort | int | uint | long | ulong | llong | ullong
  | float | double | ldouble
  deriving DecidableEq, Repr

/-- `const` and `volatile` -/
structure CV where
  c : Bool := false
  v : Bool := false
  deriving DecidableEq, Repr

/-- the qualifier at the end of a function type -/
inductive RefQ where
  | none | l | r
  deriving DecidableEq, Repr

/-- types with no structure a trait looks into; classes, unions and enumerations are named by numbers -/
inductive Base where
  | void | nullptr
  | arith (a : Arith)
  | cls (n : Nat)
  | uni (n : Nat)
  | enm (n : Nat)
  deriving DecidableEq, Repr

/-- types.  A function type's return and parameter types are named by `sig`: no trait looks at them.  An array is as
qualified as its elements. -/
inductive Ty where
  | obj (q : CV) (b : Base)
  | ptr (q : CV) (t : Ty)
  | mem (q : CV) (t : Ty) (cls : Nat)
  | arr (t : Ty) (n : Option Nat)
  | lref (t : Ty)
  | rref (t : Ty)
  | fn (sig : Nat) (variadic : Bool) (q : CV) (r : RefQ) (noex : Bool)
  deriving DecidableEq, Repr

/-- top-level qualifiers -/
def Ty.quals : Ty → CV
  | .obj q _ => q
  | .ptr q _ => q
  | .mem q _ _ => q
  | .arr t _ => t.quals
  | .lref _ => {}
  | .rref _ => {}
  | .fn .. => {}

/-- the type with its top-level qualifiers changed; references and functions have none -/
def Ty.requal (f : CV → CV) : Ty → Ty
  | .obj q b => .obj (f q) b
  | .ptr q t => .ptr (f q) t
  | .mem q t k => .mem (f q) t k
  | .arr t n => .arr (t.requal f) n
  | .lref t => .lref t
  | .rref t => .rref t
  | .fn s va q r ne => .fn s va q r ne

/-- `const T` -/
def Ty.addC (t : Ty) : Ty := t.requal fun q => { q with c := true }
/-- `volatile T` -/
def Ty.addV (t : Ty) : Ty := t.requal fun q => { q with v := true }
/-- the `T` of `const T` -/
def Ty.dropC (t : Ty) : Ty := t.requal fun q => { q with c := false }
/-- the `T` of `volatile T` -/
def Ty.dropV (t : Ty) : Ty := t.requal fun q => { q with v := false }

/-- a function type that only a member function can have -/
def Ty.qualifiedFn : Ty → Bool
  | .fn _ _ q r _ => q.c || q.v || r != .none
  | _ => false

/-- `T*`: there are no pointers to references or to qualified function types -/
def Ty.mkPtr : Ty → Option Ty
  | .lref _ => none
  | .rref _ => none
  | t => if t.qualifiedFn then none else some (.ptr {} t)

/-- is it `void`, however qualified -/
def Ty.isVoidTy : Ty → Bool
  | .obj _ .void => true
  | _ => false

/-- `T&`: references collapse; there are no references to `void` or to qualified function types -/
def Ty.mkLref : Ty → Option Ty
  | .lref t => some (.lref t)
  | .rref t => some (.lref t)
  | t => if t.isVoidTy || t.qualifiedFn then none else some (.lref t)

/-- `T&&` -/
def Ty.mkRref : Ty → Option Ty
  | .lref t => some (.lref t)
  | .rref t => some (.rref t)
  | t => if t.isVoidTy || t.qualifiedFn then none else some (.rref t)

/-- can `int T::*` be formed: `T` is a class or a union -/
def Ty.hasMembers : Ty → Bool
  | .obj _ (.cls _) => true
  | .obj _ (.uni _) => true
  | _ => false

/-! ## The language: templates -/

/-- the patterns of the specialisations -/
inductive Pat where
  | const
  | vol
  | lref
  | rref
  | arrU
  | arrN
  | ptr (q : CV)
  | mem
  | fn (variadic : Bool) (q : CV) (r : RefQ) (noex : Bool)
  | lit (t : Ty)
  deriving DecidableEq, Repr

/-- what a pattern's `T` is for a type, if the pattern matches it (the whole type if the pattern has no `T`) -/
def Pat.take : Pat → Ty → Option Ty
  | .const, t => if t.quals.c then some t.dropC else none
  | .vol, t => if t.quals.v then some t.dropV else none
  | .lref, .lref t => some t
  | .rref, .rref t => some t
  | .arrU, .arr t none => some t
  | .arrN, .arr t (some _) => some t
  | .ptr q, .ptr q' t => if q = q' then some t else none
  | .mem, .mem q t _ => if q = {} then some t else none
  | .fn va q r ne, .fn s va' q' r' ne' =>
      if va = va' ∧ q = q' ∧ r = r' ∧ ne = ne' then some (.fn s va' q' r' ne') else none
  | .lit t, u => if t = u then some u else none
  | _, _ => none

/-- a class template with one type parameter -/
structure Tmpl (β : Type) where
  primary : Ty → β
  specs : List (Pat × (Ty → β))

/-- the template's value for a type: the specialisation that matches, the primary template if none does; two that
match are ambiguous -/
def Tmpl.inst {β : Type} (m : Tmpl β) (t : Ty) : Option β :=
  match m.specs.filterMap fun s => (s.1.take t).map s.2 with
  | [] => some (m.primary t)
  | [b] => some b
  | _ => none

/-- what a platform decides -/
structure Plat where
  /-- is plain `char` signed -/
  charSigned : Bool
  wcharSigned : Bool
  size : Arith → Nat
  /-- `sizeof` of the other types -/
  sizeOther : Ty → Nat
  /-- which type `uint8_t`, `uint16_t`, `uint32_t`, `uint64_t` name, by width -/
  uintN : Nat → Arith

/-! ## The library: qualifiers, references, arrays, pointers -/

def yes : Ty → Bool := fun _ => true

/-- raw/type_traits.h:54-55 -/
def remove_const : Tmpl Ty := ⟨id, [(.const, id)]⟩
/-- raw/type_traits.h:57-58 -/
def remove_volatile : Tmpl Ty := ⟨id, [(.vol, id)]⟩
/-- raw/type_traits.h:61-65 -/
def remove_reference : Tmpl Ty := ⟨id, [(.lref, id), (.rref, id)]⟩
/-- raw/type_traits.h:72-75 -/
def remove_cv (t : Ty) : Option Ty := (remove_const.inst t).bind remove_volatile.inst
/-- raw/type_traits.h:77-80 -/
def remove_cvref (t : Ty) : Option Ty := (remove_reference.inst t).bind remove_cv
/-- raw/type_traits.h:96-97 -/
def add_cv (t : Ty) : Option Ty := some t.addV.addC
/-- raw/type_traits.h:99 -/
def add_const (t : Ty) : Option Ty := some t.addC
/-- raw/type_traits.h:123 -/
def add_volatile (t : Ty) : Option Ty := some t.addV
/-- raw/type_traits.h:101-105 -/
def add_lvalue_reference (t : Ty) : Option Ty :=
  ((⟨Ty.mkLref, [(.lit (.obj {} .void), fun _ => some (.obj {} .void))]⟩ : Tmpl (Option Ty)).inst t).bind id
/-- raw/type_traits.h:108-109 -/
def add_rvalue_reference (t : Ty) : Option Ty := t.mkRref
/-- raw/type_traits.h:125-126 -/
def is_const : Tmpl Bool := ⟨fun _ => false, [(.const, yes)]⟩
/-- raw/type_traits.h:137-138 -/
def is_volatile : Tmpl Bool := ⟨fun _ => false, [(.vol, yes)]⟩
/-- raw/type_traits.h:128-132 -/
def is_reference : Tmpl Bool := ⟨fun _ => false, [(.lref, yes), (.rref, yes)]⟩
/-- raw/type_traits.h:134-135 -/
def is_lvalue_reference : Tmpl Bool := ⟨fun _ => false, [(.lref, yes)]⟩
/-- raw/type_traits.h:141-142 -/
def is_rvalue_reference : Tmpl Bool := ⟨fun _ => false, [(.rref, yes)]⟩
/-- raw/type_traits.h:168-175 -/
def is_array : Tmpl Bool := ⟨fun _ => false, [(.arrU, yes), (.arrN, yes)]⟩
/-- raw/type_traits.h:177-184 -/
def remove_extent : Tmpl Ty := ⟨id, [(.arrU, id), (.arrN, id)]⟩
/-- raw/type_traits.h:187-191 -/
def remove_pointer : Tmpl Ty :=
  ⟨id, [(.ptr {}, id), (.ptr ⟨true, false⟩, id), (.ptr ⟨false, true⟩, id), (.ptr ⟨true, true⟩, id)]⟩
/-- raw/type_traits.h:146-150 -/
def conditional (b : Bool) (t f : Ty) : Ty := if b then t else f
/-- raw/type_traits.h:161-165 -/
def enable_if (b : Bool) (t : Ty) : Option Ty := if b then some t else none
/-- raw/type_traits.h:153-157 -/
def is_same (t : Ty) : Tmpl Bool := ⟨fun _ => false, [(.lit t, yes)]⟩

/-! ## The library: categories -/

/-- is_function.h:14-134, with C++17; the rows inside `#ifdef FEATURE_CPP_AMBIGUOUS_ELLIPSES` are in iff `ell`.
No header defines that macro. -/
def is_function (ell : Bool) : Tmpl Bool where
  primary := fun _ => false
  specs :=
    [(.fn false ⟨false, false⟩ .none false, yes), (.fn false ⟨true, false⟩ .none false, yes),
     (.fn false ⟨false, true⟩ .none false, yes), (.fn false ⟨true, true⟩ .none false, yes)] ++
    (if ell then
      [(.fn true ⟨false, false⟩ .none false, yes), (.fn true ⟨true, false⟩ .none false, yes),
       (.fn true ⟨false, true⟩ .none false, yes), (.fn true ⟨true, true⟩ .none false, yes)] else []) ++
    [(.fn false ⟨false, false⟩ .l false, yes), (.fn false ⟨true, false⟩ .l false, yes),
     (.fn false ⟨false, true⟩ .l false, yes), (.fn false ⟨true, true⟩ .l false, yes)] ++
    (if ell then
      [(.fn true ⟨false, false⟩ .l false, yes), (.fn true ⟨true, false⟩ .l false, yes),
       (.fn true ⟨false, true⟩ .l false, yes), (.fn true ⟨true, true⟩ .l false, yes)] else []) ++
    [(.fn false ⟨false, false⟩ .r false, yes), (.fn false ⟨true, false⟩ .r false, yes),
     (.fn false ⟨false, true⟩ .r false, yes), (.fn false ⟨true, true⟩ .r false, yes)] ++
    (if ell then
      [(.fn true ⟨false, false⟩ .r false, yes), (.fn true ⟨true, false⟩ .r false, yes),
       (.fn true ⟨false, true⟩ .r false, yes), (.fn true ⟨true, true⟩ .r false, yes)] else []) ++
    [(.fn false ⟨false, false⟩ .none true, yes), (.fn true ⟨false, false⟩ .none true, yes),
     (.fn false ⟨true, false⟩ .none true, yes), (.fn false ⟨false, true⟩ .none true, yes),
     (.fn false ⟨true, true⟩ .none true, yes), (.fn true ⟨true, false⟩ .none true, yes),
     (.fn true ⟨false, true⟩ .none true, yes), (.fn true ⟨true, true⟩ .none true, yes),
     (.fn false ⟨false, false⟩ .l true, yes), (.fn false ⟨true, false⟩ .l true, yes),
     (.fn false ⟨false, true⟩ .l true, yes), (.fn false ⟨true, true⟩ .l true, yes),
     (.fn true ⟨false, false⟩ .l true, yes), (.fn true ⟨true, false⟩ .l true, yes),
     (.fn true ⟨false, true⟩ .l true, yes), (.fn true ⟨true, true⟩ .l true, yes),
     (.fn false ⟨false, false⟩ .r true, yes), (.fn false ⟨true, false⟩ .r true, yes),
     (.fn false ⟨false, true⟩ .r true, yes), (.fn false ⟨true, true⟩ .r true, yes),
     (.fn true ⟨false, false⟩ .r true, yes), (.fn true ⟨true, false⟩ .r true, yes),
     (.fn true ⟨false, true⟩ .r true, yes), (.fn true ⟨true, true⟩ .r true, yes)]

/-- llvm/is_void.h:9-15 -/
def is_void (t : Ty) : Option Bool :=
  (remove_cv t).bind (⟨fun _ => false, [(.lit (.obj {} .void), yes)]⟩ : Tmpl Bool).inst

/-- `Base`'s unqualified type -/
def ar (a : Arith) : Ty := .obj {} (.arith a)

/-- llvm_type_traits.h:147-164; `FEATURE_CPP_CHAR16_T` holds since C++11 (feature/cpp.h:25), `FEATURE_CPP_INT128` is
defined nowhere -/
def libcpp_is_integral : Tmpl Bool where
  primary := fun _ => false
  specs := [(.lit (ar .bool), yes), (.lit (ar .char), yes), (.lit (ar .schar), yes), (.lit (ar .uchar), yes),
    (.lit (ar .wchar), yes), (.lit (ar .char16), yes), (.lit (ar .char32), yes), (.lit (ar .short), yes),
    (.lit (ar .ushort), yes), (.lit (ar .int), yes), (.lit (ar .uint), yes), (.lit (ar .long), yes),
    (.lit (ar .ulong), yes), (.lit (ar .llong), yes), (.lit (ar .ullong), yes)]

/-- llvm_type_traits.h:172-173 -/
def is_integral (t : Ty) : Option Bool := (remove_cv t).bind libcpp_is_integral.inst

/-- type_traits.h:56-63 -/
def is_floating_point (t : Ty) : Option Bool := do
  let u ← remove_cv t
  return (← (is_same (ar .float)).inst u) || (← (is_same (ar .double)).inst u) || (← (is_same (ar .ldouble)).inst u)

/-- type_traits.h:30-33 -/
def is_arithmetic (t : Ty) : Option Bool := do return (← is_integral t) || (← is_floating_point t)

/-- type_traits.h:37-38, 54 -/
def is_pointer (t : Ty) : Option Bool :=
  (remove_cv t).bind (⟨fun _ => false, [(.ptr {}, yes)]⟩ : Tmpl Bool).inst

/-- type_traits.h:19, 23-24 -/
def is_union (t : Ty) : Option Bool := (remove_cv t).bind fun _ => some false

/-- type_traits.h:15-17, 26-28: which `is_class_test` overload is chosen depends on whether `int T::*` exists -/
def is_class (t : Ty) : Option Bool := do return t.hasMembers && !(← is_union t)

/-- the value -1 converted to an arithmetic type, as a number -/
def minusOne (p : Plat) : Arith → Int
  | .bool => 1
  | .char => if p.charSigned then -1 else 2 ^ (8 * p.size .char) - 1
  | .wchar => if p.wcharSigned then -1 else 2 ^ (8 * p.size .wchar) - 1
  | .uchar => 2 ^ (8 * p.size .uchar) - 1
  | .char8 => 2 ^ (8 * p.size .char8) - 1
  | .char16 => 2 ^ (8 * p.size .char16) - 1
  | .char32 => 2 ^ (8 * p.size .char32) - 1
  | .ushort => 2 ^ (8 * p.size .ushort) - 1
  | .uint => 2 ^ (8 * p.size .uint) - 1
  | .ulong => 2 ^ (8 * p.size .ulong) - 1
  | .ullong => 2 ^ (8 * p.size .ullong) - 1
  | _ => -1

/-- `T(-1) < T(0)`; not an expression unless `T` is arithmetic -/
def negLess (p : Plat) : Ty → Option Bool
  | .obj _ (.arith a) => some (decide (minusOne p a < 0))
  | _ => none

/-- type_traits.h:40-49 -/
def is_signed (p : Plat) (t : Ty) : Option Bool := do if ← is_arithmetic t then negLess p t else return false

/-- type_traits.h:51-52 -/
def is_unsigned (p : Plat) (t : Ty) : Option Bool := do return !(← is_signed p t)

/-- is_member.h:22-32 -/
def is_member_pointer (t : Ty) : Option Bool :=
  (remove_cv t).bind (⟨fun _ => false, [(.mem, yes)]⟩ : Tmpl Bool).inst

/-- is_member.h:16-20, 35-37 -/
def is_member_function_pointer (ell : Bool) (t : Ty) : Option Bool := do
  let u ← remove_cv t
  (← (⟨fun _ => some false, [(.mem, (is_function ell).inst)]⟩ : Tmpl (Option Bool)).inst u)

/-- is_member.h:39-43 -/
def is_member_object_pointer (ell : Bool) (t : Ty) : Option Bool := do
  return (← is_member_pointer t) && !(← is_member_function_pointer ell t)

/-- llvm_type_traits.h:130-143 -/
def is_enum (ell : Bool) (t : Ty) : Option Bool := do
  return !(← is_void t) && !(← is_integral t) && !(← is_floating_point t) && !(← is_array.inst t) &&
    !(← is_pointer t) && !(← is_reference.inst t) && !(← (is_function ell).inst t) && !(← is_class t)

/-! ## The library: pointers, decay, signedness -/

/-- type_traits.h:69-91 -/
def add_pointer (ell : Bool) (t : Ty) : Option Ty := do
  if ← (is_function ell).inst t then
    (← (⟨some, [(.fn false {} .none false, Ty.mkPtr), (.fn true {} .none false, Ty.mkPtr)]⟩ : Tmpl (Option Ty)).inst t)
  else
    (← remove_reference.inst t).mkPtr

/-- type_traits.h:95-109: all the types named are formed, whichever is taken -/
def decay (ell : Bool) (t : Ty) : Option Ty := do
  let u ← remove_reference.inst t
  let a ← (← remove_extent.inst u).mkPtr
  let f ← add_pointer ell u
  let o ← remove_cv u
  return conditional (← is_array.inst u) a (conditional (← (is_function ell).inst u) f o)

/-- `__signed_types` searched by `__find_first`, llvm_type_traits.h:111-125, 177-189 -/
def find_first (p : Plat) (size : Nat) : List Arith → Option Arith
  | [] => none
  | a :: r => if size ≤ p.size a then some a else find_first p size r

def signed_types : List Arith := [.schar, .short, .int, .long, .llong]

/-- `sizeof(T)` -/
def sizeOf (p : Plat) : Ty → Nat
  | .obj _ (.arith a) => p.size a
  | t => p.sizeOther t

/-- llvm_type_traits.h:192-209 -/
def make_signed_base (ell : Bool) (p : Plat) (t : Ty) : Option Ty := do
  if (← is_integral t) || (← is_enum ell t) then
    (← (⟨fun t => (find_first p (sizeOf p t) signed_types).map ar,
      [(.lit (ar .short), fun _ => some (ar .short)), (.lit (ar .ushort), fun _ => some (ar .short)),
       (.lit (ar .int), fun _ => some (ar .int)), (.lit (ar .uint), fun _ => some (ar .int)),
       (.lit (ar .long), fun _ => some (ar .long)), (.lit (ar .ulong), fun _ => some (ar .long)),
       (.lit (ar .llong), fun _ => some (ar .llong)), (.lit (ar .ullong), fun _ => some (ar .llong))]⟩
        : Tmpl (Option Ty)).inst t)
  else none

/-- llvm_type_traits.h:17-64 -/
def apply_cv (t u : Ty) : Option Ty := do
  let r ← remove_reference.inst t
  let c ← is_const.inst r
  let v ← is_volatile.inst r
  let w := match c, v with
    | false, false => u
    | true, false => u.addC
    | false, true => u.addV
    | true, true => u.addV.addC
  match t with
  | .lref _ => w.mkLref
  | _ => return w

/-- llvm_type_traits.h:213-217 -/
def make_signed (ell : Bool) (p : Plat) (t : Ty) : Option Ty := do
  apply_cv t (← make_signed_base ell p (← remove_cv t))

/-- `numeric_limits<T>::unsigned_type`, limits.h:12-25, internal/limits/integer.h:18-19, 46-124,
internal/limits/traits.h:44-54: of a signed type the `uintN_t` of its width, of an unsigned type the unsigned type of
that width which `uint_limits` was given -/
def make_unsigned (p : Plat) : Ty → Option Ty
  | .obj ⟨false, false⟩ (.arith a) =>
      if a ∈ [.schar, .uchar, .short, .ushort, .int, .uint, .long, .ulong, .llong, .ullong] ∧
          8 * p.size a ∈ [8, 16, 32, 64] then
        some (ar (p.uintN (8 * p.size a)))
      else none
  | _ => none

/-! ## The library: class hierarchies, logic -/

/-- the classes of a program: which class is (properly) derived from which, and for which pairs the pointer conversion
from derived to base is allowed (unambiguous and accessible) -/
structure Hier where
  derives : Nat → Nat → Bool
  allowed : Nat → Nat → Bool

/-- the name of a class or union type -/
def Ty.classId : Ty → Option Base
  | .obj _ (.cls n) => some (.cls n)
  | .obj _ (.uni n) => some (.uni n)
  | _ => none

/-- is there an implicit conversion sequence from `D*` to `const volatile B*`: same type or derived.  A union has no
bases. -/
def Hier.viable (h : Hier) (b d : Ty) : Bool :=
  match b.classId, d.classId with
  | some (.cls m), some (.cls n) => m == n || h.derives n m
  | some x, some y => x == y
  | _, _ => false

/-- may that conversion be used -/
def Hier.usable (h : Hier) (b d : Ty) : Bool :=
  match b.classId, d.classId with
  | some (.cls m), some (.cls n) => m == n || h.allowed n m
  | _, _ => true

/-- is_base_of.h:18-19, 35-38: `test_is_base_of<B, D>(0)`.  The overload taking a base pointer is better than the one
taking `void*`; if it is chosen but may not be used, the expression is invalid and the overload with `...` is left. -/
def test_is_base_of (h : Hier) (b d : Ty) : Bool :=
  if h.viable b d then (if h.usable b d then true else true) else false

/-- is_base_of.h:42-53 -/
def is_base_of (h : Hier) (b d : Ty) : Option Bool := do
  return (← is_class b) && (← is_class d) && test_is_base_of h b d

/-- raw/type_traits.h:239-244; `none` in the list: a trait that does not compile when it is used -/
def conjunction : List (Option Bool) → Option Bool
  | [] => some true
  | [b] => b
  | b :: r => do if ← b then conjunction r else return false

/-- raw/type_traits.h:246-250 -/
def disjunction : List (Option Bool) → Option Bool
  | [] => some false
  | [b] => b
  | b :: r => do if ← b then return true else disjunction r

end Verif.Traits
