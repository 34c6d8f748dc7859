import Verif.Traits.Model

/-!
# C89, C90: what the C++ standard says the traits are
-/
namespace Verif.Traits

/-- the primary type categories, [meta.unary.cat] -/
inductive Cat where
  | void | nullptr | integral | floating | array | enum | union | cls | function | pointer | lref | rref | memObj | memFn
  deriving DecidableEq, Repr

/-- is the arithmetic type a floating-point one -/
def Spec.floating : Arith → Bool
  | .float => true
  | .double => true
  | .ldouble => true
  | _ => false

/-- a member pointer points to a member function if what it points to is a function type -/
def Spec.memCat : Ty → Cat
  | .fn .. => .memFn
  | _ => .memObj

/-- every type is in exactly one category; qualifiers play no part -/
def Spec.cat : Ty → Cat
  | .obj _ .void => .void
  | .obj _ .nullptr => .nullptr
  | .obj _ (.arith a) => if Spec.floating a then .floating else .integral
  | .obj _ (.cls _) => .cls
  | .obj _ (.uni _) => .union
  | .obj _ (.enm _) => .enum
  | .ptr _ _ => .pointer
  | .mem _ t _ => Spec.memCat t
  | .arr _ _ => .array
  | .lref _ => .lref
  | .rref _ => .rref
  | .fn .. => .function

/-- the arithmetic types with negative values -/
def Spec.signed (p : Plat) : Arith → Bool
  | .char => p.charSigned
  | .wchar => p.wcharSigned
  | .schar => true
  | .short => true
  | .int => true
  | .long => true
  | .llong => true
  | .float => true
  | .double => true
  | .ldouble => true
  | _ => false

/-- arithmetic types, [basic.fundamental]: integral or floating -/
def Spec.arithOf : Ty → Option Arith
  | .obj _ (.arith a) => some a
  | _ => none

/-- the type without its top-level qualifiers, as a relation: `u` has none, and `t` is `u` with some -/
def Spec.Unqualified (t u : Ty) : Prop :=
  u.quals = {} ∧ (t = u ∨ t = u.addC ∨ t = u.addV ∨ t = u.addV.addC)

/-- the type a reference refers to, any other type itself -/
def Spec.referred : Ty → Ty
  | .lref t => t
  | .rref t => t
  | t => t

/-- types that a reference can refer to, [defns.referenceable] -/
def Spec.Referenceable (t : Ty) : Prop := t.isVoidTy = false ∧ t.qualifiedFn = false

/-- `std::add_lvalue_reference`: the reference, or the type itself if there is none -/
def Spec.addLref (t : Ty) : Ty :=
  if t.isVoidTy || t.qualifiedFn then t else .lref (Spec.referred t)

/-- `std::add_rvalue_reference` -/
def Spec.addRref (t : Ty) : Ty :=
  if t.isVoidTy || t.qualifiedFn then t else
    match t with
    | .lref u => .lref u
    | _ => .rref (Spec.referred t)

/-- `std::add_pointer`: a pointer to the type (to what it refers to), or the type itself if there are no such pointers -/
def Spec.addPtr (t : Ty) : Ty := if t.qualifiedFn then t else .ptr {} (Spec.referred t)

/-- `std::decay` of something that is not a reference: what an argument passed by value becomes -/
inductive Spec.Decays : Ty → Ty → Prop where
  | array (e n) : Spec.Decays (.arr e n) (.ptr {} e)
  | function (s va q r ne) : Spec.Decays (.fn s va q r ne) (Spec.addPtr (.fn s va q r ne))
  | other (t u) : Spec.cat t ≠ .array → Spec.cat t ≠ .function → Spec.Unqualified t u → Spec.Decays t u

/-- types that exist: no references to references, no arrays of references -/
def Spec.Exists : Ty → Prop
  | .obj _ _ => True
  | .ptr _ t => Spec.cat t ≠ .lref ∧ Spec.cat t ≠ .rref ∧ t.qualifiedFn = false ∧ Spec.Exists t
  | .mem _ t _ => Spec.cat t ≠ .lref ∧ Spec.cat t ≠ .rref ∧ Spec.cat t ≠ .void ∧ Spec.Exists t
  | .arr t _ => Spec.cat t ≠ .lref ∧ Spec.cat t ≠ .rref ∧ Spec.cat t ≠ .void ∧ Spec.cat t ≠ .function ∧ Spec.Exists t
  | .lref t => Spec.cat t ≠ .lref ∧ Spec.cat t ≠ .rref ∧ Spec.Referenceable t ∧ Spec.Exists t
  | .rref t => Spec.cat t ≠ .lref ∧ Spec.cat t ≠ .rref ∧ Spec.Referenceable t ∧ Spec.Exists t
  | .fn .. => True

/-- the standard signed integer types, by rank -/
def Spec.rank : Arith → Option Nat
  | .schar => some 0
  | .short => some 1
  | .int => some 2
  | .long => some 3
  | .llong => some 4
  | _ => none

/-- the signed integer type that corresponds to a standard signed or unsigned integer type -/
def Spec.signedOf : Arith → Option Arith
  | .schar => some .schar
  | .uchar => some .schar
  | .short => some .short
  | .ushort => some .short
  | .int => some .int
  | .uint => some .int
  | .long => some .long
  | .ulong => some .long
  | .llong => some .llong
  | .ullong => some .llong
  | _ => none

/-- the unsigned integer type that corresponds -/
def Spec.unsignedOf : Arith → Option Arith
  | .schar => some .uchar
  | .uchar => some .uchar
  | .short => some .ushort
  | .ushort => some .ushort
  | .int => some .uint
  | .uint => some .uint
  | .long => some .ulong
  | .ulong => some .ulong
  | .llong => some .ullong
  | .ullong => some .ullong
  | _ => none

/-- `std::make_signed`, [meta.trans.sign]: for a standard integer type the corresponding signed one, for the other
integral types and enumerations the signed integer type of least rank that has the same size; qualifiers are kept -/
def Spec.MakesSigned (p : Plat) (t u : Ty) : Prop :=
  ∃ q b s, t = .obj q b ∧ u = .obj q (.arith s) ∧
    match b with
    | .arith a =>
      Spec.signedOf a = some s ∨
        (Spec.signedOf a = none ∧ p.size s = p.size a ∧
          ∃ k, Spec.rank s = some k ∧ ∀ s' k', Spec.rank s' = some k' → p.size s' = p.size a → k ≤ k')
    | _ => p.size s = p.sizeOther (.obj {} b) ∧
        ∃ k, Spec.rank s = some k ∧ ∀ s' k', Spec.rank s' = some k' → p.size s' = p.sizeOther (.obj {} b) → k ≤ k'

/-- the sizes the language demands: those of a signed type and its unsigned counterpart are equal, and sizes do not
fall with rank -/
structure Spec.PlatOk (p : Plat) : Prop where
  same : ∀ a s, Spec.signedOf a = some s → p.size a = p.size s
  mono : ∀ a b k l, Spec.rank a = some k → Spec.rank b = some l → k ≤ l → p.size a ≤ p.size b

/-- one class is another or derived from it, whatever the access and however many times -/
def Spec.BaseOf (h : Hier) (b d : Ty) : Prop :=
  ∃ qb qd m n, b = .obj qb (.cls m) ∧ d = .obj qd (.cls n) ∧ (m = n ∨ h.derives n m = true)

end Verif.Traits
