import Verif.Sum.Expected

/-!
# Model of `variant`

Modelled from `src/estd/internal/variant.h`, `src/estd/variant.h` and `src/estd/internal/variant/storage.h`.  The tag is
`index_`, with `none` for `variant_npos`.  `first i` is the lowest alternative having the same type as alternative `i`
(`select_type<T_i>::first::index`); it is `i` when the types are distinct.  Constructors and assignments do not throw;
copy assignable and move assignable are one flag.
-/
namespace Verif.Sum.Variant
open Verif.Sum

/-- `destroy_if_valid()`, variant.h:165-169 with storage.h:316-319: `destroyer_functor` runs for the alternative whose
number equals the index, so not at all when valueless -/
def destroyIfValid (k : Nat → Kind) (x : Box α) : Option (Slot α) :=
  match x.tag with
  | some i => x.slot.destroy k i
  | none => some x.slot

/-- `assign_or_init<I>(&index, u)`, storage.h:497-520 -/
def assignOrInit (k : Nat → Kind) (x : Box α) (i : Nat) (src : Src α) (asg conv : Bool) : Option (Box α) :=
  if x.tag == some i then (x.slot.assignmentHelper k i src asg conv).map fun s => ⟨s, some i⟩
  else
    match destroyIfValid k x with
    | some s => (s.directInit k i src conv).map fun s' => ⟨s', some i⟩
    | none => none

/-- `destroy_if_valid(); copy<I>(from)` (or `move<I>`), variant.h:113-133 -/
def rebuild (k : Nat → Kind) (x : Box α) (i : Nat) (src : Src α) : Option (Box α) :=
  match destroyIfValid k x with
  | some s => (s.read src).map fun v => ⟨s.construct i v, some i⟩
  | none => none

/-- becoming valueless, variant.h:313-317, 332-336 -/
def clear (k : Nat → Kind) (x : Box α) : Option (Box α) := (destroyIfValid k x).map fun s => ⟨s, none⟩

/-- what `operator=(const variant&)` and `operator=(variant&&)` do to the left side, variant.h:311-343 with
`assignment_functor`, 90-145; `i` is the index of the right side and `src` refers to its value -/
def assignFrom (k : Nat → Kind) (x : Box α) (i : Nat) (src : Src α) : Option (Box α) :=
  if (k i).assignable then assignOrInit k x i src true true else rebuild k x i src

/-- `emplace<I>(…)`, variant.h:347-369: constructs a `T_i` and sets the index to `select_type<T_i>::index` -/
def emplace (k : Nat → Kind) (first : Nat → Nat) (x : Box α) (i : Nat) (v : α) : Option (Box α) :=
  (destroyIfValid k x).map fun s => ⟨s.construct (first i) v, some (first i)⟩

/-- `variant(const variant&)`, variant.h:207-217 with `copying_constructor_functor`, storage.h:232-249, 576-579: an
alternative that is not copy constructible is left unconstructed -/
def copyCtor (k : Nat → Kind) (y : Box α) : Option (Box α) :=
  match y.tag with
  | some i =>
    if (k i).copyable then (y.slot.read (.own i)).map fun v => ⟨Slot.raw.construct i v, some i⟩
    else some ⟨Slot.raw, some i⟩
  | none => some ⟨Slot.raw, none⟩

/-- `variant(variant&&)`, variant.h:266-274 with `moving_constructor_functor`, 65-86: the new variant and what is left of
the source, which is destroyed at once and becomes valueless -/
def moveCtor (k : Nat → Kind) (y : Box α) : Option (Box α × Box α) :=
  match y.tag with
  | some i =>
    match y.slot.read (.own i), y.slot.destroy k i with
    | some v, some s => some (⟨Slot.raw.construct i v, some i⟩, ⟨s, none⟩)
    | _, _ => none
  | none => some (⟨Slot.raw, none⟩, ⟨y.slot, none⟩)

inductive Op (α : Type u) where
  /-- `variant()` (alternative 0), `variant(in_place_index<I>, …)`, and the converting constructor, which picks the first
  constructible alternative; 202-252 -/
  | new (i : Nat) (v : α)
  | copy (b : Nat)
  | move (b : Nat)
  /-- `operator=(T&&)`, 276-284 with storage.h:536-542; `i` is the first alternative constructible from `T` -/
  | assign (b i : Nat) (v : α) (asg conv : Bool)
  | assignCopy (b c : Nat)
  | assignMove (b c : Nat)
  | emplace (b i : Nat) (v : α)
  /-- `~variant()`, 259-264 -/
  | destroy (b : Nat)
  deriving DecidableEq, Repr

/-- reference to alternative `i` of container `c`, seen from container `b` -/
def srcOf (b c i : Nat) (y : Box α) : Option (Src α) :=
  if b = c then some (.own i) else (y.slot.read (.own i)).map .ext

/-- the source after a move assignment: still there with a moved-from value when its type is assignable (104-109),
destroyed and valueless otherwise (135-141) -/
def moveSource (k : Nat → Kind) (gut : α → α) (y : Box α) (i : Nat) : Option (Box α) :=
  if (k i).assignable then some (y.gut gut) else (y.slot.destroy k i).map fun s => ⟨s, none⟩

def step (k : Nat → Kind) (first : Nat → Nat) (gut : α → α) (s : State α) : Op α → Option (State α)
  | .new i v => some (s.push ⟨Slot.raw.construct i v, some i⟩)
  | .copy b =>
    match s.get b with
    | some y => (copyCtor k y).map s.push
    | none => none
  | .move b =>
    match s.get b with
    | some y => (moveCtor k y).map fun (z, y') => (s.put b y').push z
    | none => none
  | .assign b i v asg conv =>
    match s.get b with
    | some x => (assignOrInit k x i (.ext v) asg conv).map (s.put b)
    | none => none
  | .assignCopy b c =>
    match s.get b, s.get c with
    | some x, some y =>
      match y.tag with
      | none => (clear k x).map (s.put b)
      | some i =>
        match srcOf b c i y with
        | some src => (assignFrom k x i src).map (s.put b)
        | none => none
    | _, _ => none
  | .assignMove b c =>
    match s.get b, s.get c with
    | some x, some y =>
      match y.tag with
      | none => (clear k x).map (s.put b)
      | some i =>
        match srcOf b c i y with
        | some src =>
          match assignFrom k x i src with
          | some x' =>
            match (s.put b x').get c with
            | some y' => (moveSource k gut y' i).map ((s.put b x').put c)
            | none => none
          | none => none
        | none => none
    | _, _ => none
  | .emplace b i v =>
    match s.get b with
    | some x => (emplace k first x i v).map (s.put b)
    | none => none
  | .destroy b =>
    match s.get b with
    | some x => (destroyIfValid k x).map fun sl => s.bury b sl.log
    | none => none

def run (k : Nat → Kind) (first : Nat → Nat) (gut : α → α) (s : State α) : List (Op α) → Option (State α)
  | [] => some s
  | op :: ops =>
    match step k first gut s op with
    | some s' => run k first gut s' ops
    | none => none

/-- `get<I>(v)`, src/estd/variant.h:40-55 with `assert_index_matches`, internal/variant.h:47-56 -/
def get (x : Box α) (i : Nat) : Option (Optional.Res α) :=
  if x.tag == some i then (x.slot.read (.own i)).map .ok else some .throws

/-- `get_if<I>(&v)`, src/estd/variant.h:13-24 with `holds_index`, internal/variant.h:25-29; the inner `none` is `nullptr` -/
def getIf (x : Box α) (i : Nat) : Option (Option α) :=
  if x.tag == some i then (x.slot.read (.own i)).map some else some none

/-- `holds_alternative<T_i>(v)`, src/estd/variant.h:85-89 -/
def holdsAlternative (first : Nat → Nat) (x : Box α) (i : Nat) : Bool := x.tag == some (first i)

end Verif.Sum.Variant
