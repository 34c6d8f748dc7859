import Verif.Sum.Storage

/-!
# Specification shared by optional, expected and variant

* `replay` reads a log of constructor/destructor/assignment calls and says which alternative is alive at the end, or
  `none` when the log is not well formed: something constructed over a live object (a leak), or destroyed or assigned
  while not alive.
* A world is a list of containers; each is destroyed (`none`) or holds `some (alternative, value)` or nothing.
-/
namespace Verif.Sum.Spec

def replay : Option Nat → List Event → Option (Option Nat)
  | cur, [] => some cur
  | none, .ctor i :: l => replay (some i) l
  | some j, .dtor i :: l => if i = j then replay none l else none
  | some j, .assign i :: l => if i = j then replay (some j) l else none
  | _, _ => none

abbrev Content (α : Type u) := Option (Nat × α)
abbrev World (α : Type u) := List (Option (Content α))

/-- the contents of a container that has not been destroyed -/
def World.at? (w : World α) (b : Nat) : Option (Content α) := (w[b]?).getD none

end Verif.Sum.Spec
