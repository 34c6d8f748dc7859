import Verif.Unordered.Model
/-!
# What a user expects of an unordered map or set of bounded capacity

The abstract state is a partial function from keys to values.  Nothing here mentions slots, buckets
or erasure marks.
-/

namespace Verif.Unordered

/-- Operations of a map.  `sub k` is `m[k]` used to read the value. -/
inductive Op (K V : Type) where
  | insert (k : K) (v : V)
  | assign (k : K) (v : V)
  | sub (k : K)
  | erase (k : K)
  | clear
  | find (k : K)
  | contains (k : K)
  | count (k : K)
  | size
  | isEmpty

/-- What the caller observes. -/
inductive Out (V : Type) where
  /-- a new element was made; the value is what the returned iterator shows -/
  | inserted (v : V)
  /-- the key was already there; the value is what the returned iterator shows -/
  | present (v : V)
  /-- nothing inserted and no element to point at -/
  | refused
  /-- a lookup: the value, or nothing -/
  | value (v : Option V)
  | number (n : Nat)
  | truth (b : Bool)
  | done
deriving DecidableEq

namespace Spec
variable {K V : Type} [DecidableEq K]

/-- Change one entry of a map. -/
def upd (m : K → Option V) (k : K) (v : Option V) : K → Option V :=
  fun k' => if k' = k then v else m k'

/-- `m` has exactly `n` entries. -/
def Card (m : K → Option V) (n : Nat) : Prop :=
  ∃ l : List K, l.Nodup ∧ (∀ k, k ∈ l ↔ m k ≠ none) ∧ n = l.length

/-- One operation of a map of bounded capacity: given the map before, the operation and what the
caller saw, the map afterwards.  Inserting an absent key may be refused (capacity); nothing else
may go wrong.  `insert` never changes an existing entry, `assign` replaces it, `m[k]` makes an
entry with an unspecified value when there is none. -/
def Step (m : K → Option V) : Op K V → Out V → (K → Option V) → Prop
  | .insert k v, .inserted w, m' => m k = none ∧ w = v ∧ m' = upd m k (some v)
  | .insert k _, .present w, m' => m k = some w ∧ m' = m
  | .insert k _, .refused, m' => m k = none ∧ m' = m
  | .assign k v, .inserted w, m' => w = v ∧ m' = upd m k (some v)
  | .assign k _, .refused, m' => m k = none ∧ m' = m
  | .sub k, .value (some w), m' => m k = some w ∧ m' = m ∨ m k = none ∧ m' = upd m k (some w)
  | .erase k, .number 1, m' => m k ≠ none ∧ m' = upd m k none
  | .erase k, .number 0, m' => m k = none ∧ m' = m
  | .clear, .done, m' => m' = fun _ => none
  | .find k, .value r, m' => r = m k ∧ m' = m
  | .contains k, .truth b, m' => b = (m k).isSome ∧ m' = m
  | .count k, .number n, m' => n = (if m k = none then 0 else 1) ∧ m' = m
  | .size, .number n, m' => Card m n ∧ m' = m
  | .isEmpty, .truth b, m' => (b = true ↔ ∀ k, m k = none) ∧ m' = m
  | _, _, _ => False

/-- A whole history with what was observed. -/
def Run : (K → Option V) → List (Op K V) → List (Out V) → (K → Option V) → Prop
  | m, [], [], m' => m' = m
  | m, o :: os, r :: rs, m' => ∃ m1, Step m o r m1 ∧ Run m1 os rs m'
  | _, _, _, _ => False

end Spec

/-! ## Running a history on the model -/

section
variable {K V : Type} [DecidableEq K]

/-- The value in slot `i`. -/
def rawAt (s : Slots K V) (i : Nat) : Option V := (s[i]?).map (·.raw)

/-- How the caller of an inserting operation sees its `pair<iterator, bool>`. -/
def seen (s : Slots K V) : InsRes → Option (Out V)
  | (some i, true) => (rawAt s i).map .inserted
  | (some i, false) => (rawAt s i).map .present
  | (none, _) => some .refused

/-- One operation on the model; `none` = undefined behaviour. -/
def step (e : Env K V) (s : Slots K V) : Op K V → Option (Slots K V × Out V)
  | .insert k v =>
    match insert e s k v with
    | none => none
    | some (s', r) => (seen s' r).map (s', ·)
  | .assign k v =>
    match insertOrAssign e s k v with
    | none => none
    | some (s', r) => (seen s' r).map (s', ·)
  | .sub k =>
    match subscript e s k with
    | none => none
    | some (s', i) => (rawAt s' i).map fun v => (s', .value (some v))
  | .erase k => (erase e s k).map fun (s', n) => (s', .number n)
  | .clear => some (clear e s, .done)
  | .find k => (lookup e s k).map fun r => (s, .value r)
  | .contains k => (contains e s k).map fun b => (s, .truth b)
  | .count k => (count e s k).map fun n => (s, .number n)
  | .size => some (s, .number (size e s))
  | .isEmpty => some (s, .truth (empty e s))

/-- A history on the model. -/
def run (e : Env K V) (s : Slots K V) : List (Op K V) → Option (Slots K V × List (Out V))
  | [] => some (s, [])
  | o :: os =>
    match step e s o with
    | none => none
    | some (s', r) => (run e s' os).map fun (t, rs) => (t, r :: rs)

/-- One operation of a set (unordered_set.h): `insert`, `erase` and the shared observers.  The
remaining map operations do not exist on a set. -/
def setStep (e : Env K Unit) (s : Slots K Unit) : Op K Unit → Option (Slots K Unit × Out Unit)
  | .insert k v => step e s (.insert k v)
  | .erase k => (setErase e s k).map fun (s', n) => (s', .number n)
  | .contains k => step e s (.contains k)
  | .count k => step e s (.count k)
  | .size => step e s .size
  | .isEmpty => step e s .isEmpty
  | _ => none

def setRun (e : Env K Unit) (s : Slots K Unit) :
    List (Op K Unit) → Option (Slots K Unit × List (Out Unit))
  | [] => some (s, [])
  | o :: os =>
    match setStep e s o with
    | none => none
    | some (s', r) => (setRun e s' os).map fun (t, rs) => (t, r :: rs)

/-! ## Where elements are -/

/-- Slot `p` holds the element `k ↦ v`. -/
def At (e : Env K V) (s : Slots K V) (p : Nat) (k : K) (v : V) : Prop :=
  s[p]? = some ⟨k, v⟩ ∧ k ≠ e.null

/-- An insertion of `k` would *clobber*: the slot it takes lies in the middle of elements that were
placed before an erasure, and one of those behind it either belongs to another bucket or is `k`
itself. -/
def Clobbers (e : Env K V) (s : Slots K V) (k : K) : Prop :=
  ∃ i p k' v', precheck e s k = some (.fresh i) ∧ At e s p k' v' ∧ i < p ∧
    index e s.length k' ≤ i ∧ (index e s.length k' ≠ index e s.length k ∨ k' = k)

/-- Slot `p` holds the last element of its bucket. -/
def LastOfBucket (e : Env K V) (s : Slots K V) (p : Nat) (k : K) : Prop :=
  ∀ p' k' v', At e s p' k' v' → index e s.length k' = index e s.length k → p' ≤ p

/-- Operations that insert do not clobber (`insert_or_assign` and `[]` insert only keys that a lookup
does not find), and an erased element that is not the last of its bucket has a bucket number that
fits the six bits reserved for it. -/
def Clean (e : Env K V) (s : Slots K V) : Op K V → Prop
  | .insert k _ => ¬ Clobbers e s k
  | .assign k _ => find e s k = some none → ¬ Clobbers e s k
  | .sub k => find e s k = some none → ¬ Clobbers e s k
  | .erase k => index e s.length k < 64 ∨ ∀ p v, At e s p k v → LastOfBucket e s p k
  | _ => True

/-- Along the history, every operation is clean. -/
def CleanRun (e : Env K V) : Slots K V → List (Op K V) → Prop
  | _, [] => True
  | s, o :: os => Clean e s o ∧ ∀ s' r, step e s o = some (s', r) → CleanRun e s' os

end
end Verif.Unordered
