import Verif.Sum.Layer1

/-!
# C83: comparing and hashing optionals

Modelled from `src/estd/optional.h:396-458` (comparisons of an optional with a value, the hash of an optional),
`src/estd/internal/raw/variant.h:8-17` (`monostate`) and `src/estd/internal/functional/hash.h:172-182, 201-202` (the hash
of an integer).  The optionals are those of C32: `Sum.Optional` (storage and flag) and `Sum.Layer1` (sentinel value, bit
field).  Comparing two optionals with anything but `==` instantiates `*opt < other` with `other` an optional, which names
no operator: those do not compile before C++20 and are outside.
-/
namespace Verif.Sum.Optional
open Verif.Sum.Spec

/-- the operators of the value type that the templates call on `*opt` and `value` -/
structure Ops (α : Type u) where
  eq : α → α → Bool
  ne : α → α → Bool
  lt : α → α → Bool
  le : α → α → Bool
  gt : α → α → Bool
  ge : α → α → Bool

/-- `operator!=(optional, value)`, optional.h:417-421 -/
def neValue (o : Ops α) (x : Box α) (v : α) : Option Bool :=
  if hasValue x then (x.slot.read (.own 0)).map (o.ne · v) else some true

/-- `operator>(optional, value)`, optional.h:424-428: `opt && *opt > value` -/
def gtValue (o : Ops α) (x : Box α) (v : α) : Option Bool :=
  if hasValue x then (x.slot.read (.own 0)).map (o.gt · v) else some false

/-- `operator<(optional, value)`, optional.h:431-435: `opt && *opt < value` -/
def ltValue (o : Ops α) (x : Box α) (v : α) : Option Bool :=
  if hasValue x then (x.slot.read (.own 0)).map (o.lt · v) else some false

/-- `operator<=(optional, value)`, optional.h:437-441: `opt && *opt <= value` -/
def leValue (o : Ops α) (x : Box α) (v : α) : Option Bool :=
  if hasValue x then (x.slot.read (.own 0)).map (o.le · v) else some false

/-- `operator>=(optional, value)`, optional.h:443-447: `opt && *opt >= value` -/
def geValue (o : Ops α) (x : Box α) (v : α) : Option Bool :=
  if hasValue x then (x.slot.read (.own 0)).map (o.ge · v) else some false

/-- `hash<optional<T>>`, optional.h:449-458: the hash of `*v`, whether or not there is a value; `none` is the read of an
object that does not exist -/
def hashOpt (h : α → BitVec w) (x : Box α) : Option (BitVec w) := (x.slot.read (.own 0)).map h

/-! ## Specification -/

/-- `lt` is a strict total order and the six operators are those of it -/
structure Spec.Ordered (o : Ops α) : Prop where
  eq_iff : ∀ a b, o.eq a b = true ↔ a = b
  irrefl : ∀ a, o.lt a a = false
  trans : ∀ a b c, o.lt a b = true → o.lt b c = true → o.lt a c = true
  total : ∀ a b, o.lt a b = true ∨ a = b ∨ o.lt b a = true
  ne_iff : ∀ a b, o.ne a b = !o.eq a b
  gt_iff : ∀ a b, o.gt a b = o.lt b a
  le_iff : ∀ a b, o.le a b = !o.lt b a
  ge_iff : ∀ a b, o.ge a b = !o.lt a b

/-- the order of the C++ standard: an empty optional comes before every value -/
def Spec.lt (lt : α → α → Bool) (c : Option α) (v : α) : Bool :=
  match c with
  | none => true
  | some a => lt a v

/-- … and no value comes before an empty optional -/
def Spec.gt (lt : α → α → Bool) (c : Option α) (v : α) : Bool :=
  match c with
  | none => false
  | some a => lt v a

/-! ## After any history -/

/-- the comparisons of optional `x`, which holds `c`, with every value -/
def Compares (o : Ops α) (x : Box α) (c : Option α) : Prop :=
  (∀ v, ∃ b, eqValue o.eq x v = some b ∧ (b = true ↔ c = some v)) ∧
  (∀ v, ∃ b, neValue o x v = some b ∧ (b = true ↔ c ≠ some v)) ∧
  (∀ v, gtValue o x v = some (Spec.gt o.lt c v)) ∧
  (∀ v, ∃ b, geValue o x v = some b ∧ (b = true ↔ Spec.gt o.lt c v = true ∨ c = some v)) ∧
  (c ≠ none → ∀ v, ltValue o x v = some (Spec.lt o.lt c v)) ∧
  (c ≠ none → ∀ v, ∃ b, leValue o x v = some b ∧ (b = true ↔ Spec.lt o.lt c v = true ∨ c = some v))

theorem fine_cases {x : Box α} {c : Content α} (h : Fine x c) :
    (∃ a, c = some (0, a) ∧ hasValue x = true ∧ x.slot.read (.own 0) = some a) ∨
    (c = none ∧ hasValue x = false ∧ x.slot.read (.own 0) = none) := by
  obtain ⟨h1, h2⟩ := hasValue_iff h.1 (fun p hp => h.2.2 p (h.2.1 ▸ hp))
  cases hv : hasValue x with
  | true =>
    obtain ⟨v, hl⟩ := h1.mp hv
    exact .inl ⟨v, by rw [← h.2.1, hl], rfl, by simp [Slot.read, hl]⟩
  | false =>
    have hl := h2.mp hv
    exact .inr ⟨by rw [← h.2.1, hl], rfl, by simp [Slot.read, hl]⟩

theorem compares_of_fine {o : Ops α} (ho : Spec.Ordered o) {x : Box α} {c : Content α} (h : Fine x c) :
    Compares o x (c.map Prod.snd) := by
  have asym : ∀ a b, o.lt a b = true → o.lt b a = false := by
    intro a b hab
    cases hba : o.lt b a with
    | false => rfl
    | true => have := ho.trans _ _ _ hab hba; rw [ho.irrefl] at this; cases this
  have geq : ∀ a v, (!o.lt a v) = true ↔ o.lt v a = true ∨ a = v := by
    intro a v
    rcases ho.total a v with h | h | h
    · have h' := asym _ _ h
      have : a ≠ v := by rintro rfl; rw [ho.irrefl] at h; cases h
      simp [h, h', this]
    · subst h; simp [ho.irrefl]
    · have h' := asym _ _ h
      simp [h, h']
  rcases fine_cases h with ⟨a, rfl, hv, hr⟩ | ⟨rfl, hv, hr⟩
  · refine ⟨fun v => ⟨o.eq a v, by simp [eqValue, hv, hr], ?_⟩, fun v => ⟨o.ne a v, by simp [neValue, hv, hr], ?_⟩,
      fun v => ?_, fun v => ⟨o.ge a v, by simp [geValue, hv, hr], ?_⟩, fun _ v => ?_,
      fun _ v => ⟨o.le a v, by simp [leValue, hv, hr], ?_⟩⟩
    · simp [ho.eq_iff]
    · have := ho.eq_iff a v
      rw [ho.ne_iff]
      simp [← this]
    · simp [gtValue, hv, hr, Spec.gt, ho.gt_iff]
    · rw [ho.ge_iff, geq]; simp [Spec.gt]
    · simp [ltValue, hv, hr, Spec.lt]
    · rw [ho.le_iff, geq]; simp [Spec.lt, show v = a ↔ a = v from eq_comm]
  · refine ⟨fun v => ⟨false, by simp [eqValue, hv], by simp⟩, fun v => ⟨true, by simp [neValue, hv], by simp⟩,
      fun v => by simp [gtValue, hv, Spec.gt], fun v => ⟨false, by simp [geValue, hv], by simp [Spec.gt]⟩,
      fun hn => absurd rfl hn, fun hn => absurd rfl hn⟩

/-- **C83 (partial).** After every history of C32, comparing an optional with a value answers: `==` and `!=` whether it
holds that value, `>` and `>=` the order in which an empty optional comes first; `<` and `<=` that order too for an
optional that has a value.

Missing: `<` and `<=` of an empty optional (`empty_not_less`). -/
theorem compare_history_partial {o : Ops α} (ho : Spec.Ordered o) (t : Kind) (gut : α → α) (ops : List (Op α))
    (hl : legalRun t gut [] ops) :
    ∃ s, run t gut State.init ops = some s ∧
      ∀ (b : Nat) (c : Content α), (after gut [] ops).at? b = some c → ∃ x, s.get b = some x ∧
        Compares o x (c.map Prod.snd) := by
  have key : ∀ (ops : List (Op α)) (s : State α), OInv s → legalRun t gut s.world ops →
      ∃ s', run t gut s ops = some s' ∧ OInv s' ∧ s'.world = after gut s.world ops := by
    intro ops
    induction ops with
    | nil => exact fun s hi _ => ⟨s, rfl, hi, rfl⟩
    | cons op ops ih =>
      intro s hi hl
      obtain ⟨s1, h1, h2, h3⟩ := step_ok t gut s op hi hl.1
      obtain ⟨s2, g1, g2, g3⟩ := ih s1 h2 (by rw [h3]; exact hl.2)
      exact ⟨s2, by simp [run, h1, g1], g2, by rw [g3, h3]; rfl⟩
  obtain ⟨s, h1, h2, h3⟩ := key ops State.init
    ⟨inv_init, by intro b x p h; simp [State.get, State.init, rd] at h⟩ hl
  refine ⟨s, h1, ?_⟩
  intro b c hc
  have h3' : s.world = after gut [] ops := h3
  rw [← h3'] at hc
  obtain ⟨x, hx, hlive⟩ := of_world hc
  exact ⟨x, hx, compares_of_fine ho (hlive ▸ fine_of h2 hx)⟩

/-- **Violation.** An empty optional is neither less than a value, nor equal to it, nor greater, for every value: sorting
and searching by these operators see it as equivalent to everything.  The order of the standard puts it first. -/
theorem empty_not_less (o : Ops α) (x : Box α) (hx : Fine x none) (v : α) :
    ltValue o x v = some false ∧ leValue o x v = some false ∧ gtValue o x v = some false ∧
    geValue o x v = some false ∧ eqValue o.eq x v = some false ∧ Spec.lt o.lt none v = true := by
  rcases fine_cases hx with ⟨a, h, _⟩ | ⟨_, hv, _⟩
  · cases h
  · simp [ltValue, leValue, gtValue, geValue, eqValue, hv, Spec.lt]

/-- The hash of an optional with a value is the hash of the value, so that optionals that are equal and have a value hash
equally.

Missing: empty optionals (`hash_empty_ub`). -/
theorem hash_partial [DecidableEq α] (h : α → BitVec w) (x y : Box α) (c d : Content α) (hx : Fine x c) (hy : Fine y d)
    (hc : c ≠ none) :
    hashOpt h x = (c.map (h ·.2)) ∧
    (eqOpt (fun a b => decide (a = b)) x y = some true → hashOpt h x = hashOpt h y) := by
  have e := (eq_spec x y c d hx hy)
  rcases fine_cases hx with ⟨a, rfl, hv, hr⟩ | ⟨rfl, _⟩
  · refine ⟨by simp [hashOpt, hr], fun heq => ?_⟩
    rcases fine_cases hy with ⟨b, rfl, hw, hs⟩ | ⟨rfl, hw, hs⟩
    · simp [eqOpt, hv, hw, hr, hs] at heq
      simp [hashOpt, hr, hs, heq]
    · simp [eqOpt, hv, hw] at heq
  · exact absurd rfl hc

/-- **Violation.** Hashing any empty optional reads an object that does not exist. -/
theorem hash_empty_ub (h : α → BitVec w) (x : Box α) (hx : Fine x none) : hashOpt h x = none := by
  rcases fine_cases hx with ⟨a, h, _⟩ | ⟨_, _, hr⟩
  · cases h
  · simp [hashOpt, hr]

/-! ### The hypotheses are met -/

def intOps : Ops Int :=
  ⟨fun a b => decide (a = b), fun a b => decide (a ≠ b), fun a b => decide (a < b), fun a b => decide (a ≤ b),
    fun a b => decide (a > b), fun a b => decide (a ≥ b)⟩

theorem intOps_ordered : Spec.Ordered intOps where
  eq_iff := by simp [intOps]
  irrefl := by simp [intOps]
  trans := by simp only [intOps, decide_eq_true_eq]; intros; omega
  total := by simp only [intOps, decide_eq_true_eq]; intros; omega
  ne_iff := by simp [intOps]
  gt_iff := by simp [intOps]
  le_iff := by intro a b; simp only [intOps]; by_cases h : b < a <;> simp [h] <;> omega
  ge_iff := by intro a b; simp only [intOps]; by_cases h : a < b <;> simp [h] <;> omega

example : Fine (⟨Slot.raw.construct 0 5, some 0⟩ : Box Nat) (some (0, 5)) := fine_value 5
example : Fine (⟨Slot.raw, none⟩ : Box Nat) none := fine_new

end Verif.Sum.Optional

namespace Verif.Sum.Layer1

/-! ## The `layer1` flavours -/

/-- `operator<(optional, value)` of a `layer1` optional that shows as `c`, optional.h:431-435 -/
def ltValue (lt : α → α → Bool) (c : Option α) (v : α) : Bool :=
  match c with
  | some a => lt a v
  | none => false

/-- `operator==(optional, value)`, optional.h:396-400 -/
def eqValue [DecidableEq α] (c : Option α) (v : α) : Bool :=
  match c with
  | some a => decide (a = v)
  | none => false

/-- `operator==(optional, optional)`, optional.h:409-415 -/
def eqOpt [DecidableEq α] (c d : Option α) : Bool :=
  match c, d with
  | some a, some b => decide (a = b)
  | none, none => true
  | _, _ => false

/-- **Violation.** As for the ordinary optional, an empty one is not less than any value. -/
theorem layer1_empty_not_less [DecidableEq α] (lt : α → α → Bool) (v : α) :
    ltValue lt none v = false ∧ eqValue none v = false ∧ Optional.Spec.lt lt none v = true := ⟨rfl, rfl, rfl⟩

/-- With a value the comparisons are those of the value. -/
theorem layer1_compares [DecidableEq α] (lt : α → α → Bool) (a v : α) :
    ltValue lt (some a) v = Optional.Spec.lt lt (some a) v ∧ (eqValue (some a) v = true ↔ a = v) := by
  simp [ltValue, eqValue, Optional.Spec.lt]

namespace Sentinel

/-- `hash<optional<T>>`, optional.h:449-458, over the stored value -/
def hashOpt (h : α → BitVec w) (stored : α) : BitVec w := h stored

/-- Sentinel optionals that are equal hash equally, empty or not, whatever they hold, and one that has a value hashes as
that value. -/
theorem sentinel_hash [DecidableEq α] (h : α → BitVec w) (null a b : α) :
    (eqOpt (view null a) (view null b) = true → hashOpt h a = hashOpt h b) ∧
    (∀ v, view null a = some v → hashOpt h a = h v) := by
  refine ⟨fun e => ?_, fun v hv => by
    unfold view at hv
    cases ha : hasValue null a <;> simp [ha] at hv
    rw [hashOpt, hv]⟩
  unfold view hasValue at e
  by_cases ha : a = null
  · by_cases hb : b = null
    · rw [ha, hb]
    · simp [ha, hb, eqOpt] at e
  · by_cases hb : b = null
    · simp [ha, hb, eqOpt] at e
    · simp [ha, hb, eqOpt] at e
      rw [e]

/-- A sentinel optional is never equal to its null value, even right after that value was assigned to it. -/
theorem never_equals_null [DecidableEq α] (null s : α) :
    eqValue (view null (step null s (.assign null))) null = false := by
  simp [assign_null_empties, eqValue]

end Sentinel

namespace Bits

/-- `hash<optional<T>>`, optional.h:449-458, over the bit field -/
def hashOpt (h : Nat → BitVec w) (f : Field) : BitVec w := h f.value

/-- **Violation.** Two empty bit field optionals are equal and hash differently when what was last stored differs: the
value outlives `reset()`. -/
theorem bits_hash_differs (bits : Nat) (h : Nat → BitVec w) (junk a b : Nat) (ha : a < 2 ^ bits) (hb : b < 2 ^ bits)
    (hd : h a ≠ h b) :
    eqOpt (view ([Op.assign a, .reset].foldl (step bits) (init bits junk)))
      (view ([Op.assign b, .reset].foldl (step bits) (init bits junk))) = true ∧
    hashOpt h ([Op.assign a, .reset].foldl (step bits) (init bits junk)) ≠
      hashOpt h ([Op.assign b, .reset].foldl (step bits) (init bits junk)) := by
  simp [step, view, eqOpt, hashOpt, Nat.mod_eq_of_lt ha, Nat.mod_eq_of_lt hb, hd]

/-- Bit field optionals with a value that are equal hash equally. -/
theorem bits_hash_engaged (h : Nat → BitVec w) (f g : Field) (hf : f.hasValue = true)
    (e : eqOpt (view f) (view g) = true) : hashOpt h f = hashOpt h g := by
  unfold view at e
  cases hg : g.hasValue <;> simp [hf, hg, eqOpt] at e
  rw [hashOpt, e, hashOpt]

example : (fun n => BitVec.ofNat 64 n) 1 ≠ (fun n => BitVec.ofNat 64 n) 0 := by decide

end Bits

/-! ## `monostate`, internal/raw/variant.h:8-17 -/

/-- `operator==(monostate, monostate)`, variant.h:10 -/
def monoEq (_ _ : Unit) : Bool := true
/-- `operator!=(monostate, monostate)`, variant.h:11 -/
def monoNe (_ _ : Unit) : Bool := true
/-- `hash<monostate>`, variant.h:13-17 -/
def monoHash (_ : Unit) : BitVec w := 0

/-- Two `monostate`s are equal and hash equally. -/
theorem monostate_eq (a b : Unit) : (monoEq a b = true ↔ a = b) ∧ (monoHash a : BitVec w) = monoHash b := ⟨by simp [monoEq], rfl⟩

/-- **Violation.** Any two `monostate`s, which are equal, also compare different. -/
theorem monostate_ne_wrong (a b : Unit) : monoEq a b = true ∧ monoNe a b = true := ⟨rfl, rfl⟩

/-! ## Hash of an integer -/

/-- `integral_hash::operator()`, hash.h:172-182, `static_cast<size_t>(v)` with a `size_t` of `n` bits, for a type of `w`
bits -/
def integralHash (signed : Bool) (n : Nat) (v : BitVec w) : BitVec n := if signed then v.signExtend n else v.setWidth n

/-- Different integers have different hashes, for every type no wider than `size_t`, signed or not. -/
theorem integral_hash_injective (signed : Bool) (n : Nat) (hw : w ≤ n) (a b : BitVec w)
    (h : integralHash signed n a = integralHash signed n b) : a = b := by
  apply BitVec.eq_of_getLsbD_eq
  intro i hi
  have := congrArg (fun x => BitVec.getLsbD x i) h
  cases signed
  · simpa [integralHash, BitVec.getLsbD_setWidth, show i < n by omega] using this
  · simp only [integralHash, if_true, BitVec.getLsbD_signExtend, show i < n by omega, hi, decide_true, Bool.true_and] at this
    exact this

/-- Integers wider than `size_t` collide exactly when their low bits agree: a 64 bit key differing only above bit 31 has the
hash of the other on a 32 bit platform. -/
theorem integral_hash_collides (signed : Bool) (n : Nat) (hw : n < w) (a b : BitVec w) :
    integralHash signed n a = integralHash signed n b ↔ ∀ i < n, a.getLsbD i = b.getLsbD i := by
  have low : ∀ (v : BitVec w) (i : Nat), i < n → (integralHash signed n v).getLsbD i = v.getLsbD i := by
    intro v i hi
    cases signed
    · simp [integralHash, BitVec.getLsbD_setWidth, hi]
    · simp only [integralHash, if_true, BitVec.getLsbD_signExtend, hi, show i < w by omega, decide_true, Bool.true_and]
  constructor
  · intro h i hi
    rw [← low a i hi, ← low b i hi, h]
  · intro h
    apply BitVec.eq_of_getLsbD_eq
    intro i hi
    rw [low a i hi, low b i hi, h i hi]

example : integralHash false 32 (0x100000007#64) = integralHash false 32 (7#64) := by decide

end Verif.Sum.Layer1
