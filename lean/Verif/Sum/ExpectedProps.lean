import Verif.Sum.Expected
import Verif.Sum.OptionalProps

/-!
# C33: expected
-/
namespace Verif.Sum.Expected
open Verif.Sum Spec

/-! ## Specification -/

/-- What each operation should do: alternative 0 is the value, alternative 1 the error. -/
def next (w : World α) : Op α → World α
  | .newValue v => w ++ [some (some (0, v))]
  | .newError e => w ++ [some (some (1, e))]
  | .copy b => w ++ [w.at? b]
  | .move b => w ++ [w.at? b]
  | .assign b v _ _ => w.set b (some (some (0, v)))
  | .assignError b e _ _ => w.set b (some (some (1, e)))
  | .emplace b v => w.set b (some (some (0, v)))
  | .destroy b => w.set b none

/-- the alternative held by `b` is `i` -/
def holds (w : World α) (b i : Nat) : Prop := (w.at? b).map (Option.map Prod.fst) = some (some i)

instance (w : World α) (b i : Nat) : Decidable (holds w b i) := inferInstanceAs (Decidable (_ = _))

/-- The objects used must exist.  Covered only: copying or moving from an `expected` whose current alternative is copy
constructible, and assigning something convertible to the alternative assigned (or assignable to it, when that is the
alternative already held). -/
def legal (k : Nat → Kind) (w : World α) : Op α → Prop
  | .newValue _ => True
  | .newError _ => True
  | .copy b => (w.at? b).isSome ∧ ∀ i, i < 2 → holds w b i → (k i).copyable = true
  | .move b => (w.at? b).isSome ∧ ∀ i, i < 2 → holds w b i → (k i).copyable = true
  | .assign b _ asg conv => (w.at? b).isSome ∧ (conv = true ∨ (asg = true ∧ holds w b 0))
  | .assignError b _ asg conv => (w.at? b).isSome ∧ (conv = true ∨ (asg = true ∧ holds w b 1))
  | .emplace b _ => (w.at? b).isSome
  | .destroy b => (w.at? b).isSome

def legalRun (k : Nat → Kind) (w : World α) : List (Op α) → Prop
  | [] => True
  | op :: ops => legal k w op ∧ legalRun k (next w op) ops

instance (k : Nat → Kind) (w : World α) (op : Op α) : Decidable (legal k w op) := by
  cases op <;> simp only [legal] <;> infer_instance

instance instLegalRun (k : Nat → Kind) : (w : World α) → (ops : List (Op α)) → Decidable (legalRun k w ops)
  | _, [] => inferInstanceAs (Decidable True)
  | w, op :: ops =>
    have := instLegalRun k (next w op) ops
    inferInstanceAs (Decidable (_ ∧ _))

def after (w : World α) (ops : List (Op α)) : World α := ops.foldl next w

/-! ## Invariant: always a value or an error -/

/-- a box holding content `c`, which is a value or an error -/
def Fine (x : Box α) (c : Content α) : Prop := x.ok ∧ x.slot.live = c ∧ ∃ i v, c = some (i, v) ∧ (i = 0 ∨ i = 1)

structure EInv (s : State α) : Prop where
  inv : Inv s
  only : ∀ (b : Nat) (x : Box α), s.get b = some x → Fine x x.slot.live

theorem cases_fine {x : Box α} {c : Content α} (h : Fine x c) :
    (∃ v, c = some (0, v) ∧ x.slot.live = some (0, v) ∧ hasValue x = true) ∨
    (∃ e, c = some (1, e) ∧ x.slot.live = some (1, e) ∧ hasValue x = false) := by
  obtain ⟨h1, h2, i, v, h3, h4⟩ := h
  have ht := h1.tag
  rw [h2, h3] at ht
  rcases h4 with rfl | rfl
  · exact Or.inl ⟨v, h3, h2.trans h3, by simp [hasValue, ← ht]⟩
  · exact Or.inr ⟨v, h3, h2.trans h3, by simp [hasValue, ← ht]⟩

theorem einv_put {s : State α} {b : Nat} {x y : Box α} {c : Content α} (hi : EInv s) (h : s.get b = some x)
    (hy : Fine y c) : EInv (s.put b y) ∧ (s.put b y).world = s.world.set b (some c) := by
  refine ⟨⟨inv_put hi.inv h hy.1, ?_⟩, by rw [world_put, hy.2.1]⟩
  intro d z hz
  rw [get_put h] at hz
  split at hz
  · simp at hz; subst hz; rw [hy.2.1]; exact hy
  · exact hi.only d z hz

theorem einv_push {s : State α} {y : Box α} {c : Content α} (hi : EInv s) (hy : Fine y c) :
    EInv (s.push y) ∧ (s.push y).world = s.world ++ [some c] := by
  refine ⟨⟨inv_push hi.inv hy.1, ?_⟩, by rw [world_push, hy.2.1]⟩
  intro d z hz
  rw [get_iff] at hz
  simp only [State.push, List.getElem?_append] at hz
  split at hz
  · exact hi.only d z (get_iff.mpr hz)
  · cases hn : d - s.boxes.length with
    | zero => simp [hn] at hz; subst hz; rw [hy.2.1]; exact hy
    | succ n => simp [hn] at hz

theorem fine_new (i : Nat) (v : α) (h : i = 0 ∨ i = 1) :
    Fine (⟨Slot.raw.construct i v, some i⟩ : Box α) (some (i, v)) :=
  ⟨⟨construct_good i v good_raw rfl, rfl⟩, rfl, i, v, rfl, h⟩

theorem destroyCurrent_ok {k : Nat → Kind} {x : Box α} {c : Content α} (h : Fine x c) :
    ∃ sl, destroyCurrent k x = some sl ∧ sl.good ∧ sl.live = none := by
  unfold destroyCurrent
  rcases cases_fine h with ⟨v, -, hl, hv⟩ | ⟨v, -, hl, hv⟩ <;>
    obtain ⟨g1, g2⟩ := destroy_live (k := k) h.1.good hl <;> exact ⟨_, by simp [hv, g1], g2, rfl⟩

theorem emplace_ok {k : Nat → Kind} {x : Box α} {c : Content α} (v : α) (h : Fine x c) :
    ∃ y, emplace k x v = some y ∧ Fine y (some (0, v)) := by
  obtain ⟨sl, h1, h2, h3⟩ := destroyCurrent_ok (k := k) h
  exact ⟨⟨sl.construct 0 v, some 0⟩, by simp [emplace, h1], ⟨construct_good 0 v h2 h3, rfl⟩, rfl, 0, v, rfl, Or.inl rfl⟩

/-- assignment over a live object of the same alternative, not necessarily convertible -/
theorem same_ok {k : Nat → Kind} {s : Slot α} {i : Nat} {v w : α} {asg conv : Bool} (hg : s.good)
    (hl : s.live = some (i, w)) (hr : conv = true ∨ asg = true) :
    ∃ s', s.assignmentHelper k i (.ext v) asg conv = some s' ∧ s'.good ∧ s'.live = some (i, v) := by
  cases asg with
  | true =>
    obtain ⟨s', g1, g2⟩ := assign_live (k := k) v hg hl
    exact ⟨s', by simp [Slot.assignmentHelper, Slot.read, g1], g2⟩
  | false =>
    obtain rfl : conv = true := by simpa using hr
    exact assignmentHelper_ok hg hl (Or.inl rfl)

theorem assignValue_ok {k : Nat → Kind} {x : Box α} {c : Content α} {v : α} {asg conv : Bool} (h : Fine x c)
    (hr : conv = true ∨ (asg = true ∧ hasValue x = true)) :
    ∃ y, assignValue k x (.ext v) asg conv = some y ∧ Fine y (some (0, v)) := by
  unfold assignValue Slot.assignOrInit
  rcases cases_fine h with ⟨w, -, hl, hv⟩ | ⟨w, -, hl, hv⟩
  · obtain ⟨s', g1, g2, g3⟩ := same_ok (k := k) (v := v) (asg := asg) (conv := conv) h.1.good hl (hr.imp id And.left)
    exact ⟨⟨s', some 0⟩, by simp [hv, g1], ⟨g2, by simp [g3]⟩, g3, 0, v, rfl, Or.inl rfl⟩
  · obtain rfl : conv = true := by simpa [hv] using hr
    obtain ⟨g1, g2⟩ := destroy_live (k := k) h.1.good hl
    obtain ⟨s', e1, e2, e3⟩ := directInit_ok (k := k) (i := 0) (v := v) g2 rfl
    exact ⟨⟨s', some 0⟩, by simp [hv, g1, e1], ⟨e2, by simp [e3]⟩, e3, 0, v, rfl, Or.inl rfl⟩

theorem assignError_ok {k : Nat → Kind} {x : Box α} {c : Content α} {v : α} {asg conv : Bool} (h : Fine x c)
    (hr : conv = true ∨ (asg = true ∧ hasValue x = false)) :
    ∃ y, assignError k x (.ext v) asg conv = some y ∧ Fine y (some (1, v)) := by
  unfold assignError Slot.assignOrInit
  rcases cases_fine h with ⟨w, -, hl, hv⟩ | ⟨w, -, hl, hv⟩
  · obtain rfl : conv = true := by simpa [hv] using hr
    obtain ⟨g1, g2⟩ := destroy_live (k := k) h.1.good hl
    obtain ⟨s', e1, e2, e3⟩ := directInit_ok (k := k) (i := 1) (v := v) g2 rfl
    exact ⟨⟨s', some 1⟩, by simp [hv, g1, e1], ⟨e2, by simp [e3]⟩, e3, 1, v, rfl, Or.inr rfl⟩
  · obtain ⟨s', g1, g2, g3⟩ := same_ok (k := k) (v := v) (asg := asg) (conv := conv) h.1.good hl (hr.imp id And.left)
    exact ⟨⟨s', some 1⟩, by simp [hv, g1], ⟨g2, by simp [g3]⟩, g3, 1, v, rfl, Or.inr rfl⟩

theorem copyCtor_ok {k : Nat → Kind} {y : Box α} {c : Content α} (h : Fine y c)
    (hc : ∀ i v, c = some (i, v) → (k i).copyable = true) : ∃ z, copyCtor k y = some z ∧ Fine z c := by
  unfold copyCtor
  rcases cases_fine h with ⟨w, hw, hl, hv⟩ | ⟨w, hw, hl, hv⟩
  · have := hc 0 w hw
    exact ⟨_, by simp [hv, this, Slot.read, hl], hw ▸ fine_new 0 w (Or.inl rfl)⟩
  · have := hc 1 w hw
    exact ⟨_, by simp [hv, this, Slot.read, hl], hw ▸ fine_new 1 w (Or.inr rfl)⟩

def StepOk (k : Nat → Kind) (s : State α) (op : Op α) : Prop :=
  ∃ s', step k s op = some s' ∧ EInv s' ∧ s'.world = next s.world op

theorem step_ok (k : Nat → Kind) (s : State α) (op : Op α) (hi : EInv s) (hl : legal k s.world op) : StepOk k s op := by
  have at_ : ∀ b, (s.world.at? b).isSome → ∃ x, s.get b = some x ∧ s.world.at? b = some x.slot.live := by
    intro b h
    obtain ⟨c, hc⟩ := Option.isSome_iff_exists.mp h
    obtain ⟨x, h1, h2⟩ := of_world hc
    exact ⟨x, h1, by rw [hc, h2]⟩
  have copy_ : ∀ b, (s.world.at? b).isSome ∧ (∀ i, i < 2 → holds s.world b i → (k i).copyable = true) →
      ∃ s', (match s.get b with | some y => (copyCtor k y).map s.push | none => none) = some s' ∧ EInv s' ∧
        s'.world = s.world ++ [s.world.at? b] := by
    intro b h
    obtain ⟨y, hy, hw⟩ := at_ b h.1
    obtain ⟨z, hz, fz⟩ := copyCtor_ok (k := k) (hi.only b y hy) (fun i v e => by
      obtain ⟨_, _, j, w, e2, e3⟩ := hi.only b y hy
      rw [e] at e2; simp at e2
      exact h.2 i (by omega) (by simp [holds, hw, e]))
    obtain ⟨h1, h2⟩ := einv_push hi fz
    exact ⟨_, by simp [hy, hz], h1, by rw [h2, hw]⟩
  have hv_ : ∀ b x, s.get b = some x → s.world.at? b = some x.slot.live →
      (holds s.world b 0 → hasValue x = true) ∧ (holds s.world b 1 → hasValue x = false) := by
    intro b x hx hw
    unfold holds
    rw [hw]
    rcases cases_fine (hi.only b x hx) with ⟨w, e, -, hv⟩ | ⟨w, e, -, hv⟩ <;> rw [e] <;> simp [hv]
  cases op with
  | newValue v =>
    obtain ⟨h1, h2⟩ := einv_push hi (fine_new 0 v (Or.inl rfl))
    exact ⟨_, rfl, h1, h2⟩
  | newError v =>
    obtain ⟨h1, h2⟩ := einv_push hi (fine_new 1 v (Or.inr rfl))
    exact ⟨_, rfl, h1, h2⟩
  | copy b => exact copy_ b hl
  | move b => exact copy_ b hl
  | assign b v asg conv =>
    obtain ⟨x, hx, hw⟩ := at_ b hl.1
    obtain ⟨z, hz, fz⟩ := assignValue_ok (k := k) (v := v) (asg := asg) (conv := conv) (hi.only b x hx)
      (hl.2.imp id (And.imp id (hv_ b x hx hw).1))
    obtain ⟨h1, h2⟩ := einv_put hi hx fz
    exact ⟨_, by simp [step, hx, hz], h1, h2⟩
  | assignError b v asg conv =>
    obtain ⟨x, hx, hw⟩ := at_ b hl.1
    obtain ⟨z, hz, fz⟩ := assignError_ok (k := k) (v := v) (asg := asg) (conv := conv) (hi.only b x hx)
      (hl.2.imp id (And.imp id (hv_ b x hx hw).2))
    obtain ⟨h1, h2⟩ := einv_put hi hx fz
    exact ⟨_, by simp [step, hx, hz], h1, h2⟩
  | emplace b v =>
    obtain ⟨x, hx, hw⟩ := at_ b hl
    obtain ⟨z, hz, fz⟩ := emplace_ok (k := k) v (hi.only b x hx)
    obtain ⟨h1, h2⟩ := einv_put hi hx fz
    exact ⟨_, by simp [step, hx, hz], h1, h2⟩
  | destroy b =>
    obtain ⟨x, hx, hw⟩ := at_ b hl
    obtain ⟨sl, hz, g1, g2⟩ := destroyCurrent_ok (k := k) (hi.only b x hx)
    refine ⟨_, by simp [step, hx, hz]; rfl, ⟨inv_bury hi.inv (by rw [g1, g2]; rfl), ?_⟩, world_bury _ _ _⟩
    intro d z hz
    rw [get_iff] at hz
    simp only [State.bury, List.getElem?_set] at hz
    split at hz
    · split at hz <;> simp at hz
    · exact hi.only d z (get_iff.mpr hz)

/-- What the observers report: exactly one of value and error is there. -/
def Reports (x : Box α) (c : Content α) : Prop :=
  (∃ v, c = some (0, v) ∧ hasValue x = true ∧ value x = some (.ok v) ∧ (∀ d, valueOr x d = some v) ∧ error x = none ∧
    replay none x.slot.log = some (some 0)) ∨
  (∃ e, c = some (1, e) ∧ hasValue x = false ∧ value x = some (.throws e) ∧ (∀ d, valueOr x d = some d) ∧
    error x = some e ∧ replay none x.slot.log = some (some 1))

theorem reports_of_fine {x : Box α} {c : Content α} (h : Fine x c) : Reports x c := by
  have hg := h.1.good
  unfold Slot.good at hg
  rcases cases_fine h with ⟨w, e, hl, hv⟩ | ⟨w, e, hl, hv⟩
  · exact Or.inl ⟨w, e, hv, by simp [value, hv, Slot.read, hl], fun d => by simp [valueOr, hv, Slot.read, hl],
      by simp [error, Slot.read, hl], by rw [hg, hl]; rfl⟩
  · exact Or.inr ⟨w, e, hv, by simp [value, hv, Slot.read, hl], fun d => by simp [valueOr, hv],
      by simp [error, Slot.read, hl], by rw [hg, hl]; rfl⟩

/-- **C33 (partial).** Over every history on any number of `expected`s, nothing undefined happens; each holds exactly
one of value and error, namely what the last operation put there; `has_value()`, `value()` (throwing the error),
`value_or()` and `error()` report it; objects are constructed and destroyed alternately, the one alive being the one
`has_value()` names, and a destroyed `expected` has destroyed everything it ever constructed.

Missing: copying or moving an `expected` whose current alternative is not copy constructible
(`copy_of_noncopyable_is_hollow`) and assigning what is only explicitly convertible (`explicit_assignment_is_lost`). -/
theorem expected_history_partial (k : Nat → Kind) (ops : List (Op α)) (hl : legalRun k [] ops) :
    ∃ s, run k State.init ops = some s ∧ s.world = after [] ops ∧
      (∀ (b : Nat) (c : Content α), (after [] ops).at? b = some c → ∃ x, s.get b = some x ∧ Reports x c) ∧
      (∀ l ∈ s.buried, replay none l = some none) := by
  have key : ∀ (ops : List (Op α)) (s : State α), EInv s → legalRun k s.world ops →
      ∃ s', run k s ops = some s' ∧ EInv s' ∧ s'.world = after s.world ops := by
    intro ops
    induction ops with
    | nil => exact fun s hi _ => ⟨s, rfl, hi, rfl⟩
    | cons op ops ih =>
      intro s hi hl
      obtain ⟨s1, h1, h2, h3⟩ := step_ok k s op hi hl.1
      obtain ⟨s2, g1, g2, g3⟩ := ih s1 h2 (by rw [h3]; exact hl.2)
      exact ⟨s2, by simp [run, h1, g1], g2, by rw [g3, h3]; rfl⟩
  obtain ⟨s, h1, h2, h3⟩ := key ops State.init
    ⟨inv_init, by intro b x h; simp [State.get, State.init, rd] at h⟩ hl
  refine ⟨s, h1, h3, ?_, h2.inv.buried⟩
  intro b c hc
  have h3' : s.world = after [] ops := h3
  rw [← h3'] at hc
  obtain ⟨x, hx, hlive⟩ := of_world hc
  exact ⟨x, hx, hlive ▸ reports_of_fine (h2.only b x hx)⟩

/-- Copying *or moving* an `expected` whose value type is not copy constructible (a move-only type, say) makes an object
that claims to have a value but contains nothing: reading it, or destroying it when `T` has a destructor, is undefined. -/
theorem copy_of_noncopyable_is_hollow (k : Nat → Kind) (y : Box α) (v : α) (hy : Fine y (some (0, v)))
    (hk : (k 0).copyable = false) :
    ∃ z, copyCtor k y = some z ∧ hasValue z = true ∧ value z = none ∧
      ((k 0).trivial = false → destroyCurrent k z = none) := by
  have hv : hasValue y = true := by
    rcases cases_fine hy with ⟨w, e, hl, hv⟩ | ⟨w, e, hl, hv⟩
    · exact hv
    · simp at e
  refine ⟨⟨Slot.raw, some 0⟩, by simp [copyCtor, hv, hk], rfl, rfl, fun ht => ?_⟩
  simp [destroyCurrent, hasValue, Slot.destroy, Slot.raw, ht]

/-- Assigning something only explicitly convertible to a trivial value type, while an error is held, destroys the error
and stores nothing, yet `has_value()` becomes true: the next `value()` reads uninitialised storage. -/
theorem explicit_assignment_is_lost (k : Nat → Kind) (x : Box α) (e v : α) (asg : Bool) (hx : Fine x (some (1, e)))
    (hk : (k 0).trivial = true) :
    ∃ y, assignValue k x (.ext v) asg false = some y ∧ hasValue y = true ∧ value y = none := by
  rcases cases_fine hx with ⟨w, e', hl, hv⟩ | ⟨w, e', hl, hv⟩
  · simp at e'
  · exact ⟨⟨⟨none, x.slot.log ++ [.dtor 1]⟩, some 0⟩,
      by simp [assignValue, hv, Slot.assignOrInit, Slot.destroy, hl, Slot.directInit, hk], rfl, rfl⟩

/-! ### The hypotheses are met -/

/-- the value is a class with a destructor, the error an integer -/
def kinds : Nat → Kind
  | 0 => ⟨false, true, true⟩
  | _ => ⟨true, true, true⟩

def sample : List (Op Nat) :=
  [.newValue 5, .newError 1, .copy 0, .assignError 0 3 true true, .assign 0 8 true true, .assign 1 4 false true,
   .emplace 2 9, .move 1, .assignError 1 2 true true, .assignError 1 6 true false, .destroy 2, .destroy 1]

example : legalRun kinds [] sample := by decide

example : after [] sample = [some (some (0, 8)), none, none, some (some (0, 4))] := by decide

example : (run kinds State.init sample).map (fun s => s.buried) =
    some [[.ctor 0, .dtor 0, .ctor 0, .dtor 0],
      [.ctor 1, .dtor 1, .ctor 0, .dtor 0, .ctor 1, .assign 1, .dtor 1]] := by decide

example : Fine (⟨Slot.raw.construct 1 7, some 1⟩ : Box Nat) (some (1, 7)) := fine_new 1 7 (Or.inr rfl)

end Verif.Sum.Expected
