import Verif.Sum.Optional
import Verif.Sum.Lemmas

/-!
# C32: optional
-/
namespace Verif.Sum.Optional
open Verif.Sum Spec

/-! ## Specification -/

/-- a moved-from content -/
def moved (gut : α → α) (c : Content α) : Content α := c.map fun p => (p.1, gut p.2)

/-- What each operation should do to the world of optionals. -/
def next (gut : α → α) (w : World α) : Op α → World α
  | .new => w ++ [some none]
  | .newValue v => w ++ [some (some (0, v))]
  | .copy b => w ++ [w.at? b]
  | .move b => w.set b ((w.at? b).map (moved gut)) ++ [w.at? b]
  | .assign b v => w.set b (some (some (0, v)))
  | .assignCopy b c => w.set b (w.at? c)
  | .assignMove b c => (w.set b (w.at? c)).set c ((w.at? c).map (moved gut))
  | .emplace b v => w.set b (some (some (0, v)))
  | .reset b => w.set b (some none)
  | .destroy b => w.set b none

/-- Optionals used must exist.  Assigning a non-empty optional to itself is covered only when `T` is assignable (see
`self_assign_undefined`). -/
def legal (t : Kind) (w : World α) : Op α → Prop
  | .new => True
  | .newValue _ => True
  | .copy b => (w.at? b).isSome
  | .move b => (w.at? b).isSome
  | .assign b _ => (w.at? b).isSome
  | .assignCopy b c => (w.at? b).isSome ∧ (w.at? c).isSome ∧ (b = c → t.assignable = true ∨ w.at? b = some none)
  | .assignMove b c => (w.at? b).isSome ∧ (w.at? c).isSome ∧ (b = c → t.assignable = true ∨ w.at? b = some none)
  | .emplace b _ => (w.at? b).isSome
  | .reset b => (w.at? b).isSome
  | .destroy b => (w.at? b).isSome

def legalRun (t : Kind) (gut : α → α) (w : World α) : List (Op α) → Prop
  | [] => True
  | op :: ops => legal t w op ∧ legalRun t gut (next gut w op) ops

instance [DecidableEq α] (t : Kind) (w : World α) (op : Op α) : Decidable (legal t w op) := by
  cases op <;> simp only [legal] <;> infer_instance

instance instLegalRun [DecidableEq α] (t : Kind) (gut : α → α) :
    (w : World α) → (ops : List (Op α)) → Decidable (legalRun t gut w ops)
  | _, [] => inferInstanceAs (Decidable True)
  | w, op :: ops =>
    have := instLegalRun t gut (next gut w op) ops
    inferInstanceAs (Decidable (_ ∧ _))

def after (gut : α → α) (w : World α) (ops : List (Op α)) : World α := ops.foldl (next gut) w

/-! ## Invariant: an optional is empty or holds alternative 0 -/

structure OInv (s : State α) : Prop where
  inv : Inv s
  only : ∀ (b : Nat) (x : Box α) (p : Nat × α), s.get b = some x → x.slot.live = some p → p.1 = 0

theorem hasValue_iff {x : Box α} (h : x.ok) (h0 : ∀ p, x.slot.live = some p → p.1 = 0) :
    (hasValue x = true ↔ ∃ v, x.slot.live = some (0, v)) ∧ (hasValue x = false ↔ x.slot.live = none) := by
  have ht := h.tag
  unfold hasValue
  cases hl : x.slot.live with
  | none => rw [hl] at ht; simp [← ht]
  | some p =>
    have := h0 p hl
    obtain ⟨i, v⟩ := p
    simp only at this; subst this
    rw [hl] at ht
    simp [← ht]

def StepOk (t : Kind) (gut : α → α) (s : State α) (op : Op α) : Prop :=
  ∃ s', step t gut s op = some s' ∧ OInv s' ∧ s'.world = next gut s.world op

/-- a box holding nothing, or alternative 0 -/
def Fine (x : Box α) (c : Content α) : Prop := x.ok ∧ x.slot.live = c ∧ ∀ p, c = some p → p.1 = 0

theorem oinv_put {s : State α} {b : Nat} {x y : Box α} {c : Content α} (hi : OInv s) (h : s.get b = some x)
    (hy : Fine y c) : OInv (s.put b y) ∧ (s.put b y).world = s.world.set b (some c) := by
  refine ⟨⟨inv_put hi.inv h hy.1, ?_⟩, by rw [world_put, hy.2.1]⟩
  intro d z p hz hl
  rw [get_put h] at hz
  split at hz
  · simp at hz; subst hz; exact hy.2.2 p (hy.2.1 ▸ hl)
  · exact hi.only d z p hz hl

theorem oinv_push {s : State α} {y : Box α} {c : Content α} (hi : OInv s) (hy : Fine y c) :
    OInv (s.push y) ∧ (s.push y).world = s.world ++ [some c] := by
  refine ⟨⟨inv_push hi.inv hy.1, ?_⟩, by rw [world_push, hy.2.1]⟩
  intro d z p hz hl
  rw [get_iff] at hz
  simp only [State.push, List.getElem?_append] at hz
  split at hz
  · exact hi.only d z p (get_iff.mpr hz) hl
  · cases hn : d - s.boxes.length with
    | zero => simp [hn] at hz; subst hz; exact hy.2.2 p (hy.2.1 ▸ hl)
    | succ n => simp [hn] at hz

theorem fine_new : Fine (⟨Slot.raw, none⟩ : Box α) none := ⟨⟨good_raw, rfl⟩, rfl, by simp⟩

theorem fine_value (v : α) : Fine (⟨Slot.raw.construct 0 v, some 0⟩ : Box α) (some (0, v)) :=
  ⟨⟨construct_good 0 v good_raw rfl, rfl⟩, rfl, by simp⟩

theorem fine_of {s : State α} {b : Nat} {x : Box α} (hi : OInv s) (h : s.get b = some x) : Fine x x.slot.live :=
  ⟨hi.inv.boxes b x h, rfl, fun p hp => hi.only b x p h hp⟩

theorem fine_gut {x : Box α} {c : Content α} (gut : α → α) (h : Fine x c) : Fine (x.gut gut) (moved gut c) := by
  refine ⟨gut_ok gut h.1, by rw [gut_live, h.2.1]; rfl, ?_⟩
  intro p hp
  cases c with
  | none => simp [moved] at hp
  | some q =>
    have := h.2.2 q rfl
    simp [moved] at hp; rw [← hp]; exact this

theorem destroyValue_ok {t : Kind} {x : Box α} {c : Content α} (h : Fine x c) :
    ∃ sl, destroyValue t x = some sl ∧ sl.good ∧ sl.live = none := by
  obtain ⟨h1, h2⟩ := hasValue_iff h.1 (fun p hp => h.2.2 p (h.2.1 ▸ hp))
  unfold destroyValue
  cases hv : hasValue x with
  | true =>
    obtain ⟨v, hl⟩ := h1.mp hv
    obtain ⟨g1, g2⟩ := destroy_live (k := kinds t) h.1.good hl
    exact ⟨_, by simp [g1], g2, rfl⟩
  | false => exact ⟨x.slot, by simp, h.1.good, h2.mp hv⟩

theorem reset_ok {t : Kind} {x : Box α} {c : Content α} (h : Fine x c) :
    ∃ y, reset t x = some y ∧ Fine y none := by
  obtain ⟨sl, h1, h2, h3⟩ := destroyValue_ok (t := t) h
  exact ⟨⟨sl, none⟩, by simp [reset, h1], ⟨h2, by simp [h3]⟩, h3, by simp⟩

theorem emplace_ok {t : Kind} {x : Box α} {c : Content α} (v : α) (h : Fine x c) :
    ∃ y, emplace t x v = some y ∧ Fine y (some (0, v)) := by
  obtain ⟨sl, h1, h2, h3⟩ := destroyValue_ok (t := t) h
  exact ⟨⟨sl.construct 0 v, some 0⟩, by simp [emplace, h1], ⟨construct_good 0 v h2 h3, rfl⟩, rfl, by simp⟩

theorem assignValue_ok {t : Kind} {x : Box α} {c : Content α} {src : Src α} {v : α} (h : Fine x c)
    (hr : src = .ext v ∨ (t.assignable = true ∧ src = .own 0 ∧ c = some (0, v))) :
    ∃ y, assignValue t x src = some y ∧ Fine y (some (0, v)) := by
  obtain ⟨h1, h2⟩ := hasValue_iff h.1 (fun p hp => h.2.2 p (h.2.1 ▸ hp))
  unfold assignValue Slot.assignOrInit
  cases hv : hasValue x with
  | true =>
    obtain ⟨w, hl⟩ := h1.mp hv
    obtain ⟨s', g1, g2, g3⟩ := assignmentHelper_ok (k := kinds t) (v := v) (src := src) (asg := t.assignable) h.1.good hl (by
      rcases hr with hr | ⟨a, b, e⟩
      · exact Or.inl hr
      · refine Or.inr ⟨a, b, ?_⟩
        have := h.2.1; rw [hl, e] at this; simp at this; exact this.symm)
    exact ⟨⟨s', some 0⟩, by simp [g1], ⟨g2, by simp [g3]⟩, g3, by simp⟩
  | false =>
    have hl := h2.mp hv
    obtain rfl : src = .ext v := by
      rcases hr with hr | ⟨-, -, e⟩
      · exact hr
      · have := h.2.1; rw [hl, e] at this; simp at this
    simp only [Bool.false_eq_true, if_false]
    rw [destroy_trivial_dead (k := kinds t) (i := 1) rfl hl]
    obtain ⟨s', g1, g2, g3⟩ := directInit_ok (k := kinds t) (i := 0) (v := v) h.1.good hl
    exact ⟨⟨s', some 0⟩, by simp [g1], ⟨g2, by simp [g3]⟩, g3, by simp⟩

theorem construct_ok {y : Box α} {c : Content α} (h : Fine y c) : ∃ z, construct y = some z ∧ Fine z c := by
  obtain ⟨h1, h2⟩ := hasValue_iff h.1 (fun p hp => h.2.2 p (h.2.1 ▸ hp))
  unfold construct
  cases hv : hasValue y with
  | true =>
    obtain ⟨v, hl⟩ := h1.mp hv
    have hc : c = some (0, v) := by rw [← h.2.1, hl]
    subst hc
    exact ⟨_, by simp [Slot.read, hl], fine_value v⟩
  | false =>
    have hl := h2.mp hv
    have hc : c = none := by rw [← h.2.1, hl]
    subst hc
    exact ⟨_, by simp, fine_new⟩

/-- assignment from another optional, or from itself -/
theorem assignFrom_ok {t : Kind} {s : State α} {b c : Nat} {x y : Box α} (hi : OInv s) (hx : s.get b = some x)
    (hy : s.get c = some y) (hself : b = c → t.assignable = true ∨ x.slot.live = none) :
    ∃ z, (if hasValue y then
        match srcOf b c y with
        | some src => assignFrom t x y src
        | none => none
      else reset t x) = some z ∧ Fine z y.slot.live := by
  have fx := fine_of hi hx
  have fy := fine_of hi hy
  obtain ⟨h1, h2⟩ := hasValue_iff fy.1 fy.2.2
  cases hv : hasValue y with
  | true =>
    obtain ⟨v, hl⟩ := h1.mp hv
    simp only [if_true]
    unfold srcOf assignFrom
    rw [hl]
    by_cases hbc : b = c
    · rw [if_pos hbc]
      subst hbc
      rw [hx] at hy
      injection hy with hy
      subst hy
      have ha : t.assignable = true := by
        rcases hself rfl with h | h
        · exact h
        · rw [hl] at h; simp at h
      simp only [hv, if_true]
      exact assignValue_ok fx (Or.inr ⟨ha, rfl, hl⟩)
    · rw [if_neg hbc]
      simp only [Slot.read, hl, if_true, Option.map_some, hv]
      exact assignValue_ok fx (Or.inl rfl)
  | false =>
    rw [h2.mp hv]
    simp only [Bool.false_eq_true, if_false]
    exact reset_ok fx

theorem step_ok (t : Kind) (gut : α → α) (s : State α) (op : Op α) (hi : OInv s) (hl : legal t s.world op) :
    StepOk t gut s op := by
  have at_ : ∀ b, (s.world.at? b).isSome → ∃ x, s.get b = some x ∧ s.world.at? b = some x.slot.live := by
    intro b h
    obtain ⟨c, hc⟩ := Option.isSome_iff_exists.mp h
    obtain ⟨x, h1, h2⟩ := of_world hc
    exact ⟨x, h1, by rw [hc, h2]⟩
  cases op with
  | new =>
    obtain ⟨h1, h2⟩ := oinv_push hi fine_new
    exact ⟨_, rfl, h1, h2⟩
  | newValue v =>
    obtain ⟨h1, h2⟩ := oinv_push hi (fine_value v)
    exact ⟨_, rfl, h1, h2⟩
  | copy b =>
    obtain ⟨y, hy, hw⟩ := at_ b hl
    obtain ⟨z, hz, fz⟩ := construct_ok (fine_of hi hy)
    obtain ⟨h1, h2⟩ := oinv_push hi fz
    exact ⟨_, by simp [step, hy, hz], h1, by rw [h2]; simp [next, hw]⟩
  | move b =>
    obtain ⟨y, hy, hw⟩ := at_ b hl
    obtain ⟨z, hz, fz⟩ := construct_ok (fine_of hi hy)
    obtain ⟨h1, h2⟩ := oinv_put hi hy (fine_gut gut (fine_of hi hy))
    obtain ⟨h3, h4⟩ := oinv_push h1 fz
    exact ⟨_, by simp [step, hy, hz], h3, by rw [h4, h2]; simp [next, hw]⟩
  | assign b v =>
    obtain ⟨x, hx, hw⟩ := at_ b hl
    obtain ⟨z, hz, fz⟩ := assignValue_ok (t := t) (src := .ext v) (v := v) (fine_of hi hx) (Or.inl rfl)
    obtain ⟨h1, h2⟩ := oinv_put hi hx fz
    exact ⟨_, by simp [step, hx, hz], h1, h2⟩
  | assignCopy b c =>
    obtain ⟨l1, l2, l3⟩ := hl
    obtain ⟨x, hx, hw⟩ := at_ b l1
    obtain ⟨y, hy, hw2⟩ := at_ c l2
    obtain ⟨z, hz, fz⟩ := assignFrom_ok (t := t) hi hx hy (fun h => by
      rcases l3 h with h | h
      · exact Or.inl h
      · rw [hw] at h; simp at h; exact Or.inr h)
    obtain ⟨h1, h2⟩ := oinv_put hi hx fz
    refine ⟨s.put b z, ?_, h1, by rw [h2]; simp [next, hw2]⟩
    simp only [step, hx, hy]
    cases hv : hasValue y with
    | true =>
      simp only [hv, if_true] at hz ⊢
      cases hs : srcOf b c y with
      | none => simp [hs] at hz
      | some src => simp only [hs] at hz ⊢; rw [hz]; rfl
    | false =>
      simp only [hv, Bool.false_eq_true, if_false] at hz ⊢
      rw [hz]; rfl
  | assignMove b c =>
    obtain ⟨l1, l2, l3⟩ := hl
    obtain ⟨x, hx, hw⟩ := at_ b l1
    obtain ⟨y, hy, hw2⟩ := at_ c l2
    obtain ⟨z, hz, fz⟩ := assignFrom_ok (t := t) hi hx hy (fun h => by
      rcases l3 h with h | h
      · exact Or.inl h
      · rw [hw] at h; simp at h; exact Or.inr h)
    obtain ⟨h1, h2⟩ := oinv_put hi hx fz
    obtain ⟨e1, e2⟩ := hasValue_iff (fine_of hi hy).1 (fine_of hi hy).2.2
    simp only [StepOk, step, hx, hy]
    cases hv : hasValue y with
    | true =>
      simp only [hv, if_true] at hz ⊢
      cases hs : srcOf b c y with
      | none => simp [hs] at hz
      | some src =>
        simp only [hs] at hz ⊢
        rw [hz]
        simp only [Option.map_some]
        obtain ⟨y', hy', hyl⟩ : ∃ y', (s.put b z).get c = some y' ∧ y'.slot.live = y.slot.live := by
          rw [get_put hx]
          by_cases hbc : c = b
          · rw [if_pos hbc]; exact ⟨z, rfl, fz.2.1⟩
          · rw [if_neg hbc]; exact ⟨y, hy, rfl⟩
        rw [hy']
        obtain ⟨h3, h4⟩ := oinv_put h1 hy' (fine_gut gut (fine_of h1 hy'))
        exact ⟨_, rfl, h3, by rw [h4, h2, hyl]; simp [next, hw2]⟩
    | false =>
      simp only [hv, Bool.false_eq_true, if_false] at hz ⊢
      rw [hz]
      refine ⟨s.put b z, rfl, h1, ?_⟩
      have hn := e2.mp hv
      rw [h2]
      simp only [next, hw2, hn, Option.map_some]
      -- the source is empty: marking it as moved from changes nothing
      apply List.ext_getElem?
      intro i
      have hcw : s.world[c]? = some (some none) := by
        rw [hn] at hw2
        unfold World.at? at hw2
        cases e : s.world[c]? with
        | none => simp [e] at hw2
        | some q => simp [e] at hw2; rw [hw2]
      simp only [List.getElem?_set, List.length_set]
      by_cases hic : c = i
      · subst hic
        rw [hcw]
        have : c < s.world.length := (List.getElem?_eq_some_iff.mp hcw).1
        by_cases hbc : b = c
        · simp [hbc, this, moved]
        · simp [hbc, this, moved]
      · rw [if_neg hic]
  | emplace b v =>
    obtain ⟨x, hx, hw⟩ := at_ b hl
    obtain ⟨z, hz, fz⟩ := emplace_ok (t := t) v (fine_of hi hx)
    obtain ⟨h1, h2⟩ := oinv_put hi hx fz
    exact ⟨_, by simp [step, hx, hz], h1, h2⟩
  | reset b =>
    obtain ⟨x, hx, hw⟩ := at_ b hl
    obtain ⟨z, hz, fz⟩ := reset_ok (t := t) (fine_of hi hx)
    obtain ⟨h1, h2⟩ := oinv_put hi hx fz
    exact ⟨_, by simp [step, hx, hz], h1, h2⟩
  | destroy b =>
    obtain ⟨x, hx, hw⟩ := at_ b hl
    obtain ⟨sl, hz, g1, g2⟩ := destroyValue_ok (t := t) (fine_of hi hx)
    refine ⟨_, by simp [step, hx, hz]; rfl, ⟨inv_bury hi.inv (by rw [g1, g2]; rfl), ?_⟩, world_bury _ _ _⟩
    intro d z p hz hl
    rw [get_iff] at hz
    simp only [State.bury, List.getElem?_set] at hz
    split at hz
    · split at hz <;> simp at hz
    · exact hi.only d z p (get_iff.mpr hz) hl

/-- What `has_value`, `value` and `value_or` report about container `b` with contents `c`, and its object lifetimes. -/
def Reports (x : Box α) (c : Content α) : Prop :=
  (hasValue x = c.isSome) ∧
  (value x = some (match c with | some (_, v) => .ok v | none => .throws)) ∧
  (∀ d, valueOr x d = some (match c with | some (_, v) => v | none => d)) ∧
  replay none x.slot.log = some (c.map Prod.fst)

theorem reports_of_fine {x : Box α} {c : Content α} (h : Fine x c) : Reports x c := by
  obtain ⟨h1, h2⟩ := hasValue_iff h.1 (fun p hp => h.2.2 p (h.2.1 ▸ hp))
  have hg := h.1.good
  unfold Slot.good at hg
  cases hv : hasValue x with
  | true =>
    obtain ⟨v, hl⟩ := h1.mp hv
    have hc : c = some (0, v) := by rw [← h.2.1, hl]
    subst hc
    exact ⟨by simp [hv], by simp [value, hv, Slot.read, hl], fun d => by simp [valueOr, hv, Slot.read, hl],
      by rw [hg, hl]⟩
  | false =>
    have hl := h2.mp hv
    have hc : c = none := by rw [← h.2.1, hl]
    subst hc
    exact ⟨by simp [hv], by simp [value, hv], fun d => by simp [valueOr, hv], by rw [hg, hl]⟩

/-- **C32 (partial).** Over every history on any number of optionals (constructing, copying, moving, assigning,
emplacing, resetting, destroying), nothing undefined happens; each optional's `has_value()`, `value()` (which throws when
empty) and `value_or()` are exactly what the last operation says; in each optional the constructor, destructor and
assignment calls alternate correctly — nothing is constructed over a live object, destroyed twice or assigned while
dead — and when an optional is destroyed every object ever constructed in it has been destroyed.

Missing: self-assignment of a non-empty optional of a type that is not assignable (`self_assign_undefined`). -/
theorem optional_history_partial (t : Kind) (gut : α → α) (ops : List (Op α)) (hl : legalRun t gut [] ops) :
    ∃ s, run t gut State.init ops = some s ∧ s.world = after gut [] ops ∧
      (∀ (b : Nat) (c : Content α), (after gut [] ops).at? b = some c → ∃ x, s.get b = some x ∧ Reports x c) ∧
      (∀ l ∈ s.buried, replay none l = some none) := by
  have key : ∀ (ops : List (Op α)) (s : State α), OInv s → legalRun t gut s.world ops →
      ∃ s', run t gut s ops = some s' ∧ OInv s' ∧ s'.world = after gut s.world ops := by
    intro ops
    induction ops with
    | nil => exact fun s hi _ => ⟨s, rfl, hi, rfl⟩
    | cons op ops ih =>
      intro s hi hl
      obtain ⟨s1, h1, h2, h3⟩ := step_ok t gut s op hi hl.1
      obtain ⟨s2, g1, g2, g3⟩ := ih s1 h2 (by rw [h3]; exact hl.2)
      exact ⟨s2, by simp [run, h1, g1], g2, by rw [g3, h3]; rfl⟩
  obtain ⟨s, h1, h2, h3⟩ := key ops State.init
    ⟨inv_init, by intro b x p h; simp [State.get, State.init, rd] at h⟩ hl
  refine ⟨s, h1, h3, ?_, h2.inv.buried⟩
  intro b c hc
  have h3' : s.world = after gut [] ops := h3
  rw [← h3'] at hc
  obtain ⟨x, hx, hlive⟩ := of_world hc
  exact ⟨x, hx, hlive ▸ reports_of_fine (fine_of h2 hx)⟩

/-- Equality of optionals compares their contents. -/
theorem eq_spec [DecidableEq α] (x y : Box α) (c d : Content α) (hx : Fine x c) (hy : Fine y d) (v : α) :
    eqOpt (fun a b => decide (a = b)) x y = some (decide (c.map Prod.snd = d.map Prod.snd)) ∧
    eqValue (fun a b => decide (a = b)) x v = some (decide (c.map Prod.snd = some v)) := by
  obtain ⟨h1, h2⟩ := hasValue_iff hx.1 (fun p hp => hx.2.2 p (hx.2.1 ▸ hp))
  obtain ⟨k1, k2⟩ := hasValue_iff hy.1 (fun p hp => hy.2.2 p (hy.2.1 ▸ hp))
  have hc := hx.2.1; have hd := hy.2.1
  cases hv : hasValue x with
  | true =>
    obtain ⟨a, hl⟩ := h1.mp hv
    rw [hl] at hc
    cases hw : hasValue y with
    | true =>
      obtain ⟨b, hm⟩ := k1.mp hw
      rw [hm] at hd
      subst hc; subst hd
      simp [eqOpt, eqValue, hv, hw, Slot.read, hl, hm]
    | false =>
      rw [k2.mp hw] at hd
      subst hc; subst hd
      simp [eqOpt, eqValue, hv, hw, Slot.read, hl]
  | false =>
    rw [h2.mp hv] at hc
    cases hw : hasValue y with
    | true =>
      obtain ⟨b, hm⟩ := k1.mp hw
      rw [hm] at hd
      subst hc; subst hd
      simp [eqOpt, eqValue, hv, hw]
    | false =>
      rw [k2.mp hw] at hd
      subst hc; subst hd
      simp [eqOpt, eqValue, hv, hw]

/-- In every reachable state, assigning a non-empty optional to itself is undefined when `T` is not assignable: the
value is destroyed and then copied from. -/
theorem self_assign_undefined (t : Kind) (gut : α → α) (s : State α) (hi : OInv s) (b : Nat) (v : α)
    (ht : t.assignable = false) (hc : s.world.at? b = some (some (0, v))) : step t gut s (.assignCopy b b) = none := by
  obtain ⟨x, hx, hl⟩ := of_world hc
  have fx := fine_of hi hx
  have hv : hasValue x = true := (hasValue_iff fx.1 fx.2.2).1.mpr ⟨v, hl⟩
  simp [step, hx, hv, srcOf, assignFrom, assignValue, Slot.assignOrInit, Slot.assignmentHelper, ht, Slot.destroy, hl,
    Slot.emplaceHelper, Slot.read]

/-! ### The hypotheses are met -/

/-- a class with a destructor and an assignment operator; a move leaves 0 behind -/
def classy : Kind := ⟨false, true, true⟩

def sample : List (Op Nat) :=
  [.new, .newValue 5, .copy 1, .assign 0 7, .assignCopy 0 1, .assignMove 2 0, .assignCopy 2 2, .emplace 1 9, .move 1,
   .reset 2, .assignCopy 0 2, .destroy 1, .destroy 0]

example : legalRun classy (fun _ => 0) [] sample := by decide

example : after (fun _ => 0) [] sample = [none, none, some none, some (some (0, 9))] := by decide

example : (run classy (fun _ => 0) State.init sample).map (fun s => s.buried) =
    some [[.ctor 0, .dtor 0, .ctor 0, .dtor 0], [.ctor 0, .assign 0, .dtor 0]] := by decide

example : ∃ s : State Nat, OInv s ∧ s.world.at? 0 = some (some (0, 5)) :=
  ⟨State.init.push ⟨Slot.raw.construct 0 5, some 0⟩,
    (oinv_push ⟨inv_init, by intro b x p h; simp [State.get, State.init, rd] at h⟩ (fine_value 5)).1, rfl⟩

end Verif.Sum.Optional
