import Verif.Sum.Variant
import Verif.Sum.ExpectedProps

/-!
# C34: variant
-/
namespace Verif.Sum.Variant
open Verif.Sum Spec

/-! ## Specification -/

/-- a content moved from by assignment: a moved-from value, or (not assignable) nothing -/
def moved (k : Nat → Kind) (gut : α → α) : Content α → Content α
  | some (i, v) => if (k i).assignable then some (i, gut v) else none
  | none => none

/-- What each operation should do. -/
def next (k : Nat → Kind) (gut : α → α) (w : World α) : Op α → World α
  | .new i v => w ++ [some (some (i, v))]
  | .copy b => w ++ [w.at? b]
  | .move b => w.set b (some none) ++ [w.at? b]
  | .assign b i v _ _ => w.set b (some (some (i, v)))
  | .assignCopy b c => w.set b (w.at? c)
  | .assignMove b c => (w.set b (w.at? c)).set c ((w.at? c).map (moved k gut))
  | .emplace b i v => w.set b (some (some (i, v)))
  | .destroy b => w.set b none

/-- the alternative held by `b` is `i` -/
abbrev holds (w : World α) (b i : Nat) : Prop := Expected.holds w b i

/-- Variants used must exist and alternatives be among the `n`.  Covered only: copying a copy constructible alternative,
assigning something implicitly convertible (or assignable, when that alternative is held), assigning to itself an
assignable alternative, and emplacing an alternative that is the first of its type. -/
def legal (n : Nat) (k : Nat → Kind) (first : Nat → Nat) (w : World α) : Op α → Prop
  | .new i _ => i < n
  | .copy b => (w.at? b).isSome ∧ ∀ i, i < n → holds w b i → (k i).copyable = true
  | .move b => (w.at? b).isSome
  | .assign b i _ asg conv => (w.at? b).isSome ∧ i < n ∧ (conv = true ∨ (asg = true ∧ holds w b i))
  | .assignCopy b c => (w.at? b).isSome ∧ (w.at? c).isSome ∧
      (b = c → ∀ i, i < n → holds w b i → (k i).assignable = true)
  | .assignMove b c => (w.at? b).isSome ∧ (w.at? c).isSome ∧
      (b = c → ∀ i, i < n → holds w b i → (k i).assignable = true)
  | .emplace b i _ => (w.at? b).isSome ∧ i < n ∧ first i = i
  | .destroy b => (w.at? b).isSome

def legalRun (n : Nat) (k : Nat → Kind) (first : Nat → Nat) (gut : α → α) (w : World α) : List (Op α) → Prop
  | [] => True
  | op :: ops => legal n k first w op ∧ legalRun n k first gut (next k gut w op) ops

instance (n : Nat) (k : Nat → Kind) (first : Nat → Nat) (w : World α) (op : Op α) :
    Decidable (legal n k first w op) := by
  cases op <;> simp only [legal] <;> infer_instance

instance instLegalRun (n : Nat) (k : Nat → Kind) (first : Nat → Nat) (gut : α → α) :
    (w : World α) → (ops : List (Op α)) → Decidable (legalRun n k first gut w ops)
  | _, [] => inferInstanceAs (Decidable True)
  | w, op :: ops =>
    have := instLegalRun n k first gut (next k gut w op) ops
    inferInstanceAs (Decidable (_ ∧ _))

def after (k : Nat → Kind) (gut : α → α) (w : World α) (ops : List (Op α)) : World α := ops.foldl (next k gut) w

/-! ## Invariant -/

/-- a box holding content `c`, one of `n` alternatives or nothing -/
def Fine (n : Nat) (x : Box α) (c : Content α) : Prop := x.ok ∧ x.slot.live = c ∧ ∀ p, c = some p → p.1 < n

structure VInv (n : Nat) (s : State α) : Prop where
  inv : Inv s
  only : ∀ (b : Nat) (x : Box α), s.get b = some x → Fine n x x.slot.live

theorem tag_of {n : Nat} {x : Box α} {c : Content α} (h : Fine n x c) : x.tag = c.map Prod.fst := by
  rw [← h.1.tag, h.2.1]

theorem vinv_put {n : Nat} {s : State α} {b : Nat} {x y : Box α} {c : Content α} (hi : VInv n s)
    (h : s.get b = some x) (hy : Fine n y c) : VInv n (s.put b y) ∧ (s.put b y).world = s.world.set b (some c) := by
  refine ⟨⟨inv_put hi.inv h hy.1, ?_⟩, by rw [world_put, hy.2.1]⟩
  intro d z hz
  rw [get_put h] at hz
  split at hz
  · simp at hz; subst hz; rw [hy.2.1]; exact hy
  · exact hi.only d z hz

theorem vinv_push {n : Nat} {s : State α} {y : Box α} {c : Content α} (hi : VInv n s) (hy : Fine n y c) :
    VInv n (s.push y) ∧ (s.push y).world = s.world ++ [some c] := by
  refine ⟨⟨inv_push hi.inv hy.1, ?_⟩, by rw [world_push, hy.2.1]⟩
  intro d z hz
  rw [get_iff] at hz
  simp only [State.push, List.getElem?_append] at hz
  split at hz
  · exact hi.only d z (get_iff.mpr hz)
  · cases hn : d - s.boxes.length with
    | zero => simp [hn] at hz; subst hz; rw [hy.2.1]; exact hy
    | succ n => simp [hn] at hz

theorem fine_new {n i : Nat} (v : α) (h : i < n) :
    Fine n (⟨Slot.raw.construct i v, some i⟩ : Box α) (some (i, v)) :=
  ⟨⟨construct_good i v good_raw rfl, rfl⟩, rfl, fun p hp => by simp at hp; rw [← hp]; exact h⟩

theorem fine_raw {n : Nat} : Fine n (⟨Slot.raw, none⟩ : Box α) none := ⟨⟨good_raw, rfl⟩, rfl, by simp⟩

theorem fine_some {n i : Nat} {s : Slot α} {v : α} (hg : s.good) (hl : s.live = some (i, v)) (h : i < n) :
    Fine n (⟨s, some i⟩ : Box α) (some (i, v)) :=
  ⟨⟨hg, by simp [hl]⟩, hl, fun p hp => by simp at hp; rw [← hp]; exact h⟩

theorem fine_none {n : Nat} {s : Slot α} (hg : s.good) (hl : s.live = none) : Fine n (⟨s, none⟩ : Box α) none :=
  ⟨⟨hg, by simp [hl]⟩, hl, by simp⟩

theorem destroyIfValid_ok {n : Nat} {k : Nat → Kind} {x : Box α} {c : Content α} (h : Fine n x c) :
    ∃ sl, destroyIfValid k x = some sl ∧ sl.good ∧ sl.live = none := by
  have ht := tag_of h
  unfold destroyIfValid
  cases c with
  | none => exact ⟨x.slot, by simp [ht], h.1.good, h.2.1⟩
  | some p =>
    obtain ⟨g1, g2⟩ := destroy_live (k := k) h.1.good h.2.1
    exact ⟨_, by simp [ht, g1], g2, rfl⟩

theorem clear_ok {n : Nat} {k : Nat → Kind} {x : Box α} {c : Content α} (h : Fine n x c) :
    ∃ y, clear k x = some y ∧ Fine n y none := by
  obtain ⟨sl, h1, h2, h3⟩ := destroyIfValid_ok (k := k) h
  exact ⟨_, by simp [clear, h1], fine_none h2 h3⟩

theorem emplace_ok {n : Nat} {k : Nat → Kind} {first : Nat → Nat} {x : Box α} {c : Content α} {i : Nat} (v : α)
    (h : Fine n x c) (hi : first i < n) : ∃ y, emplace k first x i v = some y ∧ Fine n y (some (first i, v)) := by
  obtain ⟨sl, h1, h2, h3⟩ := destroyIfValid_ok (k := k) h
  exact ⟨_, by simp [emplace, h1], fine_some (construct_good _ v h2 h3) rfl hi⟩

theorem assignOrInit_ext {n : Nat} {k : Nat → Kind} {x : Box α} {c : Content α} {i : Nat} {v : α} {asg conv : Bool}
    (h : Fine n x c) (hn : i < n) (hr : conv = true ∨ (asg = true ∧ x.tag = some i)) :
    ∃ y, assignOrInit k x i (.ext v) asg conv = some y ∧ Fine n y (some (i, v)) := by
  have ht := tag_of h
  unfold assignOrInit
  by_cases hx : x.tag = some i
  · cases c with
    | none => rw [ht] at hx; simp at hx
    | some p =>
      obtain ⟨j, w⟩ := p
      rw [ht] at hx; simp at hx; subst hx
      obtain ⟨s', g1, g2, g3⟩ := Expected.same_ok (k := k) (v := v) (asg := asg) (conv := conv) h.1.good h.2.1
        (hr.imp id And.left)
      exact ⟨_, by simp [ht, g1], fine_some g2 g3 hn⟩
  · obtain rfl : conv = true := by
      rcases hr with hr | hr
      · exact hr
      · exact absurd hr.2 hx
    obtain ⟨sl, h1, h2, h3⟩ := destroyIfValid_ok (k := k) h
    obtain ⟨s', e1, e2, e3⟩ := directInit_ok (k := k) (i := i) (v := v) h2 h3
    exact ⟨_, by simp [hx, h1, e1], fine_some e2 e3 hn⟩

theorem rebuild_ext {n : Nat} {k : Nat → Kind} {x : Box α} {c : Content α} {i : Nat} {v : α}
    (h : Fine n x c) (hn : i < n) : ∃ y, rebuild k x i (.ext v) = some y ∧ Fine n y (some (i, v)) := by
  obtain ⟨sl, h1, h2, h3⟩ := destroyIfValid_ok (k := k) h
  exact ⟨_, by simp [rebuild, h1, Slot.read], fine_some (construct_good _ v h2 h3) rfl hn⟩

theorem assignFrom_ext {n : Nat} {k : Nat → Kind} {x : Box α} {c : Content α} {i : Nat} {v : α}
    (h : Fine n x c) (hn : i < n) : ∃ y, assignFrom k x i (.ext v) = some y ∧ Fine n y (some (i, v)) := by
  unfold assignFrom
  split
  · exact assignOrInit_ext h hn (Or.inl rfl)
  · exact rebuild_ext h hn

theorem assignFrom_self {n : Nat} {k : Nat → Kind} {x : Box α} {i : Nat} {v : α}
    (h : Fine n x (some (i, v))) (ha : (k i).assignable = true) :
    ∃ y, assignFrom k x i (.own i) = some y ∧ Fine n y (some (i, v)) := by
  have ht := tag_of h
  obtain ⟨s', g1, g2, g3⟩ := assignmentHelper_ok (k := k) (v := v) (src := .own i) (asg := true) h.1.good h.2.1
    (Or.inr ⟨rfl, rfl, rfl⟩)
  exact ⟨_, by simp [assignFrom, ha, assignOrInit, ht, g1], fine_some g2 g3 (h.2.2 _ rfl)⟩

theorem copyCtor_ok {n : Nat} {k : Nat → Kind} {y : Box α} {c : Content α} (h : Fine n y c)
    (hc : ∀ i v, c = some (i, v) → (k i).copyable = true) : ∃ z, copyCtor k y = some z ∧ Fine n z c := by
  have ht := tag_of h
  unfold copyCtor
  cases c with
  | none => exact ⟨_, by simp [ht], fine_raw⟩
  | some p =>
    obtain ⟨i, v⟩ := p
    exact ⟨_, by simp [ht, hc i v rfl, Slot.read, h.2.1], fine_new v (h.2.2 _ rfl)⟩

theorem moveCtor_ok {n : Nat} {k : Nat → Kind} {y : Box α} {c : Content α} (h : Fine n y c) :
    ∃ z y', moveCtor k y = some (z, y') ∧ Fine n z c ∧ Fine n y' none := by
  have ht := tag_of h
  unfold moveCtor
  cases c with
  | none => exact ⟨_, _, by simp [ht], fine_raw, fine_none h.1.good h.2.1⟩
  | some p =>
    obtain ⟨i, v⟩ := p
    obtain ⟨g1, g2⟩ := destroy_live (k := k) h.1.good h.2.1
    exact ⟨_, _, by simp [ht, Slot.read, h.2.1, g1], fine_new v (h.2.2 _ rfl), fine_none g2 rfl⟩

theorem moveSource_ok {n : Nat} {k : Nat → Kind} {y : Box α} {i : Nat} {v : α} (gut : α → α)
    (h : Fine n y (some (i, v))) : ∃ y', moveSource k gut y i = some y' ∧ Fine n y' (moved k gut (some (i, v))) := by
  unfold moveSource moved
  cases ha : (k i).assignable with
  | true =>
    refine ⟨_, rfl, gut_ok gut h.1, by rw [gut_live, h.2.1]; simp [ha], ?_⟩
    intro p hp
    simp [ha] at hp; rw [← hp]; exact h.2.2 (i, v) rfl
  | false =>
    obtain ⟨g1, g2⟩ := destroy_live (k := k) h.1.good h.2.1
    exact ⟨⟨⟨none, y.slot.log ++ [.dtor i]⟩, none⟩, by simp [g1], by simpa [ha] using fine_none g2 rfl⟩

def StepOk (n : Nat) (k : Nat → Kind) (first : Nat → Nat) (gut : α → α) (s : State α) (op : Op α) : Prop :=
  ∃ s', step k first gut s op = some s' ∧ VInv n s' ∧ s'.world = next k gut s.world op

/-- the left side of an assignment between variants -/
theorem assign_lhs {n : Nat} {k : Nat → Kind} {s : State α} {b c i : Nat} {v : α} {x y : Box α} (hi : VInv n s)
    (hx : s.get b = some x) (hy : s.get c = some y) (hl : y.slot.live = some (i, v))
    (hself : b = c → (k i).assignable = true) :
    ∃ src z, srcOf b c i y = some src ∧ assignFrom k x i src = some z ∧ Fine n z (some (i, v)) := by
  have fy := hi.only c y hy
  rw [hl] at fy
  unfold srcOf
  by_cases hbc : b = c
  · subst hbc
    rw [hx] at hy; injection hy with hy; subst hy
    obtain ⟨z, h1, h2⟩ := assignFrom_self (k := k) fy (hself rfl)
    exact ⟨_, z, by simp, h1, h2⟩
  · obtain ⟨z, h1, h2⟩ := assignFrom_ext (k := k) (v := v) (hi.only b x hx) (fy.2.2 _ rfl)
    exact ⟨_, z, by rw [if_neg hbc]; simp [Slot.read, hl], h1, h2⟩

theorem step_ok {n : Nat} (k : Nat → Kind) (first : Nat → Nat) (gut : α → α) (s : State α) (op : Op α) (hi : VInv n s)
    (hl : legal n k first s.world op) : StepOk n k first gut s op := by
  have at_ : ∀ b, (s.world.at? b).isSome → ∃ x, s.get b = some x ∧ s.world.at? b = some x.slot.live := by
    intro b h
    obtain ⟨c, hc⟩ := Option.isSome_iff_exists.mp h
    obtain ⟨x, h1, h2⟩ := of_world hc
    exact ⟨x, h1, by rw [hc, h2]⟩
  have hold_ : ∀ b x i, s.get b = some x → s.world.at? b = some x.slot.live → holds s.world b i → x.tag = some i := by
    intro b x i hx hw h
    rw [tag_of (hi.only b x hx)]
    simpa [Expected.holds, hw] using h
  cases op with
  | new i v =>
    obtain ⟨h1, h2⟩ := vinv_push hi (fine_new v hl)
    exact ⟨_, rfl, h1, h2⟩
  | copy b =>
    obtain ⟨y, hy, hw⟩ := at_ b hl.1
    have fy := hi.only b y hy
    obtain ⟨z, hz, fz⟩ := copyCtor_ok (k := k) fy (fun i v e =>
      hl.2 i (fy.2.2 _ e) (by simp [Expected.holds, hw, e]))
    obtain ⟨h1, h2⟩ := vinv_push hi fz
    exact ⟨_, by simp [step, hy, hz], h1, by rw [h2]; simp [next, hw]⟩
  | move b =>
    obtain ⟨y, hy, hw⟩ := at_ b hl
    obtain ⟨z, y', hz, fz, fy⟩ := moveCtor_ok (k := k) (hi.only b y hy)
    obtain ⟨h1, h2⟩ := vinv_put hi hy fy
    obtain ⟨h3, h4⟩ := vinv_push h1 fz
    exact ⟨_, by simp [step, hy, hz], h3, by rw [h4, h2]; simp [next, hw]⟩
  | assign b i v asg conv =>
    obtain ⟨x, hx, hw⟩ := at_ b hl.1
    obtain ⟨z, hz, fz⟩ := assignOrInit_ext (k := k) (v := v) (asg := asg) (conv := conv) (hi.only b x hx) hl.2.1
      (hl.2.2.imp id (And.imp id (hold_ b x i hx hw)))
    obtain ⟨h1, h2⟩ := vinv_put hi hx fz
    exact ⟨_, by simp [step, hx, hz], h1, h2⟩
  | assignCopy b c =>
    obtain ⟨l1, l2, l3⟩ := hl
    obtain ⟨x, hx, hw⟩ := at_ b l1
    obtain ⟨y, hy, hw2⟩ := at_ c l2
    have fy := hi.only c y hy
    have ht := tag_of fy
    cases hlv : y.slot.live with
    | none =>
      rw [hlv] at ht
      obtain ⟨z, hz, fz⟩ := clear_ok (k := k) (hi.only b x hx)
      obtain ⟨h1, h2⟩ := vinv_put hi hx fz
      exact ⟨_, by simp [step, hx, hy, ht, hz], h1, by rw [h2]; simp [next, hw2, hlv]⟩
    | some p =>
      obtain ⟨i, v⟩ := p
      rw [hlv] at ht
      obtain ⟨src, z, hs, hz, fz⟩ := assign_lhs (k := k) hi hx hy hlv (fun h => by
        subst h
        exact l3 rfl i (fy.2.2 _ hlv) (by simp [Expected.holds, hw2, hlv]))
      obtain ⟨h1, h2⟩ := vinv_put hi hx fz
      exact ⟨_, by simp [step, hx, hy, ht, hs, hz], h1, by rw [h2]; simp [next, hw2, hlv]⟩
  | assignMove b c =>
    obtain ⟨l1, l2, l3⟩ := hl
    obtain ⟨x, hx, hw⟩ := at_ b l1
    obtain ⟨y, hy, hw2⟩ := at_ c l2
    have fy := hi.only c y hy
    have ht := tag_of fy
    cases hlv : y.slot.live with
    | none =>
      rw [hlv] at ht
      obtain ⟨z, hz, fz⟩ := clear_ok (k := k) (hi.only b x hx)
      obtain ⟨h1, h2⟩ := vinv_put hi hx fz
      refine ⟨_, by simp [step, hx, hy, ht, hz], h1, ?_⟩
      rw [h2]
      simp only [next, hw2, hlv, Option.map_some]
      apply List.ext_getElem?
      intro j
      have hcw : s.world[c]? = some (some none) := by
        rw [hlv] at hw2
        unfold World.at? at hw2
        cases e : s.world[c]? with
        | none => simp [e] at hw2
        | some q => simp [e] at hw2; rw [hw2]
      simp only [List.getElem?_set, List.length_set]
      by_cases hic : c = j
      · subst hic
        rw [hcw]
        have : c < s.world.length := (List.getElem?_eq_some_iff.mp hcw).1
        by_cases hbc : b = c <;> simp [hbc, this, moved]
      · rw [if_neg hic]
    | some p =>
      obtain ⟨i, v⟩ := p
      rw [hlv] at ht
      obtain ⟨src, z, hs, hz, fz⟩ := assign_lhs (k := k) hi hx hy hlv (fun h => by
        subst h
        exact l3 rfl i (fy.2.2 _ hlv) (by simp [Expected.holds, hw2, hlv]))
      obtain ⟨h1, h2⟩ := vinv_put hi hx fz
      obtain ⟨y', hy', fy'⟩ : ∃ y', (s.put b z).get c = some y' ∧ Fine n y' (some (i, v)) := by
        rw [get_put hx]
        by_cases hbc : c = b
        · rw [if_pos hbc]; exact ⟨z, rfl, fz⟩
        · rw [if_neg hbc]; exact ⟨y, hy, hlv ▸ fy⟩
      obtain ⟨y2, hy2, fy2⟩ := moveSource_ok (k := k) gut fy'
      obtain ⟨h3, h4⟩ := vinv_put h1 hy' fy2
      exact ⟨_, by simp [step, hx, hy, ht, hs, hz, hy', hy2], h3, by rw [h4, h2]; simp [next, hw2, hlv]⟩
  | emplace b i v =>
    obtain ⟨l1, l2, l3⟩ := hl
    obtain ⟨x, hx, hw⟩ := at_ b l1
    obtain ⟨z, hz, fz⟩ := emplace_ok (k := k) (first := first) (i := i) v (hi.only b x hx) (by rw [l3]; exact l2)
    obtain ⟨h1, h2⟩ := vinv_put hi hx fz
    exact ⟨_, by simp [step, hx, hz], h1, by rw [h2, l3]; rfl⟩
  | destroy b =>
    obtain ⟨x, hx, hw⟩ := at_ b hl
    obtain ⟨sl, hz, g1, g2⟩ := destroyIfValid_ok (k := k) (hi.only b x hx)
    refine ⟨_, by simp [step, hx, hz]; rfl, ⟨inv_bury hi.inv (by rw [g1, g2]; rfl), ?_⟩, world_bury _ _ _⟩
    intro d z hz
    rw [get_iff] at hz
    simp only [State.bury, List.getElem?_set] at hz
    split at hz
    · split at hz <;> simp at hz
    · exact hi.only d z (get_iff.mpr hz)

/-- What the observers report about a variant of `n` alternatives with content `c`. -/
def Reports (n : Nat) (x : Box α) (c : Content α) : Prop :=
  x.tag = c.map Prod.fst ∧ (∀ i, x.tag = some i → i < n) ∧
  (∀ i, get x i = some (match c with | some (j, v) => if j = i then .ok v else .throws | none => .throws)) ∧
  (∀ i, getIf x i = some (match c with | some (j, v) => if j = i then some v else none | none => none)) ∧
  replay none x.slot.log = some (c.map Prod.fst)

theorem reports_of_fine {n : Nat} {x : Box α} {c : Content α} (h : Fine n x c) : Reports n x c := by
  have ht := tag_of h
  have hg := h.1.good
  unfold Slot.good at hg
  rw [h.2.1] at hg
  refine ⟨ht, ?_, ?_, ?_, hg⟩
  · intro i hi
    rw [ht] at hi
    cases c with
    | none => simp at hi
    | some p => simp at hi; rw [← hi]; exact h.2.2 p rfl
  · intro i
    unfold get
    rw [ht]
    cases c with
    | none => simp
    | some p =>
      obtain ⟨j, v⟩ := p
      by_cases hji : j = i
      · simp [hji, Slot.read, h.2.1]
      · simp [hji]
  · intro i
    unfold getIf
    rw [ht]
    cases c with
    | none => simp
    | some p =>
      obtain ⟨j, v⟩ := p
      by_cases hji : j = i
      · simp [hji, Slot.read, h.2.1]
      · simp [hji]

/-- **C34 (partial).** Over every history on any number of variants with any number `n` of alternatives, nothing
undefined happens; `index()` is the alternative the last operation put there (or npos after being moved from), and is the
one alive: `get<I>` and `get_if<I>` give its value exactly when `I = index()`; constructions and destructions alternate,
and a destroyed variant has destroyed everything it ever constructed.

Missing: `emplace<I>` when an earlier alternative has the same type (`emplace_duplicate_type`), self-assignment of a
non-assignable alternative (`self_assign_undefined`), and copying a non-copyable alternative
(`copy_of_noncopyable_is_hollow`). -/
theorem variant_history_partial (n : Nat) (k : Nat → Kind) (first : Nat → Nat) (gut : α → α) (ops : List (Op α))
    (hl : legalRun n k first gut [] ops) :
    ∃ s, run k first gut State.init ops = some s ∧ s.world = after k gut [] ops ∧
      (∀ (b : Nat) (c : Content α), (after k gut [] ops).at? b = some c → ∃ x, s.get b = some x ∧ Reports n x c) ∧
      (∀ l ∈ s.buried, replay none l = some none) := by
  have key : ∀ (ops : List (Op α)) (s : State α), VInv n s → legalRun n k first gut s.world ops →
      ∃ s', run k first gut s ops = some s' ∧ VInv n s' ∧ s'.world = after k gut s.world ops := by
    intro ops
    induction ops with
    | nil => exact fun s hi _ => ⟨s, rfl, hi, rfl⟩
    | cons op ops ih =>
      intro s hi hl
      obtain ⟨s1, h1, h2, h3⟩ := step_ok k first gut s op hi hl.1
      obtain ⟨s2, g1, g2, g3⟩ := ih s1 h2 (by rw [h3]; exact hl.2)
      exact ⟨s2, by simp [run, h1, g1], g2, by rw [g3, h3]; rfl⟩
  obtain ⟨s, h1, h2, h3⟩ := key ops State.init
    ⟨inv_init, by intro b x h; simp [State.get, State.init, rd] at h⟩ hl
  refine ⟨s, h1, h3, ?_, h2.inv.buried⟩
  intro b c hc
  have h3' : s.world = after k gut [] ops := h3
  rw [← h3'] at hc
  obtain ⟨x, hx, hlive⟩ := of_world hc
  exact ⟨x, hx, hlive ▸ reports_of_fine (h2.only b x hx)⟩

/-- With distinct alternative types, `holds_alternative<T_i>` says whether alternative `i` is the live one. -/
theorem holdsAlternative_spec {n : Nat} (first : Nat → Nat) (x : Box α) (c : Content α) (h : Fine n x c) (i : Nat)
    (hf : first i = i) : holdsAlternative first x i = decide (c.map Prod.fst = some i) := by
  unfold holdsAlternative
  rw [tag_of h, hf, Bool.eq_iff_iff]
  simp

/-- When an earlier alternative has the same type, `emplace<I>` sets the index to that one: `index()` is not `I` and
`get<I>` throws. -/
theorem emplace_duplicate_type {n : Nat} (k : Nat → Kind) (first : Nat → Nat) (x : Box α) (c : Content α) (i : Nat)
    (v : α) (h : Fine n x c) (hf : first i ≠ i) :
    ∃ y, emplace k first x i v = some y ∧ y.tag ≠ some i ∧ get y i = some .throws := by
  obtain ⟨sl, h1, h2, h3⟩ := destroyIfValid_ok (k := k) h
  exact ⟨⟨sl.construct (first i) v, some (first i)⟩, by simp [emplace, h1], by simp [hf], by simp [get, hf]⟩

/-- Assigning a variant holding a non-assignable alternative to itself destroys the object and copies from it. -/
theorem self_assign_undefined {n : Nat} (k : Nat → Kind) (first : Nat → Nat) (gut : α → α) (s : State α) (hi : VInv n s)
    (b i : Nat) (v : α) (hk : (k i).assignable = false) (hc : s.world.at? b = some (some (i, v))) :
    step k first gut s (.assignCopy b b) = none ∧ step k first gut s (.assignMove b b) = none := by
  obtain ⟨x, hx, hl⟩ := of_world hc
  have ht := tag_of (hi.only b x hx)
  rw [hl] at ht
  constructor <;>
    simp [step, hx, ht, srcOf, assignFrom, hk, rebuild, destroyIfValid, Slot.destroy, hl, Slot.read]

/-- Copying a variant whose current alternative is not copy constructible makes a variant with the same index and
nothing in it (before C++20; with concepts the copy constructor is removed). -/
theorem copy_of_noncopyable_is_hollow {n : Nat} (k : Nat → Kind) (y : Box α) (i : Nat) (v : α)
    (hy : Fine n y (some (i, v))) (hk : (k i).copyable = false) :
    ∃ z, copyCtor k y = some z ∧ z.tag = some i ∧ get z i = none ∧
      ((k i).trivial = false → destroyIfValid k z = none) := by
  have ht := tag_of hy
  refine ⟨⟨Slot.raw, some i⟩, by simp [copyCtor, ht, hk], rfl, by simp [get, Slot.read, Slot.raw], fun h => ?_⟩
  simp [destroyIfValid, Slot.destroy, Slot.raw, h]

/-! ### The hypotheses are met -/

/-- `variant<int, std::string, const_like, int>` -/
def kinds : Nat → Kind
  | 0 => ⟨true, true, true⟩
  | 1 => ⟨false, true, true⟩
  | 2 => ⟨false, false, true⟩
  | _ => ⟨true, true, true⟩

def first : Nat → Nat
  | 3 => 0
  | i => i

def sample : List (Op Nat) :=
  [.new 0 0, .new 2 5, .copy 1, .assign 0 1 7 true true, .assignCopy 2 0, .assignMove 0 1, .emplace 1 1 8,
   .assignMove 2 1, .assignCopy 2 2, .move 2, .assignCopy 0 2, .new 3 4, .destroy 0, .destroy 1, .destroy 3]

example : legalRun 4 kinds first (fun _ => 0) [] sample := by decide

example : after kinds (fun _ => 0) [] sample = [none, none, some none, none, some (some (3, 4))] := by decide

example : (run kinds first (fun _ => 0) State.init sample).map (fun s => s.buried) =
    some [[.ctor 0, .dtor 0, .ctor 1, .dtor 1, .ctor 2, .dtor 2], [.ctor 2, .dtor 2, .ctor 1, .dtor 1],
      [.ctor 1, .dtor 1]] := by decide

example : first 3 ≠ 3 := by decide

example : Fine 4 (⟨Slot.raw.construct 2 7, some 2⟩ : Box Nat) (some (2, 7)) := fine_new 7 (by decide)

end Verif.Sum.Variant
