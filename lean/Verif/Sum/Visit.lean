import Verif.Sum.VariantProps
import Verif.Sum.Compare

/-!
# C85: visiting a variant, and making one from a value

Modelled from `src/estd/internal/variant.h:193-200, 233-252, 286-308`, `src/estd/internal/variant/storage.h:112-201,
232-259, 316-319, 544-579, 631-643` and `type_visitor::visit`, `src/estd/internal/variadic/visitor.h:281-300`.  The variants
are those of C34.

A functor is called with the number of an alternative and a reference into the storage of the variant.  It may keep
state, read and write the object it was given, and change the variant by other means (it may have captured it), so it maps
its state, the number and the variant to an answer, a state and a variant; `none` is undefined behaviour inside it.
Making the reference is harmless; reading through it is not when the alternative is not the live one.
-/
namespace Verif.Sum.Variant
open Verif.Sum Verif.Sum.Spec

/-- a functor: `f(visitor_instance<I, T_I>{*get<I>()}, …)` -/
abbrev Visitor (σ : Type v) (α : Type u) := σ → Nat → Box α → Option (Bool × σ × Box α)

/-- `type_visitor::visit<I>` (visitor.h:281-300) over `index_visitor` (storage.h:132-153): `left` counts the instantiations
to come.  `index_` is handed down by reference and read again at every `I` (variant.h:301-305). -/
def visitIndexFrom (f : Visitor σ α) : Nat → Nat → σ → Box α → Option (Option Nat × σ × Box α)
  | 0, _, s, x => some (none, s, x)
  | left + 1, i, s, x =>
    if x.tag == some i then
      match f s i x with
      | none => none
      | some (true, s', x') => some (some i, s', x')
      | some (false, s', x') => visitIndexFrom f left (i + 1) s' x'
    else visitIndexFrom f left (i + 1) s x

/-- `variant::visit_index(f)`, variant.h:286-308, of a variant with `n` alternatives; the answer `none` is `variant_npos` -/
def visitIndex (f : Visitor σ α) (n : Nat) (s : σ) (x : Box α) : Option (Option Nat × σ × Box α) :=
  visitIndexFrom f n 0 s x

/-- `type_visitor::visit<I>` over `getter_functor2`, storage.h:168-181: no look at the index -/
def visitFrom (f : Visitor σ α) : Nat → Nat → σ → Box α → Option (Option Nat × σ × Box α)
  | 0, _, s, x => some (none, s, x)
  | left + 1, i, s, x =>
    match f s i x with
    | none => none
    | some (true, s', x') => some (some i, s', x')
    | some (false, s', x') => visitFrom f left (i + 1) s' x'

/-- `variant::visit(f)`, variant.h:193-200 with `visit_instance`, storage.h:544-557 -/
def visit (f : Visitor σ α) (n : Nat) (s : σ) (x : Box α) : Option (Option Nat × σ × Box α) := visitFrom f n 0 s x

/-- a functor that reads the object it is given and may write to it -/
def onValue (g : σ → Nat → α → Bool × σ × α) : Visitor σ α := fun s i x =>
  match x.slot.read (.own i) with
  | none => none
  | some v => some ((g s i v).1, (g s i v).2.1, ⟨⟨some (i, (g s i v).2.2), x.slot.log⟩, x.tag⟩)

/-- a functor that looks at the type only -/
def onType (p : Nat → Bool) : Visitor σ α := fun s i x => some (p i, s, x)

/-- `variant_storage::destroy(index)`, storage.h:316-319: `visit_index` (187-201, the index by value) with
`destroyer_functor` (112-121); tells whether anything was destroyed -/
def destroyFrom (k : Nat → Kind) (index : Option Nat) : Nat → Nat → Slot α → Option (Bool × Slot α)
  | 0, _, s => some (false, s)
  | left + 1, i, s =>
    if index == some i then (s.destroy k i).map fun s' => (true, s') else destroyFrom k index left (i + 1) s

/-- the copy constructor, variant.h:207-216: `visit` (storage.h:559-567) with `copying_constructor_functor` (232-249), which
declines an alternative that is not copy constructible or not the index -/
def copyFrom (k : Nat → Kind) (y : Box α) : Nat → Nat → Slot α → Option (Slot α)
  | 0, _, s => some s
  | left + 1, i, s =>
    if (k i).copyable && y.tag == some i then (y.slot.read (.own i)).map (s.construct i) else copyFrom k y left (i + 1) s

/-- the move constructor, variant.h:266-274: `visit` with `moving_constructor_functor` (65-86); the new storage and the
storage of the source -/
def moveFrom (k : Nat → Kind) (tag : Option Nat) : Nat → Nat → Slot α → Slot α → Option (Slot α × Slot α)
  | 0, _, s, src => some (s, src)
  | left + 1, i, s, src =>
    if tag == some i then
      match src.read (.own i), src.destroy k i with
      | some v, some src' => some (s.construct i v, src')
      | _, _ => none
    else moveFrom k tag left (i + 1) s src

/-- the converting constructor `variant(T&&)`, variant.h:233-252, with `converting_constructor_functor2`, storage.h:631-643:
`can I` says whether `T_I` is constructible from `T`, `cv I` is the conversion.  The index is what `visit` answers, `-1`
becoming `variant_npos` (storage.h:565). -/
def convertFrom (can : Nat → Bool) (cv : Nat → β → α) (t : β) : Nat → Nat → Box α
  | 0, _ => ⟨Slot.raw, none⟩
  | left + 1, i =>
    if can i then ⟨Slot.raw.construct i (cv i t), some i⟩ else convertFrom can cv t left (i + 1)

def convert (can : Nat → Bool) (cv : Nat → β → α) (n : Nat) (t : β) : Box α := convertFrom can cv t n 0

/-! ## Lemmas -/

theorem visitIndexFrom_skip (f : Visitor σ α) (s : σ) (x : Box α) (left i : Nat)
    (h : ∀ j, x.tag = some j → j < i ∨ i + left ≤ j) : visitIndexFrom f left i s x = some (none, s, x) := by
  induction left generalizing i with
  | zero => rfl
  | succ n ih =>
    unfold visitIndexFrom
    rw [if_neg (by
      intro e
      have := h i (by simpa using e)
      omega)]
    exact ih (i + 1) fun j hj => by have := h j hj; omega

theorem visitIndexFrom_reach (f : Visitor σ α) (s : σ) (x : Box α) (t : Nat) (ht : x.tag = some t) (left i : Nat)
    (hi : i ≤ t) : visitIndexFrom f (t - i + left) i s x = visitIndexFrom f left t s x := by
  obtain ⟨d, rfl⟩ : ∃ d, t = i + d := ⟨t - i, by omega⟩
  clear hi
  induction d generalizing i with
  | zero => simp
  | succ d ih =>
    have e : i + (d + 1) - i + left = (d + left) + 1 := by omega
    rw [e]
    conv => lhs; unfold visitIndexFrom
    rw [if_neg (by rw [ht]; simp)]
    have := ih (i + 1) (by rw [ht]; congr 1; omega)
    rw [show i + 1 + d - (i + 1) + left = d + left by omega] at this
    rw [this]
    congr 1
    omega

/-- the walk meets the live alternative first -/
theorem visitIndex_reach (f : Visitor σ α) (n : Nat) (s : σ) (x : Box α) (t : Nat) (ht : x.tag = some t) (hn : t < n) :
    visitIndex f n s x = match f s t x with
      | none => none
      | some (true, s', x') => some (some t, s', x')
      | some (false, s', x') => visitIndexFrom f (n - t - 1) (t + 1) s' x' := by
  have := visitIndexFrom_reach f s x t ht (n - t) 0 (by omega)
  unfold visitIndex
  rw [show n = t - 0 + (n - t) by omega, this, show n - t = (n - t - 1) + 1 by omega]
  conv => lhs; unfold visitIndexFrom
  rw [if_pos (by simp [ht])]
  have e : t - 0 + (n - t - 1 + 1) - t - 1 = n - t - 1 := by omega
  rw [e]

/-! ## Properties -/

/-- What the caller of `visit_index` is told about a variant with content `c`: a functor that reads (and may write) the
object it gets is called once, with the live alternative, or not at all when there is none; the answer is the index if it
accepts and npos otherwise; the variant keeps its alternative, with what was written. -/
def Spec.Shows (n : Nat) (g : σ → Nat → α → Bool × σ × α) (s : σ) (log : List Event) (c : Content α)
    (r : Option (Option Nat × σ × Box α)) : Prop :=
  match c with
  | none => ∃ x', r = some (none, s, x') ∧ Reports n x' none ∧ x'.slot.log = log
  | some (i, v) => ∃ x', r = some (if (g s i v).1 then some i else none, (g s i v).2.1, x') ∧
      Reports n x' (some (i, (g s i v).2.2)) ∧ x'.slot.log = log

/-- `visit_index` on a variant holding `c`. -/
theorem visit_index_value (n : Nat) (g : σ → Nat → α → Bool × σ × α) (s : σ) (x : Box α) (c : Content α)
    (h : Fine n x c) : Spec.Shows n g s x.slot.log c (visitIndex (onValue g) n s x) := by
  have ht := tag_of h
  cases c with
  | none =>
    exact ⟨x, visitIndexFrom_skip _ s x n 0 (by rw [ht]; simp), reports_of_fine h, rfl⟩
  | some p =>
    obtain ⟨i, v⟩ := p
    have hn := h.2.2 _ rfl
    have hr : x.slot.read (.own i) = some v := by simp [Slot.read, h.2.1]
    simp only [Option.map_some] at ht
    refine ⟨⟨⟨some (i, (g s i v).2.2), x.slot.log⟩, x.tag⟩, ?_, ?_, rfl⟩
    · rw [visitIndex_reach _ n s x i ht hn]
      simp only [onValue, hr]
      cases hg : (g s i v).1 with
      | true => simp
      | false =>
        simp only [Bool.false_eq_true, if_false]
        exact visitIndexFrom_skip _ _ _ _ _ (by intro j hj; simp only [ht, Option.some.injEq] at hj; omega)
    · apply reports_of_fine
      refine ⟨⟨?_, by simp [ht]⟩, rfl, by intro p hp; simp at hp; rw [← hp]; exact hn⟩
      have := h.1.good
      unfold Slot.good at this ⊢
      rw [h.2.1] at this
      exact this

theorem history_inv (n : Nat) (k : Nat → Kind) (first : Nat → Nat) (gut : α → α) (ops : List (Op α))
    (hl : legalRun n k first gut [] ops) :
    ∃ s, run k first gut State.init ops = some s ∧ VInv n s ∧ s.world = after k gut [] ops := by
  have key : ∀ (ops : List (Op α)) (s : State α), VInv n s → legalRun n k first gut s.world ops →
      ∃ s', run k first gut s ops = some s' ∧ VInv n s' ∧ s'.world = after k gut s.world ops := by
    intro ops
    induction ops with
    | nil => exact fun s hi _ => ⟨s, rfl, hi, rfl⟩
    | cons op ops ih =>
      intro s hi hl
      obtain ⟨s1, h1, h2, h3⟩ := step_ok k first gut s op hi hl.1
      obtain ⟨s2, g1, g2, g3⟩ := ih s1 h2 (by rw [h3]; exact hl.2)
      exact ⟨s2, by simp [run, h1, g1], g2, by rw [g3, h3]; rfl⟩
  exact key ops State.init ⟨inv_init, by intro b x h; simp [State.get, State.init, rd] at h⟩ hl

/-- **C85 (partial).** After every history of C34, `visit_index` on a variant shows the functor the live object, once, and
nothing when the variant is valueless; it answers the index when the functor accepts and npos otherwise, and changes
nothing but what the functor writes.

Missing: functors that replace the content of the variant they are visiting (`visit_index_again`), and `visit`, which shows
objects that do not exist (`visit_defined_iff`). -/
theorem visit_index_history_partial (n : Nat) (k : Nat → Kind) (first : Nat → Nat) (gut : α → α) (ops : List (Op α))
    (hl : legalRun n k first gut [] ops) (g : σ → Nat → α → Bool × σ × α) (s0 : σ) :
    ∃ s, run k first gut State.init ops = some s ∧
      ∀ (b : Nat) (c : Content α), (after k gut [] ops).at? b = some c →
        ∃ x, s.get b = some x ∧ Spec.Shows n g s0 x.slot.log c (visitIndex (onValue g) n s0 x) := by
  obtain ⟨s, h1, h2, h3⟩ := history_inv n k first gut ops hl
  refine ⟨s, h1, fun b c hc => ?_⟩
  rw [← h3] at hc
  obtain ⟨x, hx, hlive⟩ := of_world hc
  exact ⟨x, hx, visit_index_value n g s0 x c (hlive ▸ h2.only b x hx)⟩

/-- A functor that accepts, or leaves the variant with an alternative no later than the one it was shown, is called once,
whatever else it does to the variant. -/
theorem visit_index_once (f : Visitor σ α) (n : Nat) (s s' : σ) (x x' : Box α) (i : Nat) (b : Bool) (ht : x.tag = some i)
    (hn : i < n) (hf : f s i x = some (b, s', x')) (hk : b = true ∨ ∀ j, x'.tag = some j → j ≤ i) :
    visitIndex f n s x = some (if b then some i else none, s', x') := by
  rw [visitIndex_reach f n s x i ht hn, hf]
  cases b with
  | true => rfl
  | false =>
    have hk' : ∀ j, x'.tag = some j → j ≤ i := by simpa using hk
    exact visitIndexFrom_skip f s' x' _ _ fun j hj => by have := hk' j hj; omega

/-- **Violation.** A functor that declines after putting a later alternative into the variant is called a second time, with
the new object: the rest of the walk is a visit of its own.  (The index is read again at every step.) -/
theorem visit_index_again (f : Visitor σ α) (n : Nat) (s s' : σ) (x x' : Box α) (i j : Nat) (ht : x.tag = some i)
    (hf : f s i x = some (false, s', x')) (ht' : x'.tag = some j) (hij : i < j) (hn : j < n) :
    visitIndex f n s x = visitIndex f n s' x' := by
  rw [visitIndex_reach f n s x i ht (by omega), hf]
  simp only
  have h1 := visitIndexFrom_reach f s' x' j ht' (n - j) (i + 1) (by omega)
  have h2 := visitIndexFrom_reach f s' x' j ht' (n - j) 0 (by omega)
  rw [show j - (i + 1) + (n - j) = n - i - 1 by omega] at h1
  rw [show j - 0 + (n - j) = n by omega] at h2
  unfold visitIndex
  rw [h1, h2]

/-- **Violation.** `visit` shows the functor every alternative in turn, whichever is the live one.  With a functor that
reads what it is shown, this is defined only when alternative 0 is the live one and is accepted (or is the only one). -/
theorem visit_defined_iff (n : Nat) (g : σ → Nat → α → Bool × σ × α) (s : σ) (x : Box α) (c : Content α)
    (h : Fine n x c) :
    (∃ r, visit (onValue g) n s x = some r) ↔
      n = 0 ∨ ∃ v, c = some (0, v) ∧ ((g s 0 v).1 = true ∨ n = 1) := by
  cases n with
  | zero => simp [visit, visitFrom]
  | succ n =>
    simp only [visit, visitFrom, Nat.succ_ne_zero, false_or]
    by_cases h0 : ∃ v, c = some (0, v)
    · obtain ⟨v, rfl⟩ := h0
      have hr : x.slot.read (.own 0) = some v := by simp [Slot.read, h.2.1]
      simp only [onValue, hr]
      cases hg : (g s 0 v).1 with
      | true => simp [hg]
      | false =>
        cases n with
        | zero => simp [visitFrom]
        | succ n =>
          simp only [visitFrom, onValue, Slot.read]
          simp [hg]
    · have hr : x.slot.read (.own 0) = none := by
        unfold Slot.read
        rw [h.2.1]
        cases c with
        | none => rfl
        | some p =>
          obtain ⟨i, v⟩ := p
          simp only
          rw [if_neg]
          rintro rfl
          exact h0 ⟨v, rfl⟩
      simp only [onValue, hr]
      constructor
      · rintro ⟨r, hr⟩; cases hr
      · rintro ⟨v, hv, _⟩; exact absurd ⟨v, hv⟩ h0

/-- Where it is defined, `visit` agrees with `visit_index`. -/
theorem visit_eq_visit_index (n : Nat) (g : σ → Nat → α → Bool × σ × α) (s : σ) (x : Box α) (v : α)
    (h : Fine n x (some (0, v))) (hg : (g s 0 v).1 = true ∨ n = 1) :
    visit (onValue g) n s x = visitIndex (onValue g) n s x := by
  have hn := h.2.2 _ rfl
  have hr : x.slot.read (.own 0) = some v := by simp [Slot.read, h.2.1]
  have ht := tag_of h
  simp only [Option.map_some] at ht
  obtain ⟨m, rfl⟩ : ∃ m, n = m + 1 := ⟨n - 1, by simp only at hn; omega⟩
  simp only [visit, visitIndex, visitFrom, visitIndexFrom, ht, beq_self_eq_true, if_true, onValue, hr]
  rcases hg with hg | hg
  · simp [hg]
  · obtain rfl : m = 0 := by omega
    simp [visitFrom, visitIndexFrom]

/-- **Violation.** What `visit` answers to a functor that goes by the type does not depend on what the variant holds: it is
the first alternative of that type. -/
theorem visit_ignores_content (n : Nat) (p : Nat → Bool) (s : σ) (x : Box α) :
    ∃ r, visit (onType p) n s x = some (r, s, x) ∧
      (∀ i, r = some i ↔ i < n ∧ p i = true ∧ ∀ j, j < i → p j = false) := by
  have key : ∀ left i, (∀ j, j < i → p j = false) → ∃ r, visitFrom (onType p) left i s x = some (r, s, x) ∧
      (∀ t, r = some t ↔ t < i + left ∧ p t = true ∧ ∀ j, j < t → p j = false) := by
    intro left
    induction left with
    | zero =>
      intro i hi
      refine ⟨none, rfl, fun t => ⟨by simp, ?_⟩⟩
      rintro ⟨h1, h2, _⟩
      rw [hi t (by omega)] at h2
      cases h2
    | succ left ih =>
      intro i hi
      unfold visitFrom
      simp only [onType]
      cases hp : p i with
      | true =>
        refine ⟨some i, rfl, fun t => ?_⟩
        rw [Option.some.injEq]
        constructor
        · rintro rfl; exact ⟨by omega, hp, hi⟩
        · rintro ⟨_, h2, h3⟩
          by_cases h : i < t
          · rw [h3 i h] at hp; cases hp
          · by_cases h' : t < i
            · rw [hi t h'] at h2; cases h2
            · omega
      | false =>
        obtain ⟨r, h1, h2⟩ := ih (i + 1) (fun j hj => by
          by_cases e : j = i
          · rw [e]; exact hp
          · exact hi j (by omega))
        refine ⟨r, h1, fun t => ?_⟩
        rw [h2 t, show i + 1 + left = i + (left + 1) by omega]
  obtain ⟨r, h1, h2⟩ := key n 0 (by omega)
  exact ⟨r, h1, by simpa using h2⟩

/-! ### The operations of C34 that are visits -/

theorem destroyFrom_spec (k : Nat → Kind) (index : Option Nat) (s : Slot α) (left i : Nat) :
    destroyFrom k index left i s = match index with
      | some t => if i ≤ t ∧ t < i + left then (s.destroy k t).map fun s' => (true, s') else some (false, s)
      | none => some (false, s) := by
  induction left generalizing i with
  | zero =>
    cases index with
    | none => rfl
    | some t => simp only; rw [if_neg (by omega)]; rfl
  | succ left ih =>
    unfold destroyFrom
    rw [ih]
    cases index with
    | none => rfl
    | some t =>
      by_cases e : t = i
      · subst e; rw [if_pos (by simp)]; simp only; rw [if_pos (by omega)]
      · rw [if_neg (by simpa using e)]
        simp only
        by_cases h : i + 1 ≤ t ∧ t < i + 1 + left
        · rw [if_pos h, if_pos (by omega)]
        · rw [if_neg h, if_neg (by omega)]

/-- Destroying by visiting destroys the live alternative and tells whether there was one. -/
theorem destroy_visits {n : Nat} (k : Nat → Kind) (x : Box α) (c : Content α) (h : Fine n x c) :
    ∃ sl, destroyFrom k x.tag n 0 x.slot = some (c.isSome, sl) ∧ destroyIfValid k x = some sl ∧ sl.live = none ∧
      replay none sl.log = some none := by
  obtain ⟨sl, h1, h2, h3⟩ := destroyIfValid_ok (k := k) h
  have ht := tag_of h
  unfold Slot.good at h2
  rw [h3] at h2
  refine ⟨sl, ?_, h1, h3, h2⟩
  rw [destroyFrom_spec]
  unfold destroyIfValid at h1
  rw [ht] at h1 ⊢
  cases c with
  | none => simp only [Option.map_none, Option.some.injEq] at h1 ⊢; rw [h1]; rfl
  | some p =>
    simp only [Option.map_some] at h1 ⊢
    have := h.2.2 p rfl
    rw [if_pos (by omega), h1]
    rfl

theorem copyFrom_spec (k : Nat → Kind) (y : Box α) (s : Slot α) (left i : Nat) :
    copyFrom k y left i s = match y.tag with
      | some t => if i ≤ t ∧ t < i + left ∧ (k t).copyable = true then (y.slot.read (.own t)).map (s.construct t) else some s
      | none => some s := by
  induction left generalizing i with
  | zero =>
    cases y.tag with
    | none => rfl
    | some t => simp only; rw [if_neg (by omega)]; rfl
  | succ left ih =>
    unfold copyFrom
    rw [ih]
    cases y.tag with
    | none => simp
    | some t =>
      by_cases e : t = i
      · subst e
        cases hc : (k t).copyable with
        | true => simp [hc]
        | false => simp [hc]
      · have : ((k i).copyable && (some t == some i)) = false := by simp [e]
        rw [this]
        simp only [Bool.false_eq_true, if_false]
        by_cases h : i + 1 ≤ t ∧ t < i + 1 + left ∧ (k t).copyable = true
        · rw [if_pos h, if_pos (by obtain ⟨a, b, d⟩ := h; exact ⟨by omega, by omega, d⟩)]
        · rw [if_neg h, if_neg (by rintro ⟨a, b, d⟩; exact h ⟨by omega, by omega, d⟩)]

/-- Copying by visiting is what C34 says of the copy constructor. -/
theorem copy_visits {n : Nat} (k : Nat → Kind) (y : Box α) (c : Content α) (h : Fine n y c) :
    (copyFrom k y n 0 Slot.raw).map (fun s => (⟨s, y.tag⟩ : Box α)) = copyCtor k y := by
  rw [copyFrom_spec]
  unfold copyCtor
  have ht := tag_of h
  rw [ht]
  cases c with
  | none => rfl
  | some p =>
    have := h.2.2 p rfl
    simp only [Option.map_some]
    cases hc : (k p.1).copyable with
    | true => rw [if_pos ⟨by omega, by omega, rfl⟩, if_pos rfl, Option.map_map]; rfl
    | false => simp

theorem moveFrom_spec (k : Nat → Kind) (tag : Option Nat) (s src : Slot α) (left i : Nat) :
    moveFrom k tag left i s src = match tag with
      | some t =>
        if i ≤ t ∧ t < i + left then
          match src.read (.own t), src.destroy k t with
          | some v, some src' => some (s.construct t v, src')
          | _, _ => none
        else some (s, src)
      | none => some (s, src) := by
  induction left generalizing i with
  | zero =>
    cases tag with
    | none => rfl
    | some t => simp only; rw [if_neg (by omega)]; rfl
  | succ left ih =>
    unfold moveFrom
    rw [ih]
    cases tag with
    | none => rfl
    | some t =>
      by_cases e : t = i
      · subst e; rw [if_pos (by simp)]; simp only; rw [if_pos (by omega)]
      · rw [if_neg (by simpa using e)]
        simp only
        by_cases h : i + 1 ≤ t ∧ t < i + 1 + left
        · rw [if_pos h, if_pos (by omega)]
        · rw [if_neg h, if_neg (by omega)]

/-- Moving by visiting is what C34 says of the move constructor. -/
theorem move_visits {n : Nat} (k : Nat → Kind) (y : Box α) (c : Content α) (h : Fine n y c) :
    (moveFrom k y.tag n 0 Slot.raw y.slot).map (fun p => ((⟨p.1, y.tag⟩ : Box α), (⟨p.2, none⟩ : Box α))) =
      moveCtor k y := by
  rw [moveFrom_spec]
  unfold moveCtor
  have ht := tag_of h
  rw [ht]
  cases c with
  | none => rfl
  | some p =>
    have := h.2.2 p rfl
    simp only [Option.map_some]
    rw [if_pos (by omega)]
    cases y.slot.read (.own p.1) with
    | none => rfl
    | some v => cases y.slot.destroy k p.1 <;> rfl

/-! ### Making a variant from a value -/

theorem convertFrom_spec (can : Nat → Bool) (cv : Nat → β → α) (t : β) (left i : Nat) :
    (∃ j, i ≤ j ∧ j < i + left ∧ can j = true ∧ (∀ m, i ≤ m → m < j → can m = false) ∧
      convertFrom can cv t left i = ⟨Slot.raw.construct j (cv j t), some j⟩) ∨
    ((∀ m, i ≤ m → m < i + left → can m = false) ∧ convertFrom can cv t left i = ⟨Slot.raw, none⟩) := by
  induction left generalizing i with
  | zero => right; exact ⟨by omega, rfl⟩
  | succ left ih =>
    unfold convertFrom
    cases hc : can i with
    | true => left; exact ⟨i, by omega, by omega, hc, by omega, by simp⟩
    | false =>
      simp only [Bool.false_eq_true, if_false]
      have ext : ∀ m, i ≤ m → (i + 1 ≤ m → can m = false) → can m = false := by
        intro m hm h
        by_cases e : m = i
        · rw [e]; exact hc
        · exact h (by omega)
      rcases ih (i + 1) with ⟨j, h1, h2, h3, h4, h5⟩ | ⟨h1, h2⟩
      · left; exact ⟨j, by omega, by omega, h3, fun m hm hj => ext m hm fun h => h4 m h hj, h5⟩
      · right; exact ⟨fun m hm hj => ext m hm fun h => h1 m h (by omega), h2⟩

/-- **C85 (partial).** A variant made from a value holds that value, converted, as the first alternative that can be made
from it; so it holds the alternative `i` of the value's own type when no earlier alternative can be made from it.

Missing: an earlier alternative that can be made from it takes precedence over the type itself (`convert_prefers_earlier`),
and when none can be made from it the variant is silently valueless (`convert_nothing`). -/
theorem convert_partial (can : Nat → Bool) (cv : Nat → β → α) (n : Nat) (t : β) (i : Nat) (hi : i < n) (hc : can i = true)
    (hfirst : ∀ j, j < i → can j = false) : Reports n (convert can cv n t) (some (i, cv i t)) := by
  unfold convert
  rcases convertFrom_spec can cv t n 0 with ⟨j, _, h2, h3, h4, h5⟩ | ⟨h1, _⟩
  · have : j = i := by
      by_cases h : j < i
      · rw [hfirst j h] at h3; cases h3
      · by_cases h' : i < j
        · rw [h4 i (by omega) h'] at hc; cases hc
        · omega
    subst this
    rw [h5]
    exact reports_of_fine (fine_new _ hi)
  · rw [h1 i (by omega) (by omega)] at hc; cases hc

/-- **Violation.** A value of the type of alternative `i` becomes an earlier alternative if one can be made from it: an `int`
given to `variant<double, int>` is stored as a `double`. -/
theorem convert_prefers_earlier (can : Nat → Bool) (cv : Nat → β → α) (n : Nat) (t : β) (i j : Nat) (hi : i < n)
    (hj : j < i) (hc : can j = true) : get (convert can cv n t) i = some .throws := by
  unfold convert
  rcases convertFrom_spec can cv t n 0 with ⟨m, _, h2, h3, h4, h5⟩ | ⟨h1, h2⟩
  · have : m ≠ i := by
      rintro rfl
      rw [h4 j (by omega) hj] at hc; cases hc
    rw [h5]
    simp [get, this]
  · rw [h2]; simp [get]

/-- **Violation.** From a value that no alternative can be made from, a variant is made all the same; it is valueless. -/
theorem convert_nothing (can : Nat → Bool) (cv : Nat → β → α) (n : Nat) (t : β) (h : ∀ i, i < n → can i = false) :
    Reports n (convert can cv n t) none := by
  unfold convert
  rcases convertFrom_spec can cv t n 0 with ⟨m, _, h2, h3, _, _⟩ | ⟨_, h2⟩
  · rw [h m (by omega)] at h3; cases h3
  · rw [h2]; exact reports_of_fine fine_raw

/-! ### The hypotheses are met -/

/-- counts its calls, multiplies the object by ten and accepts alternative 2 -/
def tenfold : Nat → Nat → Nat → Bool × Nat × Nat := fun s i v => (i == 2, s + 1, v * 10)

example : (visitIndex (onValue tenfold) 4 0 ⟨Slot.raw.construct 2 7, some 2⟩).map (fun r => (r.1, r.2.1, r.2.2.slot.live)) =
    some (some 2, 1, some (2, 70)) := by decide

example : (visitIndex (onValue tenfold) 4 0 ⟨Slot.raw.construct 1 7, some 1⟩).map (fun r => (r.1, r.2.1, r.2.2.slot.live)) =
    some (none, 1, some (1, 70)) := by decide

/-- the test's functor, on a variant that holds an `int`: the answer is the `const char*` it does not hold -/
example : (visit (onType (σ := Unit) (α := Nat) (· == 3)) 4 () ⟨Slot.raw.construct 1 7, some 1⟩).map (·.1) =
    some (some 3) := by decide

example : visit (onValue tenfold) 4 0 ⟨Slot.raw.construct 2 7, some 2⟩ = none := by decide

/-- counts its calls, declines, and puts alternative 3 into the variant -/
def restless : Visitor Nat Nat := fun s _ x =>
  (emplace kinds id x 3 s).map fun x' => (false, s + 1, x')

example : (visitIndex restless 4 0 ⟨Slot.raw.construct 1 7, some 1⟩).map (·.2.1) = some 2 := by decide

example : Reports 3 (convert (fun i => i == 1) (fun _ v => v) 3 8) (some (1, 8)) :=
  convert_partial _ _ 3 8 1 (by decide) rfl (by intro j hj; obtain rfl : j = 0 := by omega
                                                rfl)

end Verif.Sum.Variant
