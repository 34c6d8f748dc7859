import Verif.Algorithm.Model
import Verif.Algorithm.Spec
/-!
# Property theorems for the sequence algorithms (C01-C05)
-/
namespace Verif.Algorithm
open Verif Spec

variable {α : Type u} {β : Type v}

/-! ## C01 -/

/-- C01: `find_if` returns the first match, without reading outside `[first, last)`: the memory may end at
`last`. -/
theorem find_if_first (m : List α) (p : α → Bool) (first last : Nat)
    (h1 : first ≤ last) (h2 : last ≤ m.length) :
    ∃ r, findIf m p first last = some r ∧ FirstMatch m (fun x => p x = true) first last r := by
  fun_induction findIf m p first last with
  | case1 => exact ⟨last, rfl, by omega, by omega, by grind, by grind⟩
  | case2 first hne h => simp [rd] at h; omega
  | case3 first hne x hx hp =>
    exact ⟨first, rfl, by omega, by omega, by grind, fun _ => ⟨x, hx, hp⟩⟩
  | case4 first hne x hx hp ih =>
    obtain ⟨r, hr, hf⟩ := ih (by omega)
    refine ⟨r, hr, by have := hf.lo; omega, hf.hi, ?_, hf.here⟩
    intro i y hi hi2 hy
    by_cases he : i = first
    · subst he; simp [rd] at hx; grind
    · exact hf.earlier i y (by omega) hi2 hy

example : findIf [4, 7, 9, 2] (fun x => decide (x > 5)) 0 4 = some 1 := by decide +kernel

/-- Membership of a match in the second range, as the inner loop decides it. -/
theorem anyMatch_spec (m : List α) (s : List β) (p : α → β → Bool) (cur it sLast : Nat) (x : α)
    (hx : m[cur]? = some x) (h1 : it ≤ sLast) (h2 : sLast ≤ s.length) :
    ∃ b, anyMatch m s p cur it sLast = some b ∧
      (b = true ↔ ∃ k y, it ≤ k ∧ k < sLast ∧ s[k]? = some y ∧ p x y = true) := by
  fun_induction anyMatch m s p cur it sLast with
  | case1 => exact ⟨false, rfl, by grind⟩
  | case2 it hne x' y' hy hx' hp =>
    simp [rd] at hx' hy
    exact ⟨true, rfl, by simp; exact ⟨it, by omega, by omega, y', by grind⟩⟩
  | case3 it hne x' y' hy hx' hp ih =>
    obtain ⟨b, hb, hiff⟩ := ih (by omega)
    refine ⟨b, hb, hiff.trans ⟨?_, ?_⟩⟩
    · rintro ⟨k, y, h1, h2, h3⟩; exact ⟨k, y, by omega, h2, h3⟩
    · rintro ⟨k, y, h1, h2, h3, h4⟩
      simp [rd] at hx' hy
      by_cases he : k = it
      · subst he; grind
      · exact ⟨k, y, by omega, h2, h3, h4⟩
  | case4 it hne hno =>
    exfalso
    exact hno x (s[it]'(by omega)) (by simpa [rd] using hx) (by simp [rd])

/-- C01: `find_first_of` returns the first cell of `[first, last)` that matches some cell of the second range. -/
theorem find_first_of_first (m : List α) (s : List β) (p : α → β → Bool) (first last sFirst sLast : Nat)
    (h1 : first ≤ last) (h2 : last ≤ m.length) (h3 : sFirst ≤ sLast) (h4 : sLast ≤ s.length) :
    ∃ r, findFirstOf m s p first last sFirst sLast = some r ∧
      FirstMatch m (fun x => ∃ k y, sFirst ≤ k ∧ k < sLast ∧ s[k]? = some y ∧ p x y = true) first last r := by
  fun_induction findFirstOf m s p first last sFirst sLast with
  | case1 => exact ⟨last, rfl, by omega, by omega, by grind, by grind⟩
  | case2 first hne h =>
    obtain ⟨b, hb, _⟩ := anyMatch_spec m s p first sFirst sLast (m[first]'(by omega)) (by grind) h3 h4
    simp [h] at hb
  | case3 first hne h =>
    obtain ⟨b, hb, hi⟩ := anyMatch_spec m s p first sFirst sLast (m[first]'(by omega)) (by grind) h3 h4
    have : b = true := by rw [h] at hb; simpa using hb.symm
    exact ⟨first, rfl, by omega, by omega, by grind, fun _ => ⟨_, by grind, hi.mp this⟩⟩
  | case4 first hne h hlt ih =>
    obtain ⟨b, hb, hi⟩ := anyMatch_spec m s p first sFirst sLast (m[first]'(by omega)) (by grind) h3 h4
    have hbf : b = false := by rw [h] at hb; simpa using hb.symm
    obtain ⟨r, hr, hf⟩ := ih (by omega)
    refine ⟨r, hr, by have := hf.lo; omega, hf.hi, ?_, hf.here⟩
    intro i y hi1 hi2 hy
    by_cases he : i = first
    · subst he; rw [hbf] at hi; simp at hi; grind
    · exact hf.earlier i y (by omega) hi2 hy
  | case5 => omega

example : findFirstOf [1, 5, 3, 9] [9, 3] (fun a b => a == b) 0 4 0 2 = some 2 := by decide +kernel

/-- C01: `find_last_of` returns the last cell of `(first, last]` that matches, `first` when none does. -/
theorem find_last_of_last (m : List α) (s : List β) (p : α → β → Bool) (first last sFirst sLast : Nat)
    (h1 : first ≤ last) (h2 : last < m.length) (h3 : sFirst ≤ sLast) (h4 : sLast ≤ s.length) :
    ∃ r, findLastOf m s p first last sFirst sLast = some r ∧
      LastMatch m (fun x => ∃ k y, sFirst ≤ k ∧ k < sLast ∧ s[k]? = some y ∧ p x y = true) first last r := by
  fun_induction findLastOf m s p first last sFirst sLast with
  | case1 => exact ⟨_, rfl, by omega, by omega, by grind, by grind⟩
  | case2 last hne h =>
    obtain ⟨b, hb, _⟩ := anyMatch_spec m s p last sFirst sLast (m[last]'(by omega)) (by grind) h3 h4
    simp [h] at hb
  | case3 last hne h =>
    obtain ⟨b, hb, hi⟩ := anyMatch_spec m s p last sFirst sLast (m[last]'(by omega)) (by grind) h3 h4
    have : b = true := by rw [h] at hb; simpa using hb.symm
    exact ⟨last, rfl, by omega, by omega, by grind, fun _ => ⟨_, by grind, hi.mp this⟩⟩
  | case4 => omega
  | case5 l hne h ih =>
    obtain ⟨b, hb, hi⟩ := anyMatch_spec m s p (l+1) sFirst sLast (m[l+1]'(by omega)) (by grind) h3 h4
    have hbf : b = false := by rw [h] at hb; simpa using hb.symm
    obtain ⟨r, hr, hf⟩ := ih (by omega) (by omega)
    refine ⟨r, hr, hf.lo, by have := hf.hi; omega, ?_, hf.here⟩
    intro i y hi1 hi2 hy
    by_cases he : i = l + 1
    · subst he; rw [hbf] at hi; simp at hi; grind
    · exact hf.later i y hi1 (by omega) hy

example : findLastOf [1, 5, 3, 9, 2] [5, 3] (fun a b => a == b) 0 4 0 2 = some 2 := by decide +kernel

/-! ## C02 -/

/-- C02: `equal` decides element-wise equality of the first range with the cells from `first2`. -/
theorem equal_iff (eq : α → β → Bool) (m : List α) (m2 : List β) (first1 last1 first2 : Nat)
    (h1 : first1 ≤ last1) (h2 : last1 ≤ m.length) (h3 : first2 + (last1 - first1) ≤ m2.length) :
    ∃ b, equal eq m m2 first1 last1 first2 = some b ∧
      (b = true ↔ ∀ k x y, k < last1 - first1 → m[first1 + k]? = some x → m2[first2 + k]? = some y → eq x y = true) := by
  fun_induction equal eq m m2 first1 last1 first2 with
  | case1 => exact ⟨true, rfl, by grind⟩
  | case2 f1 f2 hne x y hx hy heq =>
    refine ⟨false, rfl, by simp; exact ⟨0, by omega, x, by simpa [rd] using hx, y, by simpa [rd] using hy, by simpa using heq⟩⟩
  | case3 f1 f2 hne x y hx hy heq ih =>
    obtain ⟨b, hb, hi⟩ := ih (by omega) (by omega)
    refine ⟨b, hb, hi.trans ⟨?_, ?_⟩⟩
    · intro h k x' y' hk hx' hy'
      rcases k with _ | k
      · simp [rd] at hx hy; grind
      · exact h k x' y' (by omega) (by rw [← hx']; congr 1; omega) (by rw [← hy']; congr 1; omega)
    · intro h k x' y' hk hx' hy'
      exact h (k + 1) x' y' (by omega) (by rw [← hx']; congr 1; omega) (by rw [← hy']; congr 1; omega)
  | case4 f1 f2 hne hno =>
    exfalso
    exact hno _ _ (rd_lt (by omega)) (rd_lt (by omega))

/-- C02, list form: comparing a whole list against an at least as long one decides the prefix relation. -/
theorem equal_isPrefix [DecidableEq α] (l l2 : List α) (h : l.length ≤ l2.length) :
    equal (fun a b => decide (a = b)) l l2 0 l.length 0 = some (decide (l <+: l2)) := by
  obtain ⟨b, hb, hi⟩ := equal_iff (fun a b : α => decide (a = b)) l l2 0 l.length 0 (by omega) (by omega) (by omega)
  rw [hb]; congr 1
  rw [Bool.eq_iff_iff, hi, decide_eq_true_iff, List.prefix_iff_eq_take]
  constructor
  · intro hk
    apply List.ext_getElem (by simp; omega)
    intro i hi1 hi2
    have := hk i l[i] (l2[i]'(by omega)) (by omega) (by grind) (by grind)
    simpa using this
  · intro he k x y hk hx hy
    simp at hx hy ⊢
    rw [he] at hx
    grind

example : equal (fun a b => decide (a = b)) [1, 2] [1, 2, 3] 0 2 0 = some true := by decide +kernel

/-- C02: `mismatch` returns the first difference, or the end of the first range. -/
theorem mismatch_first (eq : α → β → Bool) (m : List α) (m2 : List β) (first1 last1 first2 : Nat)
    (h1 : first1 ≤ last1) (h2 : last1 ≤ m.length) (h3 : first2 + (last1 - first1) ≤ m2.length) :
    ∃ k, mismatch eq m m2 first1 last1 first2 = some (first1 + k, first2 + k) ∧ k ≤ last1 - first1 ∧
      (∀ j x y, j < k → m[first1 + j]? = some x → m2[first2 + j]? = some y → eq x y = true) ∧
      (k < last1 - first1 → ∃ x y, m[first1 + k]? = some x ∧ m2[first2 + k]? = some y ∧ eq x y = false) := by
  fun_induction mismatch eq m m2 first1 last1 first2 with
  | case1 => exact ⟨0, by simp, by omega, by grind, by grind⟩
  | case2 f1 f2 hne x y hx hy heq ih =>
    obtain ⟨k, hk, hle, hall, hne'⟩ := ih (by omega) (by omega)
    simp [rd] at hx hy
    refine ⟨k + 1, by clear hne' ih hall; rw [hk]; congr 2 <;> omega, by clear hne' ih; omega, ?_, ?_⟩
    · intro j x' y' hj hx' hy'
      rcases j with _ | j
      · grind
      · exact hall j x' y' (by omega) (by rw [← hx']; congr 1; omega) (by rw [← hy']; congr 1; omega)
    · intro hlt
      obtain ⟨x', y', ha, hb, hc⟩ := hne' (by omega)
      exact ⟨x', y', by rw [← ha]; congr 1; omega, by rw [← hb]; congr 1; omega, hc⟩
  | case3 f1 f2 hne x y hx hy heq =>
    exact ⟨0, by simp, by omega, by grind, fun _ => ⟨x, y, by simpa [rd] using hx, by simpa [rd] using hy, by simpa using heq⟩⟩
  | case4 f1 f2 hne hno =>
    exfalso
    exact hno _ _ (rd_lt (by omega)) (rd_lt (by omega))

example : mismatch (fun a b => decide (a = b)) [1, 2, 3] [1, 5, 3] 0 3 0 = some (1, 1) := by decide +kernel

/-! ## C03 -/

theorem searchInner_spec (m : List α) (s : List β) (p : α → β → Bool) (it last sIt sLast : Nat)
    (h1 : it ≤ last) (h2 : last ≤ m.length) (h3 : sIt ≤ sLast) (h4 : sLast ≤ s.length) :
    ∃ o, searchInner m s p it last sIt sLast = some o ∧
      (o = .matched ↔ OccursAt m s p last sIt sLast it) ∧
      (o = .exhausted → last < it + (sLast - sIt)) ∧
      (o = .broke → it < last) := by
  fun_induction searchInner m s p it last sIt sLast with
  | case1 => exact ⟨_, rfl, by simp [OccursAt]; omega, by simp, by simp⟩
  | case2 => exact ⟨_, rfl, by simp [OccursAt]; grind, by simp; omega, by simp⟩
  | case3 it sIt hs ht x y hx hy hp =>
    refine ⟨_, rfl, ?_, by simp, by simp; omega⟩
    simp only [reduceCtorEq, false_iff]
    rintro ⟨_, hk⟩
    obtain ⟨x', y', ha, hb, hc⟩ := hk 0 (by omega)
    simp [rd] at hx hy ha hb
    grind
  | case4 it sIt hs ht x y hx hy hp ih =>
    obtain ⟨o, ho, hm, he, hb⟩ := ih (by omega) (by omega)
    simp [rd] at hx hy
    refine ⟨o, ho, hm.trans ⟨?_, ?_⟩, ?_, ?_⟩
    · rintro ⟨hl, hk⟩
      refine ⟨by omega, ?_⟩
      intro k hk'
      rcases k with _ | k
      · exact ⟨x, y, by simpa using hx, by simpa using hy, by simpa using hp⟩
      · obtain ⟨x', y', ha, hb, hc⟩ := hk k (by omega)
        exact ⟨x', y', by rw [← ha]; congr 1; omega, by rw [← hb]; congr 1; omega, hc⟩
    · rintro ⟨hl, hk⟩
      refine ⟨by omega, ?_⟩
      intro k hk'
      obtain ⟨x', y', ha, hb, hc⟩ := hk (k + 1) (by omega)
      exact ⟨x', y', by rw [← ha]; congr 1; omega, by rw [← hb]; congr 1; omega, hc⟩
    · intro h; have := he h; omega
    · intro h; have := hb h; omega
  | case5 it sIt hs ht hno =>
    exfalso
    exact hno _ _ (rd_lt (by omega)) (rd_lt (by omega))

/-- C03: `search` returns the first occurrence of the needle, `last` when there is none; in particular the
result is always defined (no read outside the two ranges). -/
theorem search_first (m : List α) (s : List β) (p : α → β → Bool) (first last sFirst sLast : Nat)
    (h1 : first ≤ last) (h2 : last ≤ m.length) (h3 : sFirst ≤ sLast) (h4 : sLast ≤ s.length) :
    ∃ r, search m s p first last sFirst sLast = some r ∧ first ≤ r ∧ r ≤ last ∧
      (∀ i, first ≤ i → i < r → ¬ OccursAt m s p last sFirst sLast i) ∧
      (OccursAt m s p last sFirst sLast r ∨
        (r = last ∧ ∀ i, first ≤ i → ¬ OccursAt m s p last sFirst sLast i)) := by
  fun_induction search m s p first last sFirst sLast with
  | case1 first h =>
    obtain ⟨o, ho, _⟩ := searchInner_spec m s p first last sFirst sLast h1 h2 h3 h4
    simp [h] at ho
  | case2 first h =>
    obtain ⟨o, ho, hm, _⟩ := searchInner_spec m s p first last sFirst sLast h1 h2 h3 h4
    rw [h] at ho; cases ho
    exact ⟨first, rfl, by omega, by omega, by grind, Or.inl (hm.mp rfl)⟩
  | case3 first h =>
    obtain ⟨o, ho, hm, he, _⟩ := searchInner_spec m s p first last sFirst sLast h1 h2 h3 h4
    rw [h] at ho; cases ho
    have hl := he rfl
    have key : ∀ i, first ≤ i → ¬ OccursAt m s p last sFirst sLast i := by
      intro i hi ho; have := ho.1; omega
    exact ⟨last, rfl, by omega, by omega, fun i hi _ => key i hi, Or.inr ⟨rfl, key⟩⟩
  | case4 first h hlt ih =>
    obtain ⟨o, ho, hm, he, hb⟩ := searchInner_spec m s p first last sFirst sLast h1 h2 h3 h4
    rw [h] at ho; cases ho
    have hb := hb rfl
    obtain ⟨r, hr, hlo, hhi, hearly, hres⟩ := ih (by omega)
    have hfirst : ¬ OccursAt m s p last sFirst sLast first := fun hc => by simpa using hm.mpr hc
    refine ⟨r, hr, by omega, hhi, ?_, ?_⟩
    · intro i hi hi2
      by_cases he : i = first
      · subst he; exact hfirst
      · exact hearly i (by omega) hi2
    · rcases hres with hres | ⟨hrl, hall⟩
      · exact Or.inl hres
      · refine Or.inr ⟨hrl, fun i hi => ?_⟩
        by_cases he : i = first
        · subst he; exact hfirst
        · exact hall i (by omega)
  | case5 first h hlt =>
    obtain ⟨o, ho, hm, he, hb⟩ := searchInner_spec m s p first last sFirst sLast h1 h2 h3 h4
    rw [h] at ho; cases ho
    have hb := hb rfl
    omega

/-- C03: an empty needle is found at the beginning. -/
theorem search_empty (m : List α) (s : List β) (p : α → β → Bool) (first last sFirst : Nat) :
    search m s p first last sFirst sFirst = some first := by
  unfold search; simp [searchInner]

example : search [1, 1, 2, 1, 1, 3] [1, 1, 3] (fun a b => decide (a = b)) 0 6 0 3 = some 3 := by decide +kernel
example : search [1, 1, 2] [1, 1, 3] (fun a b => decide (a = b)) 0 3 0 3 = some 3 := by decide +kernel

/-! ## C05 -/

theorem minLoop_spec {comp : α → α → Bool} (hs : StrictWeak comp) (m : List α) (base first last sm : Nat)
    (h1 : first ≤ last) (h2 : last ≤ m.length) (hb : base ≤ sm) (hsm : sm < first)
    (hall : ∀ i x y, base ≤ i → i < first → m[i]? = some x → m[sm]? = some y → comp x y = false)
    (hfirst : ∀ i x y, base ≤ i → i < sm → m[i]? = some x → m[sm]? = some y → comp y x = true) :
    ∃ r, minLoop comp m first last sm = some r ∧ base ≤ r ∧ r < last ∧
      (∀ i x y, base ≤ i → i < last → m[i]? = some x → m[r]? = some y → comp x y = false) ∧
      (∀ i x y, base ≤ i → i < r → m[i]? = some x → m[r]? = some y → comp y x = true) := by
  fun_induction minLoop comp m first last sm with
  | case1 => exact ⟨_, rfl, hb, by omega, hall, hfirst⟩
  | case2 first sm hne x y hx hy ih =>
    simp [rd] at hx hy
    by_cases hc : comp x y = true
    · simp only [hc, ↓reduceIte, ↓reduceDIte] at ih ⊢
      refine ih (by omega) (by omega) (by omega) ?_ ?_
      · intro i x' y' hi1 hi2 hx' hy'
        have : y' = x := by grind
        subst this
        by_cases he : i = first
        · subst he; have : x' = y' := by grind
          subst this; exact hs.irrefl _
        · have := hall i x' y hi1 (by omega) hx' hy
          exact hs.negTrans _ _ _ this (hs.asymm hc)
      · intro i x' y' hi1 hi2 hx' hy'
        have : y' = x := by grind
        subst this
        exact hs.lt_of_lt_of_not hc (hall i x' y hi1 (by omega) hx' hy)
    · simp only [hc, Bool.false_eq_true, ↓reduceIte, ↓reduceDIte] at ih ⊢
      refine ih (by omega) (by omega) (by omega) ?_ hfirst
      intro i x' y' hi1 hi2 hx' hy'
      by_cases he : i = first
      · subst he; grind
      · exact hall i x' y' hi1 (by omega) hx' hy'
  | case3 first sm hne hno =>
    exfalso
    exact hno _ _ (rd_lt (by omega)) (rd_lt (by omega))

/-- C05: `min_element` returns the first smallest element. -/
theorem min_element_spec {comp : α → α → Bool} (hs : StrictWeak comp) (m : List α) (first last : Nat)
    (h1 : first < last) (h2 : last ≤ m.length) :
    ∃ r, minElement comp m first last = some r ∧ first ≤ r ∧ r < last ∧
      (∀ i x y, first ≤ i → i < last → m[i]? = some x → m[r]? = some y → comp x y = false) ∧
      (∀ i x y, first ≤ i → i < r → m[i]? = some x → m[r]? = some y → comp y x = true) := by
  unfold minElement
  rw [if_neg (by omega)]
  apply minLoop_spec hs m first (first + 1) last first (by omega) h2 (by omega) (by omega)
  · intro i x y hi1 hi2 hx hy
    have : i = first := by omega
    subst this
    have : x = y := by grind
    subst this; exact hs.irrefl _
  · intro i x y hi1 hi2; omega

/-- C05: on an empty range `min_element` and `max_element` return `last`. -/
theorem min_max_element_empty (comp : α → α → Bool) (m : List α) (last : Nat) :
    minElement comp m last last = some last ∧ maxElement comp m last last = some last := by
  simp [minElement, maxElement]

theorem maxLoop_eq_minLoop (comp : α → α → Bool) (m : List α) (first last lg : Nat) :
    maxLoop comp m first last lg = minLoop (fun a b => comp b a) m first last lg := by
  fun_induction maxLoop comp m first last lg with
  | case1 => unfold minLoop; simp
  | case2 first lg hne x y hx hy ih =>
    rw [minLoop, if_neg hne]
    split <;> grind
  | case3 first lg hne hno =>
    rw [minLoop, if_neg hne]
    split <;> grind

/-- C05: `max_element` returns the first largest element. -/
theorem max_element_spec {comp : α → α → Bool} (hs : StrictWeak comp) (m : List α) (first last : Nat)
    (h1 : first < last) (h2 : last ≤ m.length) :
    ∃ r, maxElement comp m first last = some r ∧ first ≤ r ∧ r < last ∧
      (∀ i x y, first ≤ i → i < last → m[i]? = some x → m[r]? = some y → comp y x = false) ∧
      (∀ i x y, first ≤ i → i < r → m[i]? = some x → m[r]? = some y → comp x y = true) := by
  have hs' : StrictWeak (fun a b => comp b a) :=
    ⟨hs.irrefl, fun a b c h1 h2 => hs.trans c b a h2 h1, fun a b c h1 h2 => hs.negTrans c b a h2 h1⟩
  have := min_element_spec hs' m first last h1 h2
  unfold minElement at this
  unfold maxElement
  rw [if_neg (by omega)] at this ⊢
  rw [maxLoop_eq_minLoop]
  exact this

example : minElement (fun a b => decide (a < b)) [5, 2, 7, 2] 0 4 = some 1 ∧
    maxElement (fun a b => decide (a < b)) [5, 7, 2, 7] 0 4 = some 1 := by decide +kernel

/-- C05: two-argument `min`/`max` return one of their arguments, not beaten by the other. -/
theorem min2_max2_spec {comp : α → α → Bool} (hs : StrictWeak comp) (a b : α) :
    (min2 comp a b = a ∨ min2 comp a b = b) ∧ comp a (min2 comp a b) = false ∧ comp b (min2 comp a b) = false ∧
    (max2 (fun x y => comp y x) a b = a ∨ max2 (fun x y => comp y x) a b = b) ∧
    comp (max2 (fun x y => comp y x) a b) a = false ∧ comp (max2 (fun x y => comp y x) a b) b = false := by
  unfold min2 max2
  cases h1 : comp b a <;> cases h2 : comp a b <;> simp [h1, h2, hs.irrefl]
  have := hs.asymm h1; simp [h2] at this

/-- C05: `clamp` with `lo ≤ hi` returns a value of `{v, lo, hi}` inside `[lo, hi]`, and `v` itself when `v` is
already inside. -/
theorem clamp_spec {comp : α → α → Bool} (hs : StrictWeak comp) (v lo hi : α) (h : comp hi lo = false) :
    ∃ r, clamp comp v lo hi = some r ∧ comp r lo = false ∧ comp hi r = false ∧
      (comp v lo = false → comp hi v = false → r = v) ∧
      (comp v lo = true → r = lo) ∧ (comp hi v = true → r = hi) := by
  unfold clamp
  rw [h]; simp only [Bool.false_eq_true, if_false]
  refine ⟨_, rfl, ?_⟩
  cases h1 : comp v lo <;> cases h2 : comp hi v <;> simp [h, h1, h2, hs.irrefl]
  have := hs.lt_of_not_of_lt (a := hi) (b := v) (c := lo) (hs.asymm h2) h1
  simp [h] at this

example : clamp (fun a b => decide (a < b)) 12 3 9 = some 9 ∧ clamp (fun a b => decide (a < b)) 5 3 9 = some 5 := by
  decide

end Verif.Algorithm
