import Verif.Traits.Props

/-!
# C90: the traits that make one type from another
-/
namespace Verif.Traits

/-! ## Qualifiers -/

theorem requal_self (t : Ty) (f : CV → CV) (h : f t.quals = t.quals) : t = t.requal f := (requal_id t f h).symm

theorem bare_eq (t : Ty) : t = bare t ∨ t = (bare t).addC ∨ t = (bare t).addV ∨ t = (bare t).addV.addC := by
  unfold Ty.addC Ty.addV bare
  simp only [requal_requal]
  rcases hq : t.quals with ⟨_ | _, _ | _⟩
  · exact Or.inl (requal_self _ _ hq.symm)
  · exact Or.inr (Or.inr (Or.inl (requal_self _ _ (by rw [hq]))))
  · exact Or.inr (Or.inl (requal_self _ _ (by rw [hq])))
  · exact Or.inr (Or.inr (Or.inr (requal_self _ _ (by rw [hq]))))

theorem bare_of_quals (u : Ty) (h : u.quals = {}) (f : CV → CV) : bare (u.requal f) = u := by
  unfold bare
  rw [requal_requal]
  exact requal_id _ _ h.symm

theorem unqualified_iff (t u : Ty) : Spec.Unqualified t u ↔ u = bare t := by
  constructor
  · rintro ⟨h, rfl | rfl | rfl | rfl⟩
    · exact (requal_id _ _ h.symm).symm
    · exact (bare_of_quals _ h _).symm
    · exact (bare_of_quals _ h _).symm
    · unfold Ty.addC Ty.addV
      rw [requal_requal]
      exact (bare_of_quals _ h _).symm
  · rintro rfl
    exact ⟨quals_bare t, bare_eq t⟩

/-- `remove_cv`: the one unqualified type that the given one is a qualified version of -/
theorem remove_cv_spec (t : Ty) :
    ∃ u, remove_cv t = some u ∧ Spec.Unqualified t u ∧ ∀ u', Spec.Unqualified t u' → u' = u :=
  ⟨bare t, remove_cv_eq t, (unqualified_iff t _).2 rfl, fun _ h => (unqualified_iff t _).1 h⟩

theorem quals_dropC (t : Ty) : t.dropC.quals = { t.quals with c := false } := by
  induction t with
  | arr t n ih => exact ih
  | _ => rfl

theorem quals_dropV (t : Ty) : t.dropV.quals = { t.quals with v := false } := by
  induction t with
  | arr t n ih => exact ih
  | _ => rfl

/-- `remove_const`: takes away `const` and nothing else; `remove_volatile` likewise -/
theorem remove_const_spec (t : Ty) :
    (∃ u, remove_const.inst t = some u ∧ u.quals.c = false ∧ u.quals.v = t.quals.v ∧ (t = u ∨ t = u.addC)) ∧
    (∃ u, remove_volatile.inst t = some u ∧ u.quals.v = false ∧ u.quals.c = t.quals.c ∧ (t = u ∨ t = u.addV)) := by
  refine ⟨⟨t.dropC, remove_const_eq t, by rw [quals_dropC], by rw [quals_dropC], ?_⟩,
    ⟨t.dropV, remove_volatile_eq t, by rw [quals_dropV], by rw [quals_dropV], ?_⟩⟩
  · unfold Ty.addC Ty.dropC
    rw [requal_requal]
    rcases hq : t.quals with ⟨_ | _, v⟩
    · exact Or.inl (requal_self _ _ (by rw [hq]))
    · exact Or.inr (requal_self _ _ (by rw [hq]))
  · unfold Ty.addV Ty.dropV
    rw [requal_requal]
    rcases hq : t.quals with ⟨c, _ | _⟩
    · exact Or.inl (requal_self _ _ (by rw [hq]))
    · exact Or.inr (requal_self _ _ (by rw [hq]))

example : remove_cv (.arr (.obj ⟨true, true⟩ (.arith .int)) (some 3)) = some (.arr (.obj {} (.arith .int)) (some 3)) ∧
    remove_cv (.lref (.obj ⟨true, false⟩ (.arith .int))) = some (.lref (.obj ⟨true, false⟩ (.arith .int))) := by decide

/-- the types that can be qualified: not references, not functions, not arrays of these -/
def Spec.Qualifiable : Ty → Prop
  | .obj .. => True
  | .ptr .. => True
  | .mem .. => True
  | .arr t _ => Spec.Qualifiable t
  | _ => False

theorem quals_requal (t : Ty) (h : Spec.Qualifiable t) (f : CV → CV) : (t.requal f).quals = f t.quals := by
  induction t with
  | arr t n ih => exact ih h
  | obj => rfl
  | ptr => rfl
  | mem => rfl
  | lref => cases h
  | rref => cases h
  | fn => cases h

/-- `add_const`, `add_volatile`, `add_cv`: the type with the qualifiers added to those it has; references and functions
stay as they are -/
theorem add_const_spec (t : Ty) :
    ∃ c v cv, add_const t = some c ∧ add_volatile t = some v ∧ add_cv t = some cv ∧
      remove_cv c = remove_cv t ∧ remove_cv v = remove_cv t ∧ remove_cv cv = remove_cv t ∧
      (Spec.Qualifiable t →
        c.quals = ⟨true, t.quals.v⟩ ∧ v.quals = ⟨t.quals.c, true⟩ ∧ cv.quals = ⟨true, true⟩) ∧
      ((Spec.cat t = .lref ∨ Spec.cat t = .rref ∨ Spec.cat t = .function) → c = t ∧ v = t ∧ cv = t) := by
  refine ⟨_, _, _, rfl, rfl, rfl, ?_, ?_, ?_, fun h => ⟨quals_requal t h _, quals_requal t h _, ?_⟩, fun h => ?_⟩
  · rw [remove_cv_eq, remove_cv_eq]; unfold bare Ty.addC; rw [requal_requal]
  · rw [remove_cv_eq, remove_cv_eq]; unfold bare Ty.addV; rw [requal_requal]
  · rw [remove_cv_eq, remove_cv_eq]; unfold bare Ty.addC Ty.addV; rw [requal_requal, requal_requal]
  · unfold Ty.addC Ty.addV; rw [requal_requal, quals_requal t h]
  · cases t with
    | obj q b =>
      cases b with
      | arith a => cases a <;> simp [Spec.cat, Spec.floating] at h
      | _ => simp [Spec.cat] at h
    | mem q t k => cases t <;> simp [Spec.cat, Spec.memCat] at h
    | ptr => simp [Spec.cat] at h
    | arr => simp [Spec.cat] at h
    | _ => exact ⟨rfl, rfl, rfl⟩

/-! ## References -/

theorem remove_reference_eq (t : Ty) : remove_reference.inst t = some (Spec.referred t) := by cases t <;> rfl

/-- `remove_reference`; for types that exist the result is no reference -/
theorem remove_reference_spec (t : Ty) (h : Spec.Exists t) :
    ∃ u, remove_reference.inst t = some u ∧ Spec.cat u ≠ .lref ∧ Spec.cat u ≠ .rref ∧
      (t = u ∨ t = .lref u ∨ t = .rref u) := by
  refine ⟨_, remove_reference_eq t, ?_⟩
  cases t with
  | lref u => exact ⟨h.1, h.2.1, Or.inr (Or.inl rfl)⟩
  | rref u => exact ⟨h.1, h.2.1, Or.inr (Or.inr rfl)⟩
  | obj q b =>
    refine ⟨?_, ?_, Or.inl rfl⟩ <;>
    · cases b with
      | arith a => cases a <;> simp [Spec.cat, Spec.floating, Spec.referred]
      | _ => simp [Spec.cat, Spec.referred]
  | mem q t k => cases t <;> simp [Spec.cat, Spec.memCat, Spec.referred]
  | _ => simp [Spec.cat, Spec.referred]

/-- `remove_cvref`: the reference first, then the qualifiers -/
theorem remove_cvref_spec (t : Ty) : ∃ u, remove_cvref t = some u ∧ Spec.Unqualified (Spec.referred t) u := by
  unfold remove_cvref
  rw [remove_reference_eq, Option.bind_some, remove_cv_eq]
  exact ⟨_, rfl, (unqualified_iff _ _).2 rfl⟩

/-- `add_lvalue_reference` is right for everything a reference can refer to, for references (which collapse), and for
plain `void` -/
theorem add_lvalue_reference_partial (t : Ty) (h : Spec.Referenceable t ∨ t = .obj {} .void) :
    add_lvalue_reference t = some (Spec.addLref t) := by
  unfold add_lvalue_reference
  rcases h with h | rfl
  · have hv : (Pat.lit (.obj {} .void)).take t = none := by
      apply if_neg
      rintro rfl
      exact absurd h.1 (by simp [Ty.isVoidTy])
    simp only [Tmpl.inst, List.filterMap_cons, hv, Option.map_none, List.filterMap_nil]
    obtain ⟨h1, h2⟩ := h
    cases t <;> simp_all [Spec.addLref, Ty.mkLref, Spec.referred]
  · rfl

/-- **Violation.**  `add_lvalue_reference` of a qualified `void`, and of a qualified function type, does not compile;
it should be the type itself. -/
theorem add_lvalue_reference_cv_void (q : CV) (hq : q ≠ {}) :
    add_lvalue_reference (.obj q .void) = none ∧ Spec.addLref (.obj q .void) = .obj q .void := by
  refine ⟨?_, rfl⟩
  unfold add_lvalue_reference Tmpl.inst
  have : (Pat.lit (.obj {} .void)).take (.obj q .void) = none := by
    apply if_neg; intro e; cases e; exact hq rfl
  simp only [List.filterMap_cons, this, Option.map_none, List.filterMap_nil]
  rfl

/-- **Violation.** A function type with a const, volatile or reference qualifier has no reference type and should stay
as it is; both traits form the reference and do not compile. -/
theorem add_reference_qualified_function (t : Ty) (h : t.qualifiedFn = true) :
    add_lvalue_reference t = none ∧ Spec.addLref t = t ∧ add_rvalue_reference t = none ∧ Spec.addRref t = t := by
  cases t with
  | fn s va q r ne =>
    refine ⟨?_, ?_, ?_, ?_⟩
    · unfold add_lvalue_reference Tmpl.inst
      simp [Pat.take, Ty.mkLref, h]
    · unfold Spec.addLref; rw [h]; simp
    · unfold add_rvalue_reference Ty.mkRref; simp [h]
    · unfold Spec.addRref; rw [h]; simp
  | _ => simp [Ty.qualifiedFn] at h

/-- `add_rvalue_reference` is right for everything a reference can refer to and for references, of which an lvalue
reference stays one -/
theorem add_rvalue_reference_partial (t : Ty) (h : Spec.Referenceable t) :
    add_rvalue_reference t = some (Spec.addRref t) := by
  obtain ⟨h1, h2⟩ := h
  cases t <;> simp_all [add_rvalue_reference, Spec.addRref, Ty.mkRref, Spec.referred]

/-- **Violation.**  `add_rvalue_reference<void>` does not compile. -/
theorem add_rvalue_reference_void (q : CV) :
    add_rvalue_reference (.obj q .void) = none ∧ Spec.addRref (.obj q .void) = .obj q .void := ⟨rfl, rfl⟩

/-- reference collapsing: of two reference additions the result is an rvalue reference only if both are -/
theorem references_collapse (t : Ty) (h : Spec.Referenceable t) (hl : Spec.cat t ≠ .lref) (hr : Spec.cat t ≠ .rref) :
    ((add_lvalue_reference t).bind add_lvalue_reference = some (.lref t)) ∧
    ((add_lvalue_reference t).bind add_rvalue_reference = some (.lref t)) ∧
    ((add_rvalue_reference t).bind add_lvalue_reference = some (.lref t)) ∧
    ((add_rvalue_reference t).bind add_rvalue_reference = some (.rref t)) := by
  have e : Spec.referred t = t := by cases t <;> first | rfl | (simp [Spec.cat] at hl hr)
  have h1 : Spec.addLref t = .lref t := by unfold Spec.addLref; rw [h.1, h.2, e]; rfl
  have h2 : Spec.addRref t = .rref t := by
    unfold Spec.addRref; rw [h.1, h.2, e]
    cases t with
    | lref u => simp [Spec.cat] at hl
    | _ => rfl
  rw [add_lvalue_reference_partial t (Or.inl h), add_rvalue_reference_partial t h, h1, h2]
  exact ⟨rfl, rfl, rfl, rfl⟩

example : Spec.Referenceable (.arr (.obj {} (.arith .int)) (some 3)) ∧
    Spec.cat (.arr (.obj {} (.arith .int)) (some 3)) ≠ .lref := ⟨⟨rfl, rfl⟩, by decide⟩

/-! ## Pointers, arrays, functions -/

/-- `remove_pointer` takes one pointer away, whatever the pointer's own qualifiers, and keeps those of what it points
to; other types stay -/
theorem remove_pointer_spec (t : Ty) :
    (∀ q u, t = .ptr q u → remove_pointer.inst t = some u) ∧
    (Spec.cat t ≠ .pointer → remove_pointer.inst t = some t) := by
  constructor
  · rintro ⟨c, v⟩ u rfl
    cases c <;> cases v <;> rfl
  · intro h
    cases t with
    | ptr => simp [Spec.cat] at h
    | _ => rfl

/-- `remove_extent` takes the outermost extent away, known or not; other types stay -/
theorem remove_extent_spec (t : Ty) :
    (∀ u n, t = .arr u n → remove_extent.inst t = some u) ∧
    (Spec.cat t ≠ .array → remove_extent.inst t = some t) := by
  constructor
  · rintro u n rfl
    cases n <;> rfl
  · intro h
    cases t with
    | arr => simp [Spec.cat] at h
    | _ => rfl

theorem referred_not_ref (t : Ty) (h : Spec.Exists t) :
    (∀ u, Spec.referred t ≠ .lref u) ∧ (∀ u, Spec.referred t ≠ .rref u) := by
  cases t with
  | lref u =>
    refine ⟨fun v e => ?_, fun v e => ?_⟩ <;> simp only [Spec.referred] at e <;> subst e
    · exact h.1 rfl
    · exact h.2.1 rfl
  | rref u =>
    refine ⟨fun v e => ?_, fun v e => ?_⟩ <;> simp only [Spec.referred] at e <;> subst e
    · exact h.1 rfl
    · exact h.2.1 rfl
  | _ => simp [Spec.referred]

theorem mkPtr_of (t : Ty) (hl : ∀ u, t ≠ .lref u) (hr : ∀ u, t ≠ .rref u) (hq : t.qualifiedFn = false) :
    t.mkPtr = some (.ptr {} t) := by
  cases t with
  | lref u => exact absurd rfl (hl u)
  | rref u => exact absurd rfl (hr u)
  | _ => simp [Ty.mkPtr, hq]

theorem referred_qualifiedFn (t : Ty) (h : Spec.Exists t) (hq : t.qualifiedFn = false) :
    (Spec.referred t).qualifiedFn = false := by
  cases t with
  | lref u => exact h.2.2.1.2
  | rref u => exact h.2.2.1.2
  | _ => exact hq

/-- the function types that `add_pointer` gets wrong: unqualified `noexcept` ones, and qualified variadic ones that are
not `noexcept` -/
def Spec.BadForPointer : Ty → Prop
  | .fn s va q r ne => ((Ty.fn s va q r ne).qualifiedFn = false ∧ ne = true) ∨
      ((Ty.fn s va q r ne).qualifiedFn = true ∧ va = true ∧ ne = false)
  | _ => False

/-- `add_pointer`: a pointer to the type, or to what it refers to; a function type that has no pointers is left as it
is -/
theorem add_pointer_partial (t : Ty) (h : Spec.Exists t) (hb : ¬ Spec.BadForPointer t) :
    add_pointer false t = some (Spec.addPtr t) := by
  by_cases hf : Spec.cat t = .function
  · cases t with
    | fn s va q r ne =>
      unfold add_pointer
      rw [is_function_fn]
      obtain ⟨c, v⟩ := q
      cases va <;> cases c <;> cases v <;> cases r <;> cases ne <;>
        first | rfl | (exact absurd (by simp [Spec.BadForPointer, Ty.qualifiedFn]) hb)
    | obj q b =>
      cases b with
      | arith a => cases a <;> simp [Spec.cat, Spec.floating] at hf
      | _ => simp [Spec.cat] at hf
    | mem q t k => cases t <;> simp [Spec.cat, Spec.memCat] at hf
    | _ => simp [Spec.cat] at hf
  · have hq : t.qualifiedFn = false := by
      cases t with
      | fn => simp [Spec.cat] at hf
      | _ => rfl
    have hm := mkPtr_of (Spec.referred t) (referred_not_ref t h).1 (referred_not_ref t h).2
      (referred_qualifiedFn t h hq)
    unfold add_pointer
    rw [is_function_not _ _ hf, remove_reference_eq]
    simp only [Option.bind_eq_bind, Option.bind_some, Bool.false_eq_true, ↓reduceIte, hm]
    unfold Spec.addPtr
    rw [hq]; rfl

example : add_pointer false (.lref (.fn 0 false {} .none true)) = some (.ptr {} (.fn 0 false {} .none true)) := by decide

/-- **Violation.**  A `noexcept` function type (C++17) has pointers, but `add_pointer` leaves it as it is. -/
theorem add_pointer_noexcept (s : Nat) (va : Bool) :
    add_pointer false (.fn s va {} .none true) = some (.fn s va {} .none true) ∧
      Spec.addPtr (.fn s va {} .none true) = .ptr {} (.fn s va {} .none true) := by
  cases va <;> exact ⟨rfl, rfl⟩

/-- removing the pointer gives back what was referred to -/
theorem remove_add_pointer (t : Ty) (h : Spec.Exists t) (hq : t.qualifiedFn = false) (hb : ¬ Spec.BadForPointer t) :
    (add_pointer false t).bind remove_pointer.inst = remove_reference.inst t := by
  rw [add_pointer_partial t h hb, remove_reference_eq]
  unfold Spec.addPtr; rw [hq]; rfl

/-! ## Decay -/

/-- the function types `decay` gets wrong -/
def Spec.BadForDecay : Ty → Prop
  | .fn s va q r ne => (Ty.fn s va q r ne).qualifiedFn = true ∨ va = true ∨ ne = true
  | _ => False

theorem bare_referred (t : Ty) (hn : Spec.cat t ≠ .array) (u : Ty) (hu : u = bare t) : Spec.cat u ≠ .array := by
  rw [hu]; unfold bare; rw [cat_requal]; exact hn

theorem remove_extent_mkPtr (u : Ty) (h : Spec.Exists u) (hl : ∀ v, u ≠ .lref v) (hr : ∀ v, u ≠ .rref v)
    (hq : u.qualifiedFn = false) : ∃ e, remove_extent.inst u = some e ∧ e.mkPtr = some (.ptr {} e) := by
  cases u with
  | arr e n =>
    refine ⟨e, (remove_extent_spec _).1 e n rfl, mkPtr_of e ?_ ?_ ?_⟩
    · rintro v rfl; exact h.1 rfl
    · rintro v rfl; exact h.2.1 rfl
    · cases e with
      | fn => exact absurd rfl h.2.2.2.1
      | _ => rfl
  | lref v => exact absurd rfl (hl v)
  | rref v => exact absurd rfl (hr v)
  | _ => exact ⟨_, rfl, mkPtr_of _ (by simp [remove_extent]) (by simp [remove_extent]) hq⟩

/-- what `Decays` relates a type to is unique -/
theorem decays_unique (t u v : Ty) (h1 : Spec.Decays t u) (h2 : Spec.Decays t v) : u = v := by
  cases h1 with
  | array e n =>
    cases h2 with
    | array => rfl
    | other _ _ ha _ _ => exact absurd rfl ha
  | function s va q r ne =>
    cases h2 with
    | function => rfl
    | other _ _ _ hf _ => exact absurd rfl hf
  | other _ _ ha hf hu =>
    cases h2 with
    | array => exact absurd rfl ha
    | function => exact absurd rfl hf
    | other _ _ _ _ hv => rw [(unqualified_iff _ _).1 hu, (unqualified_iff _ _).1 hv]

theorem exists_referred (t : Ty) (h : Spec.Exists t) : Spec.Exists (Spec.referred t) := by
  cases t with
  | lref u => exact h.2.2.2
  | rref u => exact h.2.2.2
  | _ => exact h

theorem decay_of_referred (t s : Ty) (hs : Spec.referred t = s) (h : Spec.Exists s) (hl : ∀ v, s ≠ .lref v)
    (hr : ∀ v, s ≠ .rref v) (hb : ¬ Spec.BadForDecay s) : ∃ u, decay false t = some u ∧ Spec.Decays s u := by
  have hq : s.qualifiedFn = false := by
    cases s with
    | fn s va q r ne =>
      by_cases hq : (Ty.fn s va q r ne).qualifiedFn = true
      · exact absurd (Or.inl hq) hb
      · simpa using hq
    | _ => rfl
  have hbp : ¬ Spec.BadForPointer s := by
    cases s with
    | fn s va q r ne =>
      rintro (⟨_, h⟩ | ⟨h, _⟩)
      · exact hb (Or.inr (Or.inr h))
      · exact hb (Or.inl h)
    | _ => exact fun h => h
  have hbf : ∀ s' q r, s ≠ .fn s' true q r false := by
    rintro s' q r rfl; exact hb (Or.inr (Or.inl rfl))
  obtain ⟨e, he, hm⟩ := remove_extent_mkPtr s h hl hr hq
  unfold decay
  rw [remove_reference_eq, hs]
  simp only [Option.bind_eq_bind, Option.bind_some, he, hm, add_pointer_partial s h hbp, remove_cv_eq, is_array_iff,
    is_function_iff_partial s hbf]
  refine ⟨_, rfl, ?_⟩
  by_cases ha : Spec.cat s = .array
  · simp only [ha, decide_true, conditional, ↓reduceIte]
    obtain ⟨e', n, rfl⟩ : ∃ e n, s = .arr e n := by
      cases s with
      | arr e n => exact ⟨e, n, rfl⟩
      | obj q b =>
        cases b with
        | arith a => cases a <;> simp [Spec.cat, Spec.floating] at ha
        | _ => simp [Spec.cat] at ha
      | mem q t k => cases t <;> simp [Spec.cat, Spec.memCat] at ha
      | _ => simp [Spec.cat] at ha
    rw [(remove_extent_spec _).1 e' n rfl] at he
    cases he
    exact .array _ _
  · simp only [ha, decide_false, conditional, Bool.false_eq_true, ↓reduceIte]
    by_cases hf : Spec.cat s = .function
    · simp only [hf, decide_true, ↓reduceIte]
      obtain ⟨s', va, q, r, ne, rfl⟩ : ∃ s' va q r ne, s = .fn s' va q r ne := by
        cases s with
        | fn s va q r ne => exact ⟨_, _, _, _, _, rfl⟩
        | obj q b =>
          cases b with
          | arith a => cases a <;> simp [Spec.cat, Spec.floating] at hf
          | _ => simp [Spec.cat] at hf
        | mem q t k => cases t <;> simp [Spec.cat, Spec.memCat] at hf
        | _ => simp [Spec.cat] at hf
      exact .function _ _ _ _ _
    · simp only [hf, decide_false, Bool.false_eq_true, ↓reduceIte]
      exact .other _ _ ha hf ((unqualified_iff _ _).2 rfl)

/-- `decay`: what an argument of the type becomes when it is passed by value, for every type that exists but a variadic
or `noexcept` or qualified function type (or a reference to one) -/
theorem decay_partial (t : Ty) (h : Spec.Exists t) (hb : ¬ Spec.BadForDecay (Spec.referred t)) :
    ∃ u, decay false t = some u ∧ Spec.Decays (Spec.referred t) u :=
  decay_of_referred t _ rfl (exists_referred t h) (referred_not_ref t h).1 (referred_not_ref t h).2 hb

example : decay false (.lref (.arr (.obj ⟨true, false⟩ (.arith .char)) (some 6))) =
      some (.ptr {} (.obj ⟨true, false⟩ (.arith .char))) ∧
    decay false (.rref (.obj ⟨true, true⟩ (.cls 4))) = some (.obj {} (.cls 4)) ∧
    decay false (.lref (.fn 3 false {} .none false)) = some (.ptr {} (.fn 3 false {} .none false)) := by decide

/-- a decayed type decays to itself -/
theorem decay_idempotent (t u : Ty) (h : Spec.Exists t) (hb : ¬ Spec.BadForDecay (Spec.referred t))
    (hu : decay false t = some u) : decay false u = some u := by
  obtain ⟨u', h1, h2⟩ := decay_partial t h hb
  rw [hu] at h1; cases h1
  have hex := exists_referred t h
  obtain ⟨hl, hr⟩ := referred_not_ref t h
  have key : Spec.cat u ≠ .array ∧ Spec.cat u ≠ .function ∧ (∀ v, u ≠ .lref v) ∧ (∀ v, u ≠ .rref v) ∧
      Spec.Exists u ∧ bare u = u := by
    generalize Spec.referred t = s at h2 hex hl hr hb
    cases h2 with
    | array e n =>
      have hq : e.qualifiedFn = false := by
        cases e with
        | fn => exact absurd rfl hex.2.2.2.1
        | _ => rfl
      exact ⟨by simp [Spec.cat], by simp [Spec.cat], by simp, by simp, ⟨hex.1, hex.2.1, hq, hex.2.2.2.2⟩, rfl⟩
    | function s va q r ne =>
      have hq : (Ty.fn s va q r ne).qualifiedFn = false := by
        by_cases hq : (Ty.fn s va q r ne).qualifiedFn = true
        · exact absurd (Or.inl hq) hb
        · simpa using hq
      have e : Spec.addPtr (.fn s va q r ne) = .ptr {} (.fn s va q r ne) := by unfold Spec.addPtr; rw [hq]; rfl
      rw [e]
      exact ⟨by simp [Spec.cat], by simp [Spec.cat], by simp, by simp,
        ⟨by simp [Spec.cat], by simp [Spec.cat], hq, trivial⟩, rfl⟩
    | other _ _ ha hf hv =>
      have := (unqualified_iff _ _).1 hv
      subst this
      refine ⟨by unfold bare; rwa [cat_requal], by unfold bare; rwa [cat_requal], ?_, ?_, ?_, ?_⟩
      · cases s with
        | lref v => exact absurd rfl (hl v)
        | _ => simp [bare, Ty.requal]
      · cases s with
        | rref v => exact absurd rfl (hr v)
        | _ => simp [bare, Ty.requal]
      · cases s with
        | arr => exact absurd rfl ha
        | _ => exact hex
      · unfold bare; rw [requal_requal]
  obtain ⟨k1, k2, k3, k4, k5, k6⟩ := key
  have e : Spec.referred u = u := by
    cases u with
    | lref v => exact absurd rfl (k3 v)
    | rref v => exact absurd rfl (k4 v)
    | _ => rfl
  have hb' : ¬ Spec.BadForDecay u := by
    cases u with
    | fn => exact absurd rfl k2
    | _ => exact fun h => h
  obtain ⟨w, hw, hd⟩ := decay_of_referred u u e k5 k3 k4 hb'
  rw [hw, decays_unique u w u hd (.other _ _ k1 k2 ((unqualified_iff _ _).2 k6.symm))]

/-- **Violation.**  A `noexcept` function, and a variadic one, does not decay to a pointer: `decay` gives the function
type itself. -/
theorem decay_function_stays (s : Nat) (va ne : Bool) (h : va = true ∨ ne = true) :
    decay false (.fn s va {} .none ne) = some (.fn s va {} .none ne) ∧
      Spec.Decays (.fn s va {} .none ne) (.ptr {} (.fn s va {} .none ne)) := by
  refine ⟨?_, .function s va {} .none ne⟩
  cases va <;> cases ne <;> first | rfl | simp at h

/-- **Violation.**  `decay` of a qualified function type does not compile. -/
theorem decay_qualified_function (s : Nat) (va : Bool) (q : CV) (r : RefQ) (ne : Bool)
    (h : (Ty.fn s va q r ne).qualifiedFn = true) : decay false (.fn s va q r ne) = none := by
  have hm : (Ty.fn s va q r ne).mkPtr = none := by simp [Ty.mkPtr, h]
  unfold decay
  rw [remove_reference_eq]
  have he : remove_extent.inst (Spec.referred (.fn s va q r ne)) = some (.fn s va q r ne) := rfl
  simp only [Option.bind_eq_bind, Option.bind_some, he, hm, Option.bind_none]

/-! ## `conditional` and `enable_if` -/

/-- `conditional` names the one or the other, `enable_if` the type or nothing -/
theorem conditional_spec (b : Bool) (t f : Ty) :
    (b = true → conditional b t f = t ∧ enable_if b t = some t) ∧
    (b = false → conditional b t f = f ∧ enable_if b t = none) := by
  cases b <;> simp [conditional, enable_if]

/-! ## Signedness -/

theorem find_first_spec (p : Plat) (size : Nat) (hp : Spec.PlatOk p) (s0 : Arith) (k0 : Nat)
    (h0 : Spec.rank s0 = some k0) (hs : p.size s0 = size) :
    ∃ s, find_first p size signed_types = some s ∧ p.size s = size ∧
      ∃ k, Spec.rank s = some k ∧ ∀ s' k', Spec.rank s' = some k' → p.size s' = size → k ≤ k' := by
  have hm := hp.mono
  have hrank : ∀ s' k', Spec.rank s' = some k' →
      (s' = .schar ∧ k' = 0) ∨ (s' = .short ∧ k' = 1) ∨ (s' = .int ∧ k' = 2) ∨ (s' = .long ∧ k' = 3) ∨
        (s' = .llong ∧ k' = 4) := by
    intro s' k' h; cases s' <;> simp_all [Spec.rank]
  have h01 := hm .schar .short 0 1 rfl rfl (by decide)
  have h12 := hm .short .int 1 2 rfl rfl (by decide)
  have h23 := hm .int .long 2 3 rfl rfl (by decide)
  have h34 := hm .long .llong 3 4 rfl rfl (by decide)
  have hs0 := hrank s0 k0 h0
  simp only [signed_types, find_first]
  by_cases c0 : size ≤ p.size .schar
  · rw [if_pos c0]
    refine ⟨_, rfl, ?_, 0, rfl, fun _ _ _ _ => Nat.zero_le _⟩
    rcases hs0 with ⟨rfl, _⟩ | ⟨rfl, _⟩ | ⟨rfl, _⟩ | ⟨rfl, _⟩ | ⟨rfl, _⟩ <;> omega
  rw [if_neg c0]
  by_cases c1 : size ≤ p.size .short
  · rw [if_pos c1]
    refine ⟨_, rfl, ?_, 1, rfl, fun s' k' h' e' => ?_⟩
    · rcases hs0 with ⟨rfl, _⟩ | ⟨rfl, _⟩ | ⟨rfl, _⟩ | ⟨rfl, _⟩ | ⟨rfl, _⟩ <;> omega
    · rcases hrank s' k' h' with ⟨rfl, _⟩ | ⟨rfl, _⟩ | ⟨rfl, _⟩ | ⟨rfl, _⟩ | ⟨rfl, _⟩ <;> omega
  rw [if_neg c1]
  by_cases c2 : size ≤ p.size .int
  · rw [if_pos c2]
    refine ⟨_, rfl, ?_, 2, rfl, fun s' k' h' e' => ?_⟩
    · rcases hs0 with ⟨rfl, _⟩ | ⟨rfl, _⟩ | ⟨rfl, _⟩ | ⟨rfl, _⟩ | ⟨rfl, _⟩ <;> omega
    · rcases hrank s' k' h' with ⟨rfl, _⟩ | ⟨rfl, _⟩ | ⟨rfl, _⟩ | ⟨rfl, _⟩ | ⟨rfl, _⟩ <;> omega
  rw [if_neg c2]
  by_cases c3 : size ≤ p.size .long
  · rw [if_pos c3]
    refine ⟨_, rfl, ?_, 3, rfl, fun s' k' h' e' => ?_⟩
    · rcases hs0 with ⟨rfl, _⟩ | ⟨rfl, _⟩ | ⟨rfl, _⟩ | ⟨rfl, _⟩ | ⟨rfl, _⟩ <;> omega
    · rcases hrank s' k' h' with ⟨rfl, _⟩ | ⟨rfl, _⟩ | ⟨rfl, _⟩ | ⟨rfl, _⟩ | ⟨rfl, _⟩ <;> omega
  rw [if_neg c3]
  by_cases c4 : size ≤ p.size .llong
  · rw [if_pos c4]
    refine ⟨_, rfl, ?_, 4, rfl, fun s' k' h' e' => ?_⟩
    · rcases hs0 with ⟨rfl, _⟩ | ⟨rfl, _⟩ | ⟨rfl, _⟩ | ⟨rfl, _⟩ | ⟨rfl, _⟩ <;> omega
    · rcases hrank s' k' h' with ⟨rfl, _⟩ | ⟨rfl, _⟩ | ⟨rfl, _⟩ | ⟨rfl, _⟩ | ⟨rfl, _⟩ <;> omega
  · exfalso
    rcases hs0 with ⟨rfl, _⟩ | ⟨rfl, _⟩ | ⟨rfl, _⟩ | ⟨rfl, _⟩ | ⟨rfl, _⟩ <;> omega

theorem apply_cv_obj (q : CV) (b : Base) (a : Arith) :
    apply_cv (.obj q b) (ar a) = some (.obj q (.arith a)) := by
  obtain ⟨c, v⟩ := q
  cases c <;> cases v <;> rfl

theorem make_signed_obj (p : Plat) (q : CV) (b : Base) (s : Arith)
    (h : make_signed_base false p (.obj {} b) = some (ar s)) :
    make_signed false p (.obj q b) = some (.obj q (.arith s)) := by
  unfold make_signed
  rw [remove_cv_eq]
  have : bare (.obj q b) = .obj {} b := rfl
  simp only [Option.bind_eq_bind, Option.bind_some, this, h, apply_cv_obj]

/-- the integral types other than `bool`, and the enumerations -/
def Spec.Signable : Base → Prop
  | .arith a => Spec.floating a = false ∧ a ≠ .bool
  | .enm _ => True
  | _ => False

/-- `make_signed`, on every platform, for every integral type but `bool` and every enumeration that has a signed type
of its size -/
theorem make_signed_spec (p : Plat) (hp : Spec.PlatOk p) (q : CV) (b : Base) (hb : Spec.Signable b)
    (hs : ∃ s k, Spec.rank s = some k ∧ p.size s = sizeOf p (.obj {} b)) :
    ∃ u, make_signed false p (.obj q b) = some u ∧ Spec.MakesSigned p (.obj q b) u := by
  obtain ⟨s0, k0, h0, hs0⟩ := hs
  obtain ⟨s, hf, hsz, hk⟩ := find_first_spec p _ hp s0 k0 h0 hs0
  cases b with
  | enm n =>
    have hbase : make_signed_base false p (.obj {} (.enm n)) = some (ar s) := by
      have : make_signed_base false p (.obj {} (.enm n)) =
        (find_first p (sizeOf p (.obj {} (.enm n))) signed_types).map ar := rfl
      rw [this, hf]; rfl
    exact ⟨_, make_signed_obj p q _ s hbase, q, _, s, rfl, rfl, hsz, hk⟩
  | arith a =>
    have hsame := hp.same
    have fin : ∀ s', Spec.signedOf a = some s' → make_signed_base false p (.obj {} (.arith a)) = some (ar s') →
        ∃ u, make_signed false p (.obj q (.arith a)) = some u ∧ Spec.MakesSigned p (.obj q (.arith a)) u := by
      intro s' h1 h2
      exact ⟨_, make_signed_obj p q _ s' h2, q, _, s', rfl, rfl, Or.inl h1⟩
    have fin2 : Spec.signedOf a = none → make_signed_base false p (.obj {} (.arith a)) =
          (find_first p (p.size a) signed_types).map ar →
        ∃ u, make_signed false p (.obj q (.arith a)) = some u ∧ Spec.MakesSigned p (.obj q (.arith a)) u := by
      intro h1 h2
      have : find_first p (p.size a) signed_types = some s := hf
      rw [this] at h2
      exact ⟨_, make_signed_obj p q _ s h2, q, _, s, rfl, rfl, Or.inr ⟨h1, hsz, hk⟩⟩
    have small : ∀ a', p.size a' = p.size .schar →
        (find_first p (p.size a') signed_types).map ar = some (ar .schar) := by
      intro a' h
      simp only [signed_types, find_first]
      rw [if_pos (Nat.le_of_eq h)]; rfl
    cases a with
    | bool => exact absurd rfl hb.2
    | float => exact absurd hb.1 (by decide)
    | double => exact absurd hb.1 (by decide)
    | ldouble => exact absurd hb.1 (by decide)
    | schar => exact fin .schar rfl (small .schar rfl)
    | uchar => exact fin .schar rfl (small .uchar (hsame .uchar .schar rfl))
    | char => exact fin2 rfl rfl
    | wchar => exact fin2 rfl rfl
    | char8 => exact fin2 rfl rfl
    | char16 => exact fin2 rfl rfl
    | char32 => exact fin2 rfl rfl
    | short => exact fin .short rfl rfl
    | ushort => exact fin .short rfl rfl
    | int => exact fin .int rfl rfl
    | uint => exact fin .int rfl rfl
    | long => exact fin .long rfl rfl
    | ulong => exact fin .long rfl rfl
    | llong => exact fin .llong rfl rfl
    | ullong => exact fin .llong rfl rfl
  | _ => cases hb

/-- what is neither integral nor taken for an enumeration has no `make_signed` -/
theorem make_signed_none (p : Plat) (t : Ty)
    (h : Spec.cat t = .void ∨ Spec.cat t = .floating ∨ Spec.cat t = .cls ∨ Spec.cat t = .union ∨ Spec.cat t = .pointer ∨
      Spec.cat t = .array ∨ Spec.cat t = .lref ∨ Spec.cat t = .rref) : make_signed false p t = none := by
  have hb : make_signed_base false p (bare t) = none := by
    have hc : Spec.cat (bare t) = Spec.cat t := cat_requal _ _
    have hf : ∀ s q r, bare t ≠ .fn s true q r false := by
      intro s q r e
      have hc' : Cat.function = Spec.cat t := by rw [← hc, e]; rfl
      rw [← hc'] at h; simp at h
    have h8 : Spec.arithOf (bare t) ≠ some .char8 := by
      intro e
      have : Spec.cat (bare t) = .integral := (cat_arith _).1.2 ⟨_, e, rfl⟩
      rw [hc] at this; rw [this] at h; simp at h
    have hi : is_integral (bare t) = some false := by
      rw [is_integral_iff_partial _ h8, hc]
      rcases h with h | h | h | h | h | h | h | h <;> simp [h]
    have he : is_enum false (bare t) = some false := by
      rw [is_enum_eq _ hf, hc]
      rcases h with h | h | h | h | h | h | h | h <;> simp [h, h8]
    unfold make_signed_base
    rw [hi, he]
    rfl
  unfold make_signed
  rw [remove_cv_eq]
  simp only [Option.bind_eq_bind, Option.bind_some, hb, Option.bind_none]

/-- **Violation.**  `make_signed<bool>` and `make_signed` of `nullptr_t` and of member pointers compile. -/
theorem make_signed_too_much (p : Plat) (q : CV) (hb : p.size .bool ≤ p.size .schar)
    (hn : p.sizeOther (.obj {} .nullptr) ≤ p.size .llong) :
    make_signed false p (.obj q (.arith .bool)) = some (.obj q (.arith .schar)) ∧
    (make_signed false p (.obj q .nullptr)).isSome := by
  refine ⟨make_signed_obj p q _ .schar ?_, ?_⟩
  · have : make_signed_base false p (.obj {} (.arith .bool)) =
        (find_first p (p.size .bool) signed_types).map ar := rfl
    rw [this]
    simp only [signed_types, find_first]
    rw [if_pos hb]; rfl
  · have e : make_signed_base false p (.obj {} .nullptr) =
        (find_first p (p.sizeOther (.obj {} .nullptr)) signed_types).map ar := rfl
    have : ∃ s, find_first p (p.sizeOther (.obj {} .nullptr)) signed_types = some s := by
      simp only [signed_types, find_first]
      by_cases c0 : p.sizeOther (.obj {} .nullptr) ≤ p.size .schar
      · exact ⟨_, if_pos c0⟩
      · rw [if_neg c0]
        by_cases c1 : p.sizeOther (.obj {} .nullptr) ≤ p.size .short
        · exact ⟨_, if_pos c1⟩
        · rw [if_neg c1]
          by_cases c2 : p.sizeOther (.obj {} .nullptr) ≤ p.size .int
          · exact ⟨_, if_pos c2⟩
          · rw [if_neg c2]
            by_cases c3 : p.sizeOther (.obj {} .nullptr) ≤ p.size .long
            · exact ⟨_, if_pos c3⟩
            · rw [if_neg c3]; exact ⟨_, if_pos hn⟩
    obtain ⟨s, hs⟩ := this
    rw [hs] at e
    rw [make_signed_obj p q _ s e]; rfl

/-- `make_unsigned` of a standard integer type of 8, 16, 32 or 64 bits is an unsigned type of its width, if the
platform's `uintN_t` are -/
theorem make_unsigned_width_partial (p : Plat) (a : Arith) (ha : (Spec.unsignedOf a).isSome)
    (hw : 8 * p.size a ∈ [8, 16, 32, 64])
    (hu : ∀ w ∈ [8, 16, 32, 64], 8 * p.size (p.uintN w) = w ∧ Spec.signed p (p.uintN w) = false) :
    ∃ u, make_unsigned p (.obj {} (.arith a)) = some (.obj {} (.arith u)) ∧ p.size u = p.size a ∧
      Spec.signed p u = false := by
  refine ⟨p.uintN (8 * p.size a), ?_, ?_, (hu _ hw).2⟩
  · have hm : a ∈ [Arith.schar, .uchar, .short, .ushort, .int, .uint, .long, .ulong, .llong, .ullong] := by
      cases a <;> simp_all [Spec.unsignedOf]
    exact if_pos ⟨hm, hw⟩
  · have := (hu _ hw).1; omega

/-- **Violation.**  Where two standard signed types have one size (`int` and `long` on 32-bit targets, `long` and
`long long` on 64-bit ones), `make_unsigned` gives both the same type: for one of them not the corresponding one. -/
theorem make_unsigned_wrong_type (p : Plat) (a b ua ub : Arith) (ha : Spec.unsignedOf a = some ua)
    (hb : Spec.unsignedOf b = some ub) (hne : ua ≠ ub) (hs : p.size a = p.size b) :
    make_unsigned p (ar a) ≠ some (ar ua) ∨ make_unsigned p (ar b) ≠ some (ar ub) := by
  have he : make_unsigned p (ar a) = make_unsigned p (ar b) := by
    have hma : a ∈ [Arith.schar, .uchar, .short, .ushort, .int, .uint, .long, .ulong, .llong, .ullong] := by
      cases a <;> simp_all [Spec.unsignedOf]
    have hmb : b ∈ [Arith.schar, .uchar, .short, .ushort, .int, .uint, .long, .ulong, .llong, .ullong] := by
      cases b <;> simp_all [Spec.unsignedOf]
    simp only [make_unsigned, ar, hma, hmb, hs]
  by_cases h : make_unsigned p (ar a) = some (ar ua)
  · refine Or.inr fun h2 => ?_
    rw [← he, h] at h2
    simp [ar] at h2
    exact hne h2
  · exact Or.inl h

/-- **Violation.**  `make_unsigned` of a qualified type, of `char` or another character type, or of an enumeration does
not compile. -/
theorem make_unsigned_missing (p : Plat) :
    (∀ q b, q ≠ {} → make_unsigned p (.obj q b) = none) ∧ make_unsigned p (ar .char) = none ∧
    make_unsigned p (ar .wchar) = none ∧ make_unsigned p (ar .char16) = none ∧ make_unsigned p (ar .char32) = none ∧
    (∀ q n, make_unsigned p (.obj q (.enm n)) = none) := by
  refine ⟨fun q b hq => ?_, rfl, rfl, rfl, rfl, fun q n => ?_⟩
  · obtain ⟨c, v⟩ := q
    cases c <;> cases v <;> first | exact absurd rfl hq | (cases b <;> rfl)
  · obtain ⟨c, v⟩ := q
    cases c <;> cases v <;> rfl

/-- a usual 64-bit platform, for the examples -/
def lp64 : Plat where
  charSigned := true
  wcharSigned := true
  size := fun
    | .bool => 1 | .char => 1 | .schar => 1 | .uchar => 1 | .char8 => 1
    | .short => 2 | .ushort => 2 | .char16 => 2
    | .int => 4 | .uint => 4 | .wchar => 4 | .char32 => 4 | .float => 4
    | .ldouble => 16
    | _ => 8
  sizeOther := fun _ => 4
  uintN := fun w => if w = 8 then .uchar else if w = 16 then .ushort else if w = 32 then .uint else .ulong

theorem lp64_ok : Spec.PlatOk lp64 := by
  constructor
  · intro a s h; cases a <;> simp_all [Spec.signedOf] <;> subst h <;> rfl
  · intro a b k l h1 h2 h3
    cases a <;> simp_all [Spec.rank] <;> cases b <;> simp_all [Spec.rank, lp64] <;> omega

example : make_signed false lp64 (.obj ⟨true, false⟩ (.arith .wchar)) = some (.obj ⟨true, false⟩ (.arith .int)) ∧
    make_signed false lp64 (.obj {} (.arith .ulong)) = some (.obj {} (.arith .long)) ∧
    make_unsigned lp64 (ar .llong) = some (ar .ulong) := by decide

end Verif.Traits
