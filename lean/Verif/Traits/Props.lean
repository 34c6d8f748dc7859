import Verif.Traits.Spec

/-!
# C89: the traits that classify a type
-/
namespace Verif.Traits

/-! ## Lemmas about the language -/

theorem requal_id (t : Ty) (f : CV → CV) (h : f t.quals = t.quals) : t.requal f = t := by
  induction t with
  | obj q b => simp only [Ty.quals] at h; simp only [Ty.requal, h]
  | ptr q t _ => simp only [Ty.quals] at h; simp only [Ty.requal, h]
  | mem q t k _ => simp only [Ty.quals] at h; simp only [Ty.requal, h]
  | arr t n ih => simp only [Ty.quals] at h; simp only [Ty.requal, ih h]
  | lref t _ => rfl
  | rref t _ => rfl
  | fn s va q r ne => rfl

theorem requal_requal (t : Ty) (f g : CV → CV) : (t.requal f).requal g = t.requal (fun q => g (f q)) := by
  induction t with
  | arr t n ih => simp only [Ty.requal, ih]
  | _ => rfl

theorem requal_congr (t : Ty) (f g : CV → CV) (h : f t.quals = g t.quals) : t.requal f = t.requal g := by
  induction t with
  | obj q b => simp only [Ty.quals] at h; simp only [Ty.requal, h]
  | ptr q t _ => simp only [Ty.quals] at h; simp only [Ty.requal, h]
  | mem q t k _ => simp only [Ty.quals] at h; simp only [Ty.requal, h]
  | arr t n ih => simp only [Ty.quals] at h; simp only [Ty.requal, ih h]
  | _ => rfl

/-- the type without its top-level qualifiers -/
def bare (t : Ty) : Ty := t.requal fun _ => {}

theorem quals_bare (t : Ty) : (bare t).quals = {} := by
  induction t with
  | arr t n ih => exact ih
  | _ => rfl

theorem remove_const_eq (t : Ty) : remove_const.inst t = some t.dropC := by
  unfold remove_const Tmpl.inst
  by_cases h : t.quals.c = true
  · simp [Pat.take, h]
  · have : t.dropC = t := by
      apply requal_id
      cases hq : t.quals; simp only [hq] at h ⊢; simp at h; rw [h]
    simp [Pat.take, h, this]

theorem remove_volatile_eq (t : Ty) : remove_volatile.inst t = some t.dropV := by
  unfold remove_volatile Tmpl.inst
  by_cases h : t.quals.v = true
  · simp [Pat.take, h]
  · have : t.dropV = t := by
      apply requal_id
      cases hq : t.quals; simp only [hq] at h ⊢; simp at h; rw [h]
    simp [Pat.take, h, this]

theorem remove_cv_eq (t : Ty) : remove_cv t = some (bare t) := by
  unfold remove_cv
  rw [remove_const_eq, Option.bind_some, remove_volatile_eq]
  unfold Ty.dropV Ty.dropC bare
  rw [requal_requal]

theorem cat_requal (f : CV → CV) (t : Ty) : Spec.cat (t.requal f) = Spec.cat t := by
  cases t with
  | obj q b => cases b <;> rfl
  | _ => rfl

/-! ## Categories -/

/-- `is_void` -/
theorem is_void_iff (t : Ty) : is_void t = some (decide (Spec.cat t = .void)) := by
  unfold is_void
  rw [remove_cv_eq, Option.bind_some]
  cases t with
  | obj q b =>
    cases b with
    | arith a => cases a <;> simp [bare, Ty.requal, Tmpl.inst, Pat.take, Spec.cat, Spec.floating]
    | _ => simp [bare, Ty.requal, Tmpl.inst, Pat.take, Spec.cat, yes]
  | mem q t k => cases t <;> simp [bare, Ty.requal, Tmpl.inst, Pat.take, Spec.cat, Spec.memCat]
  | _ => simp [bare, Ty.requal, Tmpl.inst, Pat.take, Spec.cat]

theorem libcpp_arith (a : Arith) :
    libcpp_is_integral.inst (ar a) = some (!Spec.floating a && a != .char8) := by
  cases a <;> decide

theorem libcpp_other (t : Ty) (h : ∀ a, t ≠ ar a) : libcpp_is_integral.inst t = some false := by
  unfold libcpp_is_integral Tmpl.inst
  have hk : ∀ a, (Pat.lit (ar a)).take t = none := fun a => if_neg (fun e => h a e.symm)
  simp [hk]

theorem bare_ne_ar (t : Ty) (h : Spec.arithOf t = none) (a : Arith) : bare t ≠ ar a := by
  cases t with
  | obj q b => cases b <;> simp_all [bare, Ty.requal, ar, Spec.arithOf]
  | _ => simp [bare, Ty.requal, ar]

theorem is_integral_eq (t : Ty) : is_integral t =
    some (match Spec.arithOf t with | some a => !Spec.floating a && a != .char8 | none => false) := by
  unfold is_integral
  rw [remove_cv_eq, Option.bind_some]
  cases h : Spec.arithOf t with
  | some a =>
    obtain ⟨q, rfl⟩ : ∃ q, t = .obj q (.arith a) := by
      cases t with
      | obj q b => cases b <;> simp_all [Spec.arithOf]
      | _ => simp [Spec.arithOf] at h
    exact libcpp_arith a
  | none => exact libcpp_other _ (bare_ne_ar t h)

theorem is_floating_eq (t : Ty) : is_floating_point t =
    some (match Spec.arithOf t with | some a => Spec.floating a | none => false) := by
  unfold is_floating_point
  rw [remove_cv_eq]
  cases h : Spec.arithOf t with
  | some a =>
    obtain ⟨q, rfl⟩ : ∃ q, t = .obj q (.arith a) := by
      cases t with
      | obj q b => cases b <;> simp_all [Spec.arithOf]
      | _ => simp [Spec.arithOf] at h
    cases a <;> rfl
  | none =>
    have hk : ∀ a, (Pat.lit (ar a)).take (bare t) = none := fun a => if_neg (fun e => bare_ne_ar t h a e.symm)
    simp [is_same, Tmpl.inst, hk]

theorem cat_arith (t : Ty) : (Spec.cat t = .integral ↔ ∃ a, Spec.arithOf t = some a ∧ Spec.floating a = false) ∧
    (Spec.cat t = .floating ↔ ∃ a, Spec.arithOf t = some a ∧ Spec.floating a = true) := by
  cases t with
  | obj q b =>
    cases b with
    | arith a => cases h : Spec.floating a <;> simp [Spec.cat, Spec.arithOf, h]
    | _ => simp [Spec.cat, Spec.arithOf]
  | mem q t k => cases t <;> simp [Spec.cat, Spec.memCat, Spec.arithOf]
  | _ => simp [Spec.cat, Spec.arithOf]

/-- `is_floating_point` -/
theorem is_floating_point_iff (t : Ty) : is_floating_point t = some (decide (Spec.cat t = .floating)) := by
  rw [is_floating_eq]
  have := (cat_arith t).2
  cases h : Spec.arithOf t with
  | none => simp [this, h]
  | some a => cases hf : Spec.floating a <;> simp [this, h, hf]

/-- `is_integral` is right for every type but `char8_t` -/
theorem is_integral_iff_partial (t : Ty) (h : Spec.arithOf t ≠ some .char8) :
    is_integral t = some (decide (Spec.cat t = .integral)) := by
  rw [is_integral_eq]
  have := (cat_arith t).1
  cases h' : Spec.arithOf t with
  | none => simp [this, h']
  | some a =>
    have hc : a ≠ .char8 := by rintro rfl; exact h h'
    cases hf : Spec.floating a <;> simp [this, h', hf, hc]

/-- **Violation.**  `char8_t` is an integral type, however qualified; `is_integral` says it is not. -/
theorem char8_not_integral (q : CV) :
    Spec.cat (.obj q (.arith .char8)) = .integral ∧ is_integral (.obj q (.arith .char8)) = some false := by
  rw [is_integral_eq]; exact ⟨rfl, rfl⟩

/-- `is_arithmetic` is right for every type but `char8_t` -/
theorem is_arithmetic_iff_partial (t : Ty) (h : Spec.arithOf t ≠ some .char8) :
    is_arithmetic t = some (decide (Spec.cat t = .integral ∨ Spec.cat t = .floating)) := by
  unfold is_arithmetic
  rw [is_integral_iff_partial t h, is_floating_point_iff]
  simp [Bool.decide_or]

/-- `is_array` -/
theorem is_array_iff (t : Ty) : is_array.inst t = some (decide (Spec.cat t = .array)) := by
  cases t with
  | arr t n => cases n <;> rfl
  | obj q b =>
    cases b with
    | arith a => cases a <;> rfl
    | _ => rfl
  | mem q t k => cases t <;> rfl
  | _ => rfl

/-- `is_pointer` -/
theorem is_pointer_iff (t : Ty) : is_pointer t = some (decide (Spec.cat t = .pointer)) := by
  unfold is_pointer
  rw [remove_cv_eq, Option.bind_some]
  cases t with
  | obj q b =>
    cases b with
    | arith a => cases a <;> rfl
    | _ => rfl
  | mem q t k => cases t <;> rfl
  | _ => rfl

/-- `is_lvalue_reference`, `is_rvalue_reference`, `is_reference` -/
theorem is_reference_iff (t : Ty) :
    is_lvalue_reference.inst t = some (decide (Spec.cat t = .lref)) ∧
    is_rvalue_reference.inst t = some (decide (Spec.cat t = .rref)) ∧
    is_reference.inst t = some (decide (Spec.cat t = .lref ∨ Spec.cat t = .rref)) := by
  cases t with
  | obj q b =>
    cases b with
    | arith a => cases a <;> exact ⟨rfl, rfl, rfl⟩
    | _ => exact ⟨rfl, rfl, rfl⟩
  | mem q t k => cases t <;> exact ⟨rfl, rfl, rfl⟩
  | _ => exact ⟨rfl, rfl, rfl⟩

theorem is_function_fn (ell : Bool) (s : Nat) (va : Bool) (q : CV) (r : RefQ) (ne : Bool) :
    (is_function ell).inst (.fn s va q r ne) = some (!va || ne || ell) := by
  obtain ⟨c, v⟩ := q
  cases ell <;> cases va <;> cases c <;> cases v <;> cases r <;> cases ne <;> rfl

theorem is_function_not (ell : Bool) (t : Ty) (h : Spec.cat t ≠ .function) : (is_function ell).inst t = some false := by
  have hk : ∀ va q r ne, (Pat.fn va q r ne).take t = none := by
    intro va q r ne
    cases t with
    | fn => simp [Spec.cat] at h
    | _ => rfl
  unfold is_function Tmpl.inst
  cases ell <;> simp [hk]

/-- `is_function` is right for every type but a variadic function's (like `printf`'s) that is not `noexcept` -/
theorem is_function_iff_partial (t : Ty) (h : ∀ s q r, t ≠ .fn s true q r false) :
    (is_function false).inst t = some (decide (Spec.cat t = .function)) := by
  by_cases hc : Spec.cat t = .function
  · cases t with
    | fn s va q r ne =>
      rw [is_function_fn]
      cases va <;> cases ne <;> simp_all [Spec.cat]
    | obj q b =>
      cases b with
      | arith a => cases a <;> simp [Spec.cat, Spec.floating] at hc
      | _ => simp [Spec.cat] at hc
    | mem q t k => cases t <;> simp [Spec.cat, Spec.memCat] at hc
    | _ => simp [Spec.cat] at hc
  · rw [is_function_not _ _ hc]; simp [hc]

/-- with the macro `FEATURE_CPP_AMBIGUOUS_ELLIPSES` it would be right for all -/
theorem is_function_with_ellipses (t : Ty) : (is_function true).inst t = some (decide (Spec.cat t = .function)) := by
  by_cases hc : Spec.cat t = .function
  · cases t with
    | fn s va q r ne => rw [is_function_fn]; simp [Spec.cat]
    | obj q b =>
      cases b with
      | arith a => cases a <;> simp [Spec.cat, Spec.floating] at hc
      | _ => simp [Spec.cat] at hc
    | mem q t k => cases t <;> simp [Spec.cat, Spec.memCat] at hc
    | _ => simp [Spec.cat] at hc
  · rw [is_function_not _ _ hc]; simp [hc]

/-- **Violation.**  `is_function` says that a variadic function's type is not a function type (the specialisations for
it are under a macro that nothing defines). -/
theorem variadic_not_function (s : Nat) (q : CV) (r : RefQ) :
    Spec.cat (.fn s true q r false) = .function ∧ (is_function false).inst (.fn s true q r false) = some false := by
  rw [is_function_fn]; exact ⟨rfl, rfl⟩

theorem is_union_eq (t : Ty) : is_union t = some false := by unfold is_union; rw [remove_cv_eq]; rfl

theorem is_class_eq (t : Ty) : is_class t = some (decide (Spec.cat t = .cls ∨ Spec.cat t = .union)) := by
  unfold is_class
  rw [is_union_eq]
  cases t with
  | obj q b =>
    cases b with
    | arith a => cases a <;> rfl
    | _ => rfl
  | mem q t k => cases t <;> rfl
  | _ => rfl

/-- `is_class` is right for every type that is not a union -/
theorem is_class_iff_partial (t : Ty) (h : Spec.cat t ≠ .union) :
    is_class t = some (decide (Spec.cat t = .cls)) := by
  rw [is_class_eq]; simp [h]

/-- **Violation.**  Every union is a class to `is_class`, and not a union to `is_union`. -/
theorem union_is_class (q : CV) (n : Nat) :
    Spec.cat (.obj q (.uni n)) = .union ∧ is_class (.obj q (.uni n)) = some true ∧
      is_union (.obj q (.uni n)) = some false := by
  rw [is_class_eq, is_union_eq]; exact ⟨rfl, rfl, rfl⟩

theorem is_member_pointer_eq (t : Ty) :
    is_member_pointer t = some (decide (Spec.cat t = .memObj ∨ Spec.cat t = .memFn)) := by
  unfold is_member_pointer
  rw [remove_cv_eq, Option.bind_some]
  cases t with
  | obj q b =>
    cases b with
    | arith a => cases a <;> rfl
    | _ => rfl
  | mem q t k => cases t <;> rfl
  | _ => rfl

theorem is_member_function_mem (ell : Bool) (q : CV) (t : Ty) (k : Nat) :
    is_member_function_pointer ell (.mem q t k) = (is_function ell).inst t := by
  unfold is_member_function_pointer
  rw [remove_cv_eq]
  rfl

/-- the member pointer traits, for what points to anything but a variadic function -/
theorem is_member_pointer_iff_partial (t : Ty) (h : ∀ q s q' r k, t ≠ .mem q (.fn s true q' r false) k) :
    is_member_pointer t = some (decide (Spec.cat t = .memObj ∨ Spec.cat t = .memFn)) ∧
    is_member_function_pointer false t = some (decide (Spec.cat t = .memFn)) ∧
    is_member_object_pointer false t = some (decide (Spec.cat t = .memObj)) := by
  have h1 := is_member_pointer_eq t
  have h2 : is_member_function_pointer false t = some (decide (Spec.cat t = .memFn)) := by
    cases t with
    | obj q b =>
      unfold is_member_function_pointer
      rw [remove_cv_eq]
      cases b with
      | arith a => cases a <;> rfl
      | _ => rfl
    | mem q t k =>
      rw [is_member_function_mem, is_function_iff_partial t (by rintro s q' r rfl; exact h q s q' r k rfl)]
      cases t with
      | obj q b =>
        cases b with
        | arith a => cases a <;> rfl
        | _ => rfl
      | mem q t k => cases t <;> rfl
      | _ => rfl
    | _ => unfold is_member_function_pointer; rw [remove_cv_eq]; rfl
  refine ⟨h1, h2, ?_⟩
  unfold is_member_object_pointer
  rw [h1, h2]
  cases hc : Spec.cat t <;> simp

/-- **Violation.**  A pointer to a variadic member function is taken for a pointer to a data member. -/
theorem variadic_member_is_object (q : CV) (s : Nat) (q' : CV) (r : RefQ) (k : Nat) :
    Spec.cat (.mem q (.fn s true q' r false) k) = .memFn ∧
      is_member_object_pointer false (.mem q (.fn s true q' r false) k) = some true := by
  refine ⟨rfl, ?_⟩
  unfold is_member_object_pointer
  rw [is_member_function_mem, is_function_fn, is_member_pointer_eq]
  rfl

theorem is_enum_eq (t : Ty) (h : ∀ s q r, t ≠ .fn s true q r false) :
    is_enum false t = some (decide (Spec.cat t = .enum ∨ Spec.cat t = .nullptr ∨ Spec.cat t = .memObj ∨
      Spec.cat t = .memFn ∨ Spec.arithOf t = some .char8)) := by
  unfold is_enum
  rw [is_void_iff, is_integral_eq, is_floating_point_iff, is_array_iff, is_pointer_iff, (is_reference_iff t).2.2,
    is_function_iff_partial t h, is_class_eq]
  cases t with
  | obj q b =>
    cases b with
    | arith a => cases a <;> rfl
    | _ => rfl
  | mem q t k => cases t <;> rfl
  | _ => rfl

/-- `is_enum` is right for enumerations and for every type but `nullptr_t`, member pointers, `char8_t` and variadic
functions -/
theorem is_enum_iff_partial (t : Ty) (h : ∀ s q r, t ≠ .fn s true q r false) (hn : Spec.cat t ≠ .nullptr)
    (hm : Spec.cat t ≠ .memObj) (hf : Spec.cat t ≠ .memFn) (h8 : Spec.arithOf t ≠ some .char8) :
    is_enum false t = some (decide (Spec.cat t = .enum)) := by
  rw [is_enum_eq t h]; simp [hn, hm, hf, h8]

/-- **Violation.**  `nullptr_t`, every pointer to member, `char8_t` and every variadic function type pass for
enumerations. -/
theorem not_enums :
    (∀ q, is_enum false (.obj q .nullptr) = some true) ∧ (∀ q t k, is_enum false (.mem q t k) = some true) ∧
    (∀ q, is_enum false (.obj q (.arith .char8)) = some true) ∧
    (∀ s q r, is_enum false (.fn s true q r false) = some true) := by
  refine ⟨fun q => ?_, fun q t k => ?_, fun q => ?_, fun s q r => ?_⟩
  · rw [is_enum_eq _ (by simp)]; simp [Spec.cat]
  · rw [is_enum_eq _ (by simp)]; cases t <;> simp [Spec.cat, Spec.memCat]
  · rw [is_enum_eq _ (by simp)]; simp [Spec.arithOf]
  · unfold is_enum
    rw [is_void_iff, is_integral_eq, is_floating_point_iff, is_array_iff, is_pointer_iff, (is_reference_iff _).2.2,
      is_function_fn, is_class_eq]
    rfl

example : is_enum false (.obj ⟨true, false⟩ (.enm 2)) = some true ∧ is_enum false (.obj {} (.arith .int)) = some false ∧
    is_class (.obj ⟨false, true⟩ (.cls 0)) = some true ∧ is_class (.lref (.obj {} (.cls 0))) = some false ∧
    is_pointer (.ptr ⟨true, true⟩ (.obj {} .void)) = some true ∧
    is_member_function_pointer false (.mem {} (.fn 0 false ⟨true, false⟩ .l false) 1) = some true ∧
    is_integral (.obj ⟨true, false⟩ (.arith .wchar)) = some true ∧
    is_void (.obj ⟨true, false⟩ .void) = some true ∧
    (is_function false).inst (.fn 1 true ⟨true, true⟩ .r true) = some true := by decide

/-! ## Properties -/

/-- `is_const`, `is_volatile`: the qualifiers of an array are its elements' -/
theorem is_const_iff (t : Ty) : is_const.inst t = some t.quals.c ∧ is_volatile.inst t = some t.quals.v := by
  refine ⟨?_, ?_⟩
  · unfold is_const Tmpl.inst; cases h : t.quals.c <;> simp [Pat.take, h, yes]
  · unfold is_volatile Tmpl.inst; cases h : t.quals.v <;> simp [Pat.take, h, yes]

/-- no reference or function type is `const`, an array is when its elements are -/
theorem const_where (t : Ty) (q : CV) (n : Option Nat) :
    is_const.inst (.lref t) = some false ∧ is_const.inst (.rref t) = some false ∧
    is_const.inst (.arr t n) = is_const.inst t ∧ is_const.inst (.ptr q t) = some q.c := by
  simp only [(is_const_iff _).1]
  exact ⟨rfl, rfl, rfl, rfl⟩

/-- `is_same` -/
theorem is_same_iff (t u : Ty) : (is_same t).inst u = some (decide (t = u)) := by
  unfold is_same Tmpl.inst
  by_cases h : t = u <;> simp [Pat.take, h, yes]

theorem minusOne_neg (p : Plat) (a : Arith) : decide (minusOne p a < 0) = Spec.signed p a := by
  have h2 : ∀ n : Nat, ¬ ((2 : Int) ^ n - 1 < 0) := by
    intro n; have : (0 : Int) < 2 ^ n := Int.pow_pos (by decide); omega
  cases a <;> simp [minusOne, Spec.signed, h2] <;> split <;> simp_all

/-- `is_signed`: exactly the arithmetic types that have negative values -/
theorem is_signed_iff (p : Plat) (t : Ty) :
    is_signed p t = some (match Spec.arithOf t with | some a => Spec.signed p a | none => false) := by
  unfold is_signed is_arithmetic
  rw [is_integral_eq, is_floating_eq]
  cases h : Spec.arithOf t with
  | none => rfl
  | some a =>
    obtain ⟨q, rfl⟩ : ∃ q, t = .obj q (.arith a) := by
      cases t with
      | obj q b => cases b <;> simp_all [Spec.arithOf]
      | _ => simp [Spec.arithOf] at h
    have hn : negLess p (.obj q (.arith a)) = some (Spec.signed p a) := by
      rw [← minusOne_neg]; rfl
    cases a <;> first | exact hn | rfl

/-- `is_unsigned` is right for arithmetic types -/
theorem is_unsigned_iff_partial (p : Plat) (t : Ty) (a : Arith) (h : Spec.arithOf t = some a) :
    is_unsigned p t = some (!Spec.signed p a) := by
  unfold is_unsigned; rw [is_signed_iff, h]; rfl

/-- **Violation.**  `is_unsigned` is true of every type that is not arithmetic: `void`, pointers, classes, references. -/
theorem everything_is_unsigned (p : Plat) (t : Ty) (h : Spec.arithOf t = none) : is_unsigned p t = some true := by
  unfold is_unsigned; rw [is_signed_iff, h]; rfl

/-! ## Class hierarchies -/

theorem viable_iff (h : Hier) (b d : Ty) (hb : Spec.cat b = .cls) (hd : Spec.cat d = .cls) :
    h.viable b d = true ↔ Spec.BaseOf h b d := by
  obtain ⟨qb, m, rfl⟩ : ∃ q n, b = .obj q (.cls n) := by
    cases b with
    | obj q b => cases b <;> simp_all [Spec.cat] <;> split at hb <;> cases hb
    | mem q t k => cases t <;> simp [Spec.cat, Spec.memCat] at hb
    | _ => simp [Spec.cat] at hb
  obtain ⟨qd, n, rfl⟩ : ∃ q n, d = .obj q (.cls n) := by
    cases d with
    | obj q b => cases b <;> simp_all [Spec.cat] <;> split at hd <;> cases hd
    | mem q t k => cases t <;> simp [Spec.cat, Spec.memCat] at hd
    | _ => simp [Spec.cat] at hd
  constructor
  · intro hv
    refine ⟨qb, qd, m, n, rfl, rfl, ?_⟩
    simpa [Hier.viable, Ty.classId] using hv
  · rintro ⟨_, _, m', n', h1, h2, h3⟩
    cases h1; cases h2
    simpa [Hier.viable, Ty.classId] using h3

theorem test_eq (h : Hier) (b d : Ty) : test_is_base_of h b d = h.viable b d := by
  unfold test_is_base_of; cases h.viable b d <;> simp

/-- `is_base_of`, for every hierarchy and all types but unions: a class and itself, or one derived from it directly or
not, privately or ambiguously -/
theorem is_base_of_iff_partial (h : Hier) (b d : Ty) (hb : Spec.cat b ≠ .union) :
    ∃ r, is_base_of h b d = some r ∧ (r = true ↔ Spec.BaseOf h b d) := by
  unfold is_base_of
  rw [is_class_eq, is_class_eq, test_eq]
  refine ⟨_, rfl, ?_⟩
  by_cases hc : Spec.cat b = .cls
  · by_cases hd : Spec.cat d = .cls
    · simp [hc, hd, viable_iff h b d hc hd]
    · have hno : ¬ Spec.BaseOf h b d := by rintro ⟨_, _, m, n, _, rfl, _⟩; exact hd rfl
      simp only [hno, iff_false]
      by_cases hu : Spec.cat d = .union
      · have hv : h.viable b d = false := by
          cases d with
          | obj q x =>
            cases x with
            | uni n =>
              cases b with
              | obj q y => cases y <;> simp_all [Hier.viable, Ty.classId, Spec.cat]
              | _ => simp [Hier.viable, Ty.classId]
            | arith a => cases a <;> simp [Spec.cat, Spec.floating] at hu
            | _ => simp [Spec.cat] at hu
          | mem q t k => cases t <;> simp [Spec.cat, Spec.memCat] at hu
          | _ => simp [Spec.cat] at hu
        simp [hv]
      · simp [hd, hu]
  · have hno : ¬ Spec.BaseOf h b d := by rintro ⟨_, _, m, n, rfl, _, _⟩; exact hc rfl
    simp [hno, hc, hb]

/-- **Violation.**  Every union is a base of itself to `is_base_of`, whatever the qualifiers; a union is nobody's
base. -/
theorem union_base_of_itself (h : Hier) (q q' : CV) (n : Nat) :
    is_base_of h (.obj q (.uni n)) (.obj q' (.uni n)) = some true ∧
      ¬ Spec.BaseOf h (.obj q (.uni n)) (.obj q' (.uni n)) := by
  refine ⟨?_, ?_⟩
  · unfold is_base_of
    rw [is_class_eq, is_class_eq, test_eq]
    simp [Spec.cat, Hier.viable, Ty.classId]
  · rintro ⟨_, _, _, _, h1, _⟩; cases h1

example : (⟨fun a b => a == 1 && b == 0, fun _ _ => false⟩ : Hier) |> fun h =>
    is_base_of h (.obj ⟨true, false⟩ (.cls 0)) (.obj {} (.cls 1)) = some true ∧
    is_base_of h (.obj {} (.cls 1)) (.obj {} (.cls 0)) = some false := by decide

/-! ## Logic -/

/-- `conjunction`: true iff every trait compiles and is true; false at the first that is false, with everything after
it left alone -/
theorem conjunction_iff (bs : List (Option Bool)) :
    (conjunction bs = some true ↔ ∀ b ∈ bs, b = some true) ∧
    (conjunction bs = some false ↔ ∃ pre post, bs = pre ++ some false :: post ∧ ∀ b ∈ pre, b = some true) := by
  induction bs with
  | nil => simp [conjunction]
  | cons b r ih =>
    have hs : conjunction (b :: r) = b.bind fun x => if x then conjunction r else some false := by
      cases r with
      | nil => rcases b with _ | _ | _ <;> simp [conjunction]
      | cons _ _ => rcases b with _ | _ | _ <;> rfl
    rw [hs]
    rcases b with _ | _ | _
    · refine ⟨by simp, by simp, ?_⟩
      rintro ⟨pre, post, h1, h2⟩
      cases pre with
      | nil => simp at h1
      | cons x y => simp at h1; have := h2 x (by simp); rw [← h1.1] at this; cases this
    · refine ⟨by simp, ?_⟩
      simp only [Option.bind_some, Bool.false_eq_true, ↓reduceIte, true_iff]
      exact ⟨[], r, rfl, by simp⟩
    · refine ⟨by simp [ih.1], ?_⟩
      simp only [Option.bind_some, ↓reduceIte, ih.2]
      constructor
      · rintro ⟨pre, post, h1, h2⟩
        exact ⟨some true :: pre, post, by rw [h1]; rfl, by simpa using h2⟩
      · rintro ⟨pre, post, h1, h2⟩
        cases pre with
        | nil => simp at h1
        | cons x y => simp at h1; exact ⟨y, post, h1.2, fun b hb => h2 b (by simp [hb])⟩

example : conjunction [some true, some false, none] = some false ∧ conjunction [none, some false] = none := by decide

/-- `disjunction`: false iff every trait compiles and is false; true at the first that is true -/
theorem disjunction_iff (bs : List (Option Bool)) :
    (disjunction bs = some false ↔ ∀ b ∈ bs, b = some false) ∧
    (disjunction bs = some true ↔ ∃ pre post, bs = pre ++ some true :: post ∧ ∀ b ∈ pre, b = some false) := by
  induction bs with
  | nil => simp [disjunction]
  | cons b r ih =>
    have hs : disjunction (b :: r) = b.bind fun x => if x then some true else disjunction r := by
      cases r with
      | nil => rcases b with _ | _ | _ <;> simp [disjunction]
      | cons _ _ => rcases b with _ | _ | _ <;> rfl
    rw [hs]
    rcases b with _ | _ | _
    · refine ⟨by simp, by simp, ?_⟩
      rintro ⟨pre, post, h1, h2⟩
      cases pre with
      | nil => simp at h1
      | cons x y => simp at h1; have := h2 x (by simp); rw [← h1.1] at this; cases this
    · refine ⟨by simp [ih.1], ?_⟩
      simp only [Option.bind_some, Bool.false_eq_true, ↓reduceIte, ih.2]
      constructor
      · rintro ⟨pre, post, h1, h2⟩
        exact ⟨some false :: pre, post, by rw [h1]; rfl, by simpa using h2⟩
      · rintro ⟨pre, post, h1, h2⟩
        cases pre with
        | nil => simp at h1
        | cons x y => simp at h1; exact ⟨y, post, h1.2, fun b hb => h2 b (by simp [hb])⟩
    · refine ⟨by simp, ?_⟩
      simp only [Option.bind_some, ↓reduceIte, true_iff]
      exact ⟨[], r, rfl, by simp⟩

end Verif.Traits
