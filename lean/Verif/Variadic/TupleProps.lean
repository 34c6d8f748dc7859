import Verif.Variadic.Tuple

/-!
# Properties of tuples
-/

namespace Verif.Variadic

variable {τ α σ : Type}

namespace Spec

/-- Values `vs` for element types `ts`: one each, and an empty class has only the one value. -/
def Typed (T : Types τ α) (ts : List τ) (vs : List α) : Prop :=
  ts.length = vs.length ∧ ∀ (i : Nat) (t : τ) (v : α), ts[i]? = some t → vs[i]? = some v → T.kind t = .empty → v = T.dflt t

/-- A sequence of assignments `get<i>(t) = v`, on plain values. -/
def assigns (vs : List α) (ops : List (Nat × α)) : List α := ops.foldl (fun vs o => vs.set o.1 o.2) vs

/-- Each assignment is to an element that exists and gives it a value of its type. -/
def LegalAssign (T : Types τ α) (ts : List τ) (o : Nat × α) : Prop :=
  ∃ t, ts[o.1]? = some t ∧ (T.kind t = .empty → o.2 = T.dflt t)

/-- A functor that may change the element it is shown, run on plain values. -/
def onValues (f : σ → Nat → α → Bool × σ × α) (s : σ × List α) (i : Nat) (_ : τ) : Bool × (σ × List α) :=
  match s.2[i]? with
  | none => (false, s)
  | some v => ((f s.1 i v).1, ((f s.1 i v).2.1, s.2.set i (f s.1 i v).2.2))

end Spec

/-- The tuple holding values `vs` (proof helper). -/
def canon (T : Types τ α) (sparse : Bool) (ts : List τ) (vs : List α) : List (τ × Slot α) :=
  List.zipWith (fun t v => (t, store T sparse t v)) ts vs

/-- `get<i>(t) = v` for each `(i, v)` in turn. -/
def runAssigns (t : List α × List (τ × Slot α)) : List (Nat × α) → Option (List α × List (τ × Slot α))
  | [] => some t
  | o :: ops => (assign o.1 o.2 t).bind (fun t' => runAssigns t' ops)

theorem construct_eq (T : Types τ α) (sparse : Bool) (ts : List τ) (vs : List α) :
    construct T sparse ts vs = if ts.length = vs.length then some (canon T sparse ts vs) else none := by
  induction ts generalizing vs with
  | nil => cases vs <;> simp [construct, canon]
  | cons t ts ih =>
    cases vs with
    | nil => simp [construct]
    | cons v vs =>
      simp only [construct, ih, List.length_cons, Nat.add_right_cancel_iff]
      split <;> simp [canon]

theorem getImpl_eq (i : Nat) (t : List (τ × Slot α)) : getImpl i t = t[i]? := by
  induction t generalizing i with
  | nil => cases i <;> rfl
  | cons e t ih => cases i <;> simp [getImpl, ih]

theorem store_read (T : Types τ α) (sparse : Bool) (mem : List α) (t : τ) (v : α)
    (h : T.kind t = .empty → v = T.dflt t) : read T mem (t, store T sparse t v) = some v := by
  unfold store
  split
  · rename_i hc
    simp [read, h hc.2]
  · rfl

theorem canon_get (T : Types τ α) (sparse : Bool) (mem : List α) (ts : List τ) (vs : List α)
    (h : Spec.Typed T ts vs) (i : Nat) : get T mem i (canon T sparse ts vs) = vs[i]? := by
  have hl := h.1
  unfold get
  rw [getImpl_eq]
  by_cases hi : i < vs.length
  · have hi' : i < ts.length := by omega
    have : (canon T sparse ts vs)[i]? = some (ts[i], store T sparse ts[i] vs[i]) := by
      simp only [canon, List.getElem?_zipWith, List.getElem?_eq_getElem hi, List.getElem?_eq_getElem hi']
    rw [this]
    simp only
    rw [store_read, List.getElem?_eq_getElem hi]
    exact h.2 i ts[i] vs[i] (List.getElem?_eq_getElem hi') (List.getElem?_eq_getElem hi)
  · have : (canon T sparse ts vs)[i]? = none := by
      rw [List.getElem?_eq_none_iff]; simp [canon]; omega
    rw [this, List.getElem?_eq_none (by omega)]

theorem canon_length (T : Types τ α) (sparse : Bool) (ts : List τ) (vs : List α) (h : ts.length = vs.length) :
    (canon T sparse ts vs).length = ts.length := by simp [canon, h]

theorem store_assign (T : Types τ α) (sparse : Bool) (mem : List α) (t : τ) (v w : α) :
    assignSlot mem w (store T sparse t v) = (mem, store T sparse t w) := by
  unfold store
  split <;> simp [assignSlot]

theorem canon_assign (T : Types τ α) (sparse : Bool) (mem : List α) (w : α) (ts : List τ) :
    ∀ (vs : List α) (i : Nat), ts.length = vs.length → i < ts.length →
      assign i w (mem, canon T sparse ts vs) = some (mem, canon T sparse ts (vs.set i w)) := by
  induction ts with
  | nil => intro vs i _ h; simp at h
  | cons t ts ih =>
    intro vs i hl hi
    cases vs with
    | nil => simp at hl
    | cons v vs =>
      simp only [List.length_cons, Nat.add_right_cancel_iff] at hl
      cases i with
      | zero => simp [canon, assign, store_assign]
      | succ i =>
        have := ih vs i hl (by simpa using hi)
        simp only [canon] at this
        simp [canon, assign, this]

theorem typed_set {T : Types τ α} {ts : List τ} {vs : List α} (h : Spec.Typed T ts vs) {o : Nat × α}
    (ho : Spec.LegalAssign T ts o) : Spec.Typed T ts (vs.set o.1 o.2) := by
  refine ⟨by simp [h.1], ?_⟩
  intro i t v ht hv hk
  rw [List.getElem?_set] at hv
  split at hv
  · rename_i hi
    obtain ⟨t', ht', hv'⟩ := ho
    rw [hi] at ht'
    have : t' = t := by rw [ht] at ht'; exact (Option.some.inj ht').symm
    subst this
    split at hv
    · simp only [Option.some.injEq] at hv
      rw [← hv]; exact hv' hk
    · cases hv
  · exact h.2 i t v ht hv hk

theorem runAssigns_eq (T : Types τ α) (sparse : Bool) (mem : List α) (ts : List τ) (ops : List (Nat × α)) :
    ∀ (vs : List α), Spec.Typed T ts vs → (∀ o ∈ ops, Spec.LegalAssign T ts o) →
      runAssigns (mem, canon T sparse ts vs) ops = some (mem, canon T sparse ts (Spec.assigns vs ops)) ∧
      Spec.Typed T ts (Spec.assigns vs ops) := by
  induction ops with
  | nil => intro vs h _; exact ⟨rfl, h⟩
  | cons o ops ih =>
    intro vs h ho
    have h1 := ho o (by simp)
    obtain ⟨t, ht, _⟩ := h1
    have hi : o.1 < ts.length := (List.getElem?_eq_some_iff.mp ht).1
    simp only [runAssigns, canon_assign T sparse mem o.2 ts vs o.1 h.1 hi, Option.bind_some]
    exact ih (vs.set o.1 o.2) (typed_set h (ho o (by simp))) (fun o' ho' => ho o' (by simp [ho']))

theorem getAll_eq (g : Nat → Option α) (vs : List α) (n : Nat) :
    ∀ k, k + n = vs.length → (∀ i, i < vs.length → g i = vs[i]?) →
      getAll g ((List.range vs.length).drop k) = some (vs.drop k) := by
  induction n with
  | zero =>
    intro k hk _
    rw [List.drop_of_length_le (by simp; omega), List.drop_of_length_le (by omega)]
    rfl
  | succ n ih =>
    intro k hk hg
    have hlt : k < vs.length := by omega
    rw [List.drop_eq_getElem_cons (by simpa using hlt), List.drop_eq_getElem_cons hlt]
    simp only [List.getElem_range, getAll, hg k hlt, List.getElem?_eq_getElem hlt, ih (k + 1) (by omega) hg]

theorem getAll_range (g : Nat → Option α) (vs : List α) (h : ∀ i, i < vs.length → g i = vs[i]?) :
    getAll g (List.range vs.length) = some vs := by
  simpa using getAll_eq g vs vs.length 0 (by simp) h

/-- **C64.** A tuple keeps its elements, sparse or not.  Built from one value per element and then assigned to any
number of times through `get<I>`, every `get<I>` reads the value last given to element `I` (and `get` past the end
does not compile); `apply` calls the function once with all of them in order; the wrong number of constructor
arguments does not compile. -/
theorem tuple_history (T : Types τ α) (sparse : Bool) (mem : List α) (ts : List τ) (vs : List α)
    (h : Spec.Typed T ts vs) (ops : List (Nat × α)) (ho : ∀ o ∈ ops, Spec.LegalAssign T ts o) :
    (∃ t0 t, construct T sparse ts vs = some t0 ∧ runAssigns (mem, t0) ops = some (mem, t) ∧
      (∀ i, get T mem i t = (Spec.assigns vs ops)[i]?) ∧
      (∀ (β : Type) (f : List α → β), apply T mem f t = some (f (Spec.assigns vs ops)))) ∧
    (∀ us, us.length ≠ ts.length → construct T sparse ts us = none) := by
  constructor
  · obtain ⟨h1, h2⟩ := runAssigns_eq T sparse mem ts ops vs h ho
    refine ⟨canon T sparse ts vs, canon T sparse ts (Spec.assigns vs ops), ?_, h1, ?_, ?_⟩
    · rw [construct_eq, if_pos h.1]
    · exact fun i => canon_get T sparse mem ts _ h2 i
    · intro β f
      unfold apply
      rw [makeSeq_eq, List.append_nil, canon_length _ _ _ _ h2.1, h2.1,
        getAll_range _ (Spec.assigns vs ops) (fun i _ => canon_get T sparse mem ts _ h2 i)]
      rfl
  · intro us hu
    rw [construct_eq, if_neg (fun e => hu e.symm)]

/-- Sample element types: `0` is an empty class (value `0`), `1` a class with default `5`, others scalars. -/
def sampleTypes : Types Nat Nat :=
  ⟨fun t => if t = 0 then .empty else if t = 1 then .cls else .scalar, fun t => if t = 1 then 5 else 0⟩

example : Spec.Typed sampleTypes [2, 0, 1] [7, 0, 9] ∧ (∀ o ∈ [(2, 4), (0, 3)], Spec.LegalAssign sampleTypes [2, 0, 1] o) := by
  refine ⟨⟨rfl, ?_⟩, ?_⟩
  · intro i t v ht hv hk
    match i with
    | 0 => simp at ht hv; subst ht; simp [sampleTypes] at hk
    | 1 => simp at ht hv; subst ht hv; rfl
    | 2 => simp at ht hv; subst ht; simp [sampleTypes] at hk
    | i + 3 => simp at ht
  · intro o ho
    simp only [List.mem_cons, List.not_mem_nil, or_false] at ho
    rcases ho with rfl | rfl
    · exact ⟨1, rfl, by simp [sampleTypes]⟩
    · exact ⟨2, rfl, by simp [sampleTypes]⟩

/-! ## By type, and from rvalues -/

theorem canon_types (T : Types τ α) (sparse : Bool) (ts : List τ) (vs : List α) (h : ts.length = vs.length) :
    (canon T sparse ts vs).map (·.1) = ts := by
  induction ts generalizing vs with
  | nil => simp [canon]
  | cons t ts ih =>
    cases vs with
    | nil => simp at h
    | cons v vs => simpa [canon] using ih vs (by simpa using h)

theorem canon_getMove (T : Types τ α) (sparse : Bool) (mem : List α) (ts : List τ) (vs : List α)
    (h : ts.length = vs.length) (i : Nat) :
    getMove T mem i (canon T sparse ts vs) =
      (match ts[i]? with
       | some t => if sparse = true ∧ T.kind t = .empty then none else vs[i]?
       | none => none) := by
  unfold getMove
  rw [getImpl_eq]
  by_cases hi : i < vs.length
  · have hi' : i < ts.length := by omega
    have : (canon T sparse ts vs)[i]? = some (ts[i], store T sparse ts[i] vs[i]) := by
      simp only [canon, List.getElem?_zipWith, List.getElem?_eq_getElem hi, List.getElem?_eq_getElem hi']
    rw [this, List.getElem?_eq_getElem hi', List.getElem?_eq_getElem hi]
    unfold store
    by_cases hc : sparse = true ∧ T.kind ts[i] = .empty
    · simp [hc]
    · simp [hc, read]
  · have : (canon T sparse ts vs)[i]? = none := by
      rw [List.getElem?_eq_none_iff]; simp [canon]; omega
    rw [this, List.getElem?_eq_none (show ts.length ≤ i by omega)]

theorem getAll_none (g : Nat → Option α) (l : List Nat) (i : Nat) (hi : i ∈ l) (h : g i = none) :
    getAll g l = none := by
  induction l with
  | nil => simp at hi
  | cons j l ih =>
    simp only [getAll]
    rcases List.mem_cons.mp hi with rfl | hi
    · rw [h]
    · rw [ih hi]; cases g j <;> rfl

/-- **C64 (partial).** From a tuple no element of which is an empty class (or a non-sparse tuple) an rvalue `get`
reads the element, `apply` on an rvalue and `make_from_tuple` pass all of them, and `get<T>` reads the element of
type `T` exactly when there is one such element.  Missing: empty-class elements of a sparse tuple
(`empty_dangles`). -/
theorem tuple_move_partial [DecidableEq τ] (T : Types τ α) (sparse : Bool) (mem : List α) (ts : List τ) (vs : List α)
    (hl : ts.length = vs.length) (hd : sparse = false ∨ ∀ t ∈ ts, T.kind t ≠ .empty) :
    ∃ t, construct T sparse ts vs = some t ∧
      (∀ i, getMove T mem i t = vs[i]?) ∧
      (∀ (β : Type) (f : List α → β), applyMove T mem f t = some (f vs)) ∧
      (∀ (ty : τ) (i : Nat), ts.count ty = 1 → ts[i]? = some ty → getByType T mem ty t = vs[i]?) ∧
      (∀ ty, ts.count ty ≠ 1 → getByType T mem ty t = none) := by
  refine ⟨canon T sparse ts vs, by rw [construct_eq, if_pos hl], ?_⟩
  have A : ∀ i, getMove T mem i (canon T sparse ts vs) = vs[i]? := by
    intro i
    rw [canon_getMove T sparse mem ts vs hl]
    cases e : ts[i]? with
    | none =>
      rw [List.getElem?_eq_none_iff] at e
      rw [List.getElem?_eq_none (by omega)]
    | some t =>
      simp only
      rw [if_neg]
      rintro ⟨h1, h2⟩
      rcases hd with hd | hd
      · rw [hd] at h1; cases h1
      · exact hd t (List.mem_of_getElem? e) h2
  refine ⟨A, ?_, ?_, ?_⟩
  · intro β f
    unfold applyMove
    rw [makeSeq_eq, List.append_nil, canon_length _ _ _ _ hl, hl, getAll_range _ vs (fun i _ => A i)]
    rfl
  · intro ty i hc hi
    unfold getByType
    rw [canon_types T sparse ts vs hl, ((lookup_spec ty ts).2.2.2.1 i).mpr ⟨hc, hi⟩]
    exact A i
  · intro ty hc
    unfold getByType
    rw [canon_types T sparse ts vs hl, (lookup_spec ty ts).2.2.2.2.mpr hc]

example : (∀ t ∈ [2, 1], sampleTypes.kind t ≠ .empty) ∧ [2, 1].count 1 = 1 ∧
    (construct sampleTypes true [2, 1] [7, 9]).bind (getByType sampleTypes [] 1) = some 9 := by
  decide

/-- **C64, disagreement.** In a sparse tuple, an rvalue `get`, `apply`/`make_from_tuple` on an rvalue tuple, and
`get<T>` on a const tuple all hand out a reference to a temporary that no longer exists as soon as an empty class is
involved. -/
theorem empty_dangles [DecidableEq τ] (T : Types τ α) (mem : List α) (ts : List τ) (vs : List α)
    (hl : ts.length = vs.length) (i : Nat) (ty : τ) (hi : ts[i]? = some ty) (he : T.kind ty = .empty) :
    ∃ t, construct T true ts vs = some t ∧ getMove T mem i t = none ∧
      (∀ (β : Type) (f : List α → β), applyMove T mem f t = none) ∧ getByType T mem ty t = none := by
  refine ⟨canon T true ts vs, by rw [construct_eq, if_pos hl], ?_⟩
  have A : ∀ j, ts[j]? = some ty → getMove T mem j (canon T true ts vs) = none := by
    intro j hj
    rw [canon_getMove T true mem ts vs hl, hj]
    simp [he]
  refine ⟨A i hi, ?_, ?_⟩
  · intro β f
    unfold applyMove
    rw [makeSeq_eq, List.append_nil, canon_length _ _ _ _ hl,
      getAll_none _ _ i (by simpa using (List.getElem?_eq_some_iff.mp hi).1) (A i hi)]
    rfl
  · unfold getByType
    rw [canon_types T true ts vs hl]
    cases e : singleIndex ty ts with
    | none => rfl
    | some j => exact A j (((lookup_spec ty ts).2.2.2.1 j).mp e).2

example : [2, 0].length = [7, 0].length ∧ [2, 0][1]? = some 0 ∧ sampleTypes.kind 0 = .empty := by decide

/-! ## Default construction and `make_tuple` -/

/-- **C64, disagreement.** `tuple<...> t;` default-constructs its class elements but leaves every scalar element
uninitialised: reading one is undefined. -/
theorem default_construct (T : Types τ α) (sparse : Bool) (mem : List α) (ts : List τ) (i : Nat) (ty : τ)
    (hi : ts[i]? = some ty) :
    (T.kind ty ≠ .scalar → get T mem i (defaultConstruct T sparse ts) = some (T.dflt ty)) ∧
    (T.kind ty = .scalar → get T mem i (defaultConstruct T sparse ts) = none) := by
  unfold get
  rw [getImpl_eq, defaultConstruct, List.getElem?_map, hi]
  simp only [Option.map_some]
  cases hk : T.kind ty with
  | empty => simp [store_read]
  | cls => simp [read]
  | scalar => simp [read]

example : get sampleTypes [] 0 (defaultConstruct sampleTypes true [1, 2]) = some 5 ∧
    get sampleTypes [] 1 (defaultConstruct sampleTypes true [1, 2]) = none := by decide

/-- **C64, disagreement.** `make_tuple` does not copy a variable it is given: an element made from variable `p`
always reads the variable's current value, whatever it was when the tuple was made; an element made from a
temporary keeps its value. -/
theorem make_tuple_aliases (T : Types τ α) (sparse : Bool) (args : List (τ × Arg α)) (i : Nat) (ty : τ) :
    (∀ p, args[i]? = some (ty, .lvalue p) → ∀ mem : List α, get T mem i (makeTuple T sparse args) = mem[p]?) ∧
    (∀ v, args[i]? = some (ty, .rvalue v) → (T.kind ty = .empty → v = T.dflt ty) →
      ∀ mem : List α, get T mem i (makeTuple T sparse args) = some v) := by
  constructor
  · intro p h mem
    unfold get
    rw [getImpl_eq, makeTuple, List.getElem?_map, h]
    rfl
  · intro v h hv mem
    unfold get
    rw [getImpl_eq, makeTuple, List.getElem?_map, h]
    exact store_read T sparse mem ty v hv

-- `int x = 1; auto t = make_tuple(x); x = 2;` then `get<0>(t)` is `2`
example : get sampleTypes [1] 0 (makeTuple sampleTypes true [(2, .lvalue 0)]) = some 1 ∧
    get sampleTypes [2] 0 (makeTuple sampleTypes true [(2, .lvalue 0)]) = some 2 := by decide

/-! ## Visiting -/

/-- Simulation between the tuple and the plain values while it is visited. -/
theorem visitList_sim (T : Types τ α) (sparse : Bool) (f : σ → Nat → α → Bool × σ × α) (ts : List τ)
    (hf : ∀ s i v t, ts[i]? = some t → T.kind t = .empty → (f s i v).2.2 = T.dflt t) (l : List (Nat × τ)) :
    ∀ (s : σ) (vs : List α), Spec.Typed T ts vs → (∀ p ∈ l, p.1 < ts.length) →
      ∃ s' vs' r, visitList (visitElem T f) l (s, canon T sparse ts vs) = (r, (s', canon T sparse ts vs')) ∧
        visitList (Spec.onValues f) l (s, vs) = (r, (s', vs')) ∧ Spec.Typed T ts vs' := by
  induction l with
  | nil => intro s vs h _; exact ⟨s, vs, -1, rfl, rfl, h⟩
  | cons p l ih =>
    intro s vs h hl
    obtain ⟨i, t⟩ := p
    have hi : i < ts.length := hl (i, t) (by simp)
    have hi' : i < vs.length := by have := h.1; omega
    have hg := canon_get T sparse [] ts vs h i
    rw [List.getElem?_eq_getElem hi'] at hg
    have ha := canon_assign T sparse [] (f s i vs[i]).2.2 ts vs i h.1 hi
    have e1 : visitElem T f (s, canon T sparse ts vs) i t =
        ((f s i vs[i]).1, ((f s i vs[i]).2.1, canon T sparse ts (vs.set i (f s i vs[i]).2.2))) := by
      simp only [visitElem, hg, ha]
    have e2 : Spec.onValues f (s, vs) i t =
        ((f s i vs[i]).1, ((f s i vs[i]).2.1, vs.set i (f s i vs[i]).2.2)) := by
      simp only [Spec.onValues, List.getElem?_eq_getElem hi']
    have ht : Spec.Typed T ts (vs.set i (f s i vs[i]).2.2) :=
      typed_set h (o := (i, (f s i vs[i]).2.2)) ⟨ts[i], List.getElem?_eq_getElem hi,
        hf s i vs[i] ts[i] (List.getElem?_eq_getElem hi)⟩
    cases hb : (f s i vs[i]).1 with
    | true =>
      refine ⟨(f s i vs[i]).2.1, vs.set i (f s i vs[i]).2.2, i, ?_, ?_, ht⟩
      · simp only [visitList, e1, hb]
      · simp only [visitList, e2, hb]
    | false =>
      obtain ⟨s', vs', r, h1, h2, h3⟩ := ih (f s i vs[i]).2.1 (vs.set i (f s i vs[i]).2.2) ht
        (fun p hp => hl p (by simp [hp]))
      refine ⟨s', vs', r, ?_, ?_, h3⟩
      · simp only [visitList, e1, hb]; exact h1
      · simp only [visitList, e2, hb]; exact h2

theorem enum_lt (ts : List τ) : ∀ p ∈ Spec.enum ts, p.1 < ts.length := by
  intro p hp
  have := List.of_mem_zip (a := p.1) (b := p.2) (by simpa [Spec.enum] using hp)
  simpa using this.1

theorem tupleVisit_eq (T : Types τ α) (sparse : Bool) (f : σ → Nat → α → Bool × σ × α) (ts : List τ) (vs : List α)
    (h : Spec.Typed T ts vs) (hne : ts ≠ [])
    (hf : ∀ s i v t, ts[i]? = some t → T.kind t = .empty → (f s i v).2.2 = T.dflt t) (s : σ) :
    ∃ s' vs' r, tupleVisit T f (canon T sparse ts vs) s = some (decide (r ≠ 0), s', canon T sparse ts vs') ∧
      visitList (Spec.onValues f) (Spec.enum ts) (s, vs) = (r, (s', vs')) ∧ Spec.Typed T ts vs' := by
  obtain ⟨s', vs', r, h1, h2, h3⟩ := visitList_sim T sparse f ts hf (Spec.enum ts) s vs h (enum_lt ts)
  refine ⟨s', vs', r, ?_, h2, h3⟩
  have hc : (canon T sparse ts vs).isEmpty = false := by
    have := canon_length T sparse ts vs h.1
    cases e : canon T sparse ts vs with
    | nil => rw [e] at this; exact absurd (List.length_eq_zero_iff.mp this.symm) hne
    | cons a l => rfl
  unfold tupleVisit
  rw [hc, canon_types T sparse ts vs h.1]
  have hv := visitFrom_eq (visitElem T f) ts ts.length 0 (s, canon T sparse ts vs) (by simp)
  rw [List.drop_zero, h1] at hv
  simp only [Bool.false_eq_true, if_false, visit, hv]

/-- **C64 (partial).** Visiting a tuple shows the functor the elements from the first on, as references (what the
functor writes stays), and stops at the first one it accepts.  Missing: the answer, see `visit_answer`. -/
theorem visit_partial (T : Types τ α) (sparse : Bool) (f : σ → Nat → α → Bool × σ × α) (ts : List τ) (vs : List α)
    (h : Spec.Typed T ts vs)
    (hf : ∀ s i v t, ts[i]? = some t → T.kind t = .empty → (f s i v).2.2 = T.dflt t) (s : σ) :
    ∃ t0 b s' t' r vs', construct T sparse ts vs = some t0 ∧ tupleVisit T f t0 s = some (b, s', t') ∧
      Spec.Visited (Spec.onValues f) (s, vs) (Spec.enum ts) r (s', vs') ∧
      ∀ (mem : List α) i, get T mem i t' = vs'[i]? := by
  by_cases hne : ts = []
  · subst hne
    have hv : vs = [] := List.length_eq_zero_iff.mp h.1.symm
    subst hv
    refine ⟨[], false, s, [], -1, [], rfl, rfl, Or.inr ⟨?_, rfl, rfl⟩, ?_⟩
    · intro l1 i t l2 hl; simp [Spec.enum] at hl
    · intro mem i; simp [get, getImpl]
  · obtain ⟨s', vs', r, h1, h2, h3⟩ := tupleVisit_eq T sparse f ts vs h hne hf s
    refine ⟨canon T sparse ts vs, _, s', canon T sparse ts vs', r, vs', by rw [construct_eq, if_pos h.1], h1, ?_, ?_⟩
    · have := visitList_spec (Spec.onValues f) (Spec.enum ts) (s, vs)
      rw [h2] at this
      exact this
    · exact fun mem i => canon_get T sparse mem ts vs' h3 i

/-- **C64, disagreement.** The answer of `tuple::visit` does not say which element was accepted, nor whether any
was: it is `false` exactly when the first element was accepted (or the tuple has none), so a functor that accepts
nothing gets the same `true` as one that accepts the last element. -/
theorem visit_answer (T : Types τ α) (sparse : Bool) (f : σ → Nat → α → Bool × σ × α) (ty : τ) (ts : List τ)
    (v : α) (vs : List α) (h : Spec.Typed T (ty :: ts) (v :: vs))
    (hf : ∀ s i v t, (ty :: ts)[i]? = some t → T.kind t = .empty → (f s i v).2.2 = T.dflt t) (s : σ) :
    ∃ t0 b s' t', construct T sparse (ty :: ts) (v :: vs) = some t0 ∧
      tupleVisit T f t0 s = some (b, s', t') ∧ (b = false ↔ (f s 0 v).1 = true) := by
  obtain ⟨s', vs', r, h1, h2, h3⟩ := tupleVisit_eq T sparse f (ty :: ts) (v :: vs) h (by simp) hf s
  refine ⟨_, _, s', _, by rw [construct_eq, if_pos h.1], h1, ?_⟩
  have e : Spec.enum (ty :: ts) = (0, ty) :: (Spec.enum (ty :: ts)).drop 1 := by
    have := enum_cons_drop (ty :: ts) 0 (by simp)
    simpa using this
  have hpos : ∀ (l : List (Nat × τ)) (x : σ × List α), (∀ p ∈ l, p.1 ≠ 0) →
      (visitList (Spec.onValues f) l x).1 ≠ 0 := by
    intro l
    induction l with
    | nil => intro x _; simp [visitList]
    | cons p l ih =>
      intro x hp
      obtain ⟨i, t⟩ := p
      have hi : i ≠ 0 := hp (i, t) (by simp)
      simp only [visitList]
      rcases Spec.onValues f x i t with ⟨b, x'⟩
      cases b with
      | true => simpa using hi
      | false => exact ih x' (fun p hp' => hp p (by simp [hp']))
  have hdrop : ∀ p ∈ (Spec.enum (ty :: ts)).drop 1, p.1 ≠ 0 := by
    intro p hp
    simp only [Spec.enum, List.length_cons, List.range_succ_eq_map, List.zip_cons_cons, List.drop_succ_cons,
      List.drop_zero] at hp
    have := List.of_mem_zip (a := p.1) (b := p.2) hp
    simp only [List.mem_map] at this
    obtain ⟨⟨x, _, hx⟩, _⟩ := this
    omega
  rw [e] at h2
  simp only [visitList, Spec.onValues, List.getElem?_cons_zero] at h2
  cases hb : (f s 0 v).1 with
  | true =>
    rw [hb] at h2
    simp only [Prod.mk.injEq] at h2
    simp [← h2.1]
  | false =>
    rw [hb] at h2
    simp only at h2
    have := hpos _ ((f s 0 v).2.1, (v :: vs).set 0 (f s 0 v).2.2) hdrop
    rw [h2] at this
    simpa using this

-- accepting nothing and accepting the last element both answer `true`; accepting the first answers `false`
example :
    let t := (construct sampleTypes true [2, 2, 2] [7, 8, 9]).getD []
    (tupleVisit sampleTypes (fun (_ : Unit) _ v => (false, (), v)) t ()).map (·.1) = some true ∧
    (tupleVisit sampleTypes (fun (_ : Unit) i v => (i == 2, (), v)) t ()).map (·.1) = some true ∧
    (tupleVisit sampleTypes (fun (_ : Unit) _ v => (true, (), v)) t ()).map (·.1) = some false := by
  decide

end Verif.Variadic
