import Verif.Variadic.Model

/-!
# Properties of the parameter-pack tools
-/

namespace Verif.Variadic

variable {τ σ : Type}

namespace Spec

/-- The pack with its positions: `(0, T0), (1, T1), …`. -/
def enum (ts : List τ) : List (Nat × τ) := (List.range ts.length).zip ts

/-- State of the functor after it has been called on each of these items in turn. -/
def after (f : σ → Nat → τ → Bool × σ) (s : σ) (l : List (Nat × τ)) : σ :=
  l.foldl (fun s p => (f s p.1 p.2).2) s

/-- The functor, called on each of these items in turn, declines every one. -/
def Declines (f : σ → Nat → τ → Bool × σ) (s : σ) (l : List (Nat × τ)) : Prop :=
  ∀ l1 i t l2, l = l1 ++ (i, t) :: l2 → (f (after f s l1) i t).1 = false

/-- Outcome of visiting the items of `l` in order until one is accepted: the functor is called on the items up
to and including the first one it accepts and on nothing else, and the answer is that item's position, `-1` if
there is none. -/
def Visited (f : σ → Nat → τ → Bool × σ) (s : σ) (l : List (Nat × τ)) (r : Int) (s' : σ) : Prop :=
  (∃ l1 i t l2, l = l1 ++ (i, t) :: l2 ∧ Declines f s l1 ∧ f (after f s l1) i t = (true, s') ∧ r = i) ∨
  (Declines f s l ∧ s' = after f s l ∧ r = -1)

end Spec

/-! ## Looking up -/

theorem typeAt_eq (n : Nat) (ts : List τ) : typeAt n ts = ts[n]? := by
  induction ts generalizing n with
  | nil => simp [typeAt]
  | cons t ts ih => cases n <;> simp [typeAt, ih]

theorem detailIndex_count [DecidableEq τ] (m : τ) (ts : List τ) : (detailIndex m ts).1 = ts.count m := by
  induction ts with
  | nil => rfl
  | cons t ts ih =>
    simp only [detailIndex]
    split
    · rename_i h; subst h; simp [ih]
    · rename_i h; rw [ih, List.count_cons_of_ne (by simpa using h)]

theorem detailIndex_index [DecidableEq τ] (m : τ) (ts : List τ) :
    (∀ i, (detailIndex m ts).2 = some i → i < ts.length ∧ ts[ts.length - 1 - i]? = some m ∧
      ∀ j, j < ts.length - 1 - i → ts[j]? ≠ some m) ∧
    ((detailIndex m ts).2 = none → m ∉ ts) := by
  induction ts with
  | nil => simp [detailIndex]
  | cons t ts ih =>
    simp only [detailIndex]
    split
    · rename_i h
      subst h
      constructor
      · intro i hi
        simp only [Option.some.injEq] at hi
        subst hi
        simp
      · simp
    · rename_i h
      constructor
      · intro i hi
        obtain ⟨h1, h2, h3⟩ := ih.1 i hi
        have e : (t :: ts).length - 1 - i = (ts.length - 1 - i) + 1 := by simp; omega
        refine ⟨by simp; omega, by rw [e]; simpa using h2, ?_⟩
        intro j hj
        rw [e] at hj
        cases j with
        | zero => simpa using h
        | succ j => simpa using h3 j (by omega)
      · intro hi
        simp only [List.mem_cons, not_or]
        exact ⟨fun e => h e.symm, ih.2 hi⟩

/-- **C63.** Looking a type up: position `n` of a pack is its `n`-th type and does not compile past the end;
the index of a type is the position of its first occurrence together with the number of occurrences, and does not
compile for a type that is not there; the index of a type that must be unique exists exactly when it occurs
once. -/
theorem lookup_spec [DecidableEq τ] (m : τ) (ts : List τ) :
    (∀ n, typeAt n ts = ts[n]?) ∧
    (∀ k i, firstIndex m ts = some (k, i) ↔
      k = ts.count m ∧ ts[i]? = some m ∧ ∀ j, j < i → ts[j]? ≠ some m) ∧
    (firstIndex m ts = none ↔ m ∉ ts) ∧
    (∀ i, singleIndex m ts = some i ↔ ts.count m = 1 ∧ ts[i]? = some m) ∧
    (singleIndex m ts = none ↔ ts.count m ≠ 1) := by
  have hd := detailIndex_index m ts
  have hc := detailIndex_count m ts
  have A : ∀ k i, firstIndex m ts = some (k, i) ↔
      k = ts.count m ∧ ts[i]? = some m ∧ ∀ j, j < i → ts[j]? ≠ some m := by
    intro k i
    unfold firstIndex
    constructor
    · intro h
      cases e : (detailIndex m ts).2 with
      | none => simp [e] at h
      | some x =>
        simp only [e, Option.some.injEq, Prod.mk.injEq] at h
        obtain ⟨h1, h2, h3⟩ := hd.1 x e
        rw [← h.1, ← h.2]
        exact ⟨hc, h2, h3⟩
    · rintro ⟨h1, h2, h3⟩
      cases e : (detailIndex m ts).2 with
      | none => exact absurd (List.mem_of_getElem? h2) (hd.2 e)
      | some x =>
        obtain ⟨g1, g2, g3⟩ := hd.1 x e
        simp only [Option.some.injEq, Prod.mk.injEq]
        refine ⟨by rw [hc, h1], ?_⟩
        rcases Nat.lt_trichotomy (ts.length - 1 - x) i with h | h | h
        · exact absurd g2 (h3 _ h)
        · exact h
        · exact absurd h2 (g3 _ h)
  have B : firstIndex m ts = none ↔ m ∉ ts := by
    constructor
    · intro h
      unfold firstIndex at h
      cases e : (detailIndex m ts).2 with
      | none => exact hd.2 e
      | some x => simp [e] at h
    · intro h
      unfold firstIndex
      cases e : (detailIndex m ts).2 with
      | none => rfl
      | some x => exact absurd (List.mem_of_getElem? (hd.1 x e).2.1) h
  refine ⟨fun n => typeAt_eq n ts, A, B, ?_, ?_⟩
  · intro i
    unfold singleIndex
    cases e : firstIndex m ts with
    | none =>
      simp only [reduceCtorEq, false_iff, not_and]
      intro _ h
      exact (B.mp e) (List.mem_of_getElem? h)
    | some p =>
      obtain ⟨k, x⟩ := p
      obtain ⟨h1, h2, h3⟩ := (A k x).mp e
      simp only
      constructor
      · intro h
        split at h
        · rename_i hk
          simp only [Option.some.injEq] at h
          exact ⟨by omega, by rw [← h]; exact h2⟩
        · cases h
      · rintro ⟨hk, h⟩
        rw [if_pos (by omega)]
        have hx : x = i := by
          rcases Nat.lt_trichotomy x i with hlt | he | hlt
          · exfalso
            obtain ⟨hx1, hx2⟩ := List.getElem?_eq_some_iff.mp h2
            obtain ⟨hi1, hi2⟩ := List.getElem?_eq_some_iff.mp h
            have hsplit : ts = ts.take (x + 1) ++ ts.drop (x + 1) := (List.take_append_drop _ _).symm
            have c1 : 0 < (ts.take (x + 1)).count m := by
              rw [List.count_pos_iff]
              exact List.mem_of_getElem? (i := x) (by rw [List.getElem?_take_of_lt (by omega)]; exact h2)
            have c2 : 0 < (ts.drop (x + 1)).count m := by
              rw [List.count_pos_iff]
              exact List.mem_of_getElem? (i := i - (x + 1)) (by
                rw [List.getElem?_drop, show x + 1 + (i - (x + 1)) = i by omega]; exact h)
            rw [hsplit, List.count_append] at hk
            omega
          · exact he
          · exact absurd h (h3 _ hlt)
        rw [hx]
  · unfold singleIndex
    cases e : firstIndex m ts with
    | none =>
      have := List.count_eq_zero_of_not_mem (B.mp e)
      simp [this]
    | some p =>
      obtain ⟨k, x⟩ := p
      have h1 := ((A k x).mp e).1
      simp only
      split <;> simp <;> omega

example : typeAt 1 ["int", "char"] = some "char" ∧ firstIndex "int" ["char", "int", "int"] = some (2, 1) ∧
    singleIndex "int" ["char", "int", "int"] = none ∧ singleIndex "char" ["int", "char"] = some 1 := by decide

/-! ## Selecting -/

theorem enum_cons_drop (ts : List τ) (k : Nat) (h : k < ts.length) :
    (Spec.enum ts).drop k = (k, ts[k]) :: (Spec.enum ts).drop (k + 1) := by
  have hl : k < (Spec.enum ts).length := by simpa [Spec.enum] using h
  rw [List.drop_eq_getElem_cons hl]
  congr 1
  simp [Spec.enum]

theorem enum_drop_end (ts : List τ) : (Spec.enum ts).drop ts.length = [] := by
  simp [Spec.enum]

theorem selector_from (eval : τ → Nat → Bool) (proj : τ → Nat → τ) (ts : List τ) (n : Nat) :
    ∀ k, k + n = ts.length →
      let r := selector ts.length eval proj (ts.drop k)
      let kept := ((Spec.enum ts).drop k).filter (fun p => eval p.2 p.1)
      r.indices = kept.map (·.1) ∧ r.types = kept.map (·.2) ∧
      r.projected = kept.map (fun p => proj p.2 p.1) ∧ r.selected = kept.map (fun p => (p.1, proj p.2 p.1)) := by
  induction n with
  | zero =>
    intro k hk
    have : k = ts.length := by omega
    subst this
    simp [enum_drop_end, selector]
  | succ n ih =>
    intro k hk
    have hlt : k < ts.length := by omega
    obtain ⟨h1, h2, h3, h4⟩ := ih (k + 1) (by omega)
    have e : ts.length - 1 - (ts.drop (k + 1)).length = k := by rw [List.length_drop]; omega
    simp only
    rw [enum_cons_drop ts k hlt, List.drop_eq_getElem_cons hlt]
    simp only [selector, e, prependIf, h1, h2, h3, h4, List.filter_cons]
    split <;> simp

/-- **C63.** Selecting from a pack keeps exactly the items the evaluator accepts, in their order, each with the
position it had in the pack and the type the evaluator projects it to; `all` says whether none was dropped. -/
theorem select_spec (eval : τ → Nat → Bool) (proj : τ → Nat → τ) (ts : List τ) :
    let kept := (Spec.enum ts).filter (fun p => eval p.2 p.1)
    (select eval proj ts).indices = kept.map (·.1) ∧
    (select eval proj ts).types = kept.map (·.2) ∧
    (select eval proj ts).projected = kept.map (fun p => proj p.2 p.1) ∧
    (select eval proj ts).selected = kept.map (fun p => (p.1, proj p.2 p.1)) ∧
    typesWhere eval ts = kept.map (·.2) ∧
    (ts ≠ [] → (selectAll eval proj ts = some true ↔ ∀ p ∈ Spec.enum ts, eval p.2 p.1 = true) ∧
      (selectAll eval proj ts).isSome) := by
  have hs := selector_from eval proj ts ts.length 0 (by simp)
  have hw := selector_from eval (fun t _ => t) ts ts.length 0 (by simp)
  simp only [List.drop_zero] at hs hw
  refine ⟨hs.1, hs.2.1, hs.2.2.1, hs.2.2.2, hw.2.1, ?_⟩
  intro hne
  cases ts with
  | nil => exact absurd rfl hne
  | cons t ts =>
    have hl : (Spec.enum (t :: ts)).length = ts.length + 1 := by simp [Spec.enum]
    refine ⟨?_, by simp [selectAll]⟩
    simp only [selectAll, select, hs.2.2.2, List.length_map, Option.some.injEq, beq_iff_eq, ← hl,
      List.length_filter_eq_length_iff]

example : (select (fun (n : Nat) _ => n % 2 == 0) (fun n _ => n) [4, 5, 6, 6]).selected = [(0, 4), (2, 6), (3, 6)] := by
  decide

theorem valueSelector_eq {α : Type} (eval : α → Nat → Bool) (size : Nat) (vs : List α) :
    valueSelector size eval vs = (selector size eval (fun t _ => t) vs).types := by
  induction vs with
  | nil => rfl
  | cons v vs ih => simp only [valueSelector, selector, ih]

theorem filter_enum {α : Type} (p : α → Bool) (vs : List α) :
    ((Spec.enum vs).filter (fun x => p x.2)).map (·.2) = vs.filter p := by
  have h : (Spec.enum vs).map (·.2) = vs := by
    simp only [Spec.enum]
    exact List.map_snd_zip (by simp)
  conv => rhs; rw [← h]
  rw [List.filter_map]
  rfl

/-- **C63.** Filtering a value sequence keeps the accepted values in order. -/
theorem where_spec {α : Type} (p : α → Bool) (vs : List α) :
    valueSelector vs.length (fun v _ => p v) vs = vs.filter p := by
  rw [valueSelector_eq]
  have h := selector_from (fun v _ => p v) (fun t _ => t) vs vs.length 0 (by simp)
  simp only [List.drop_zero] at h
  rw [h.2.1]
  exact filter_enum p vs

theorem contains_count {α : Type} [DecidableEq α] (v : α) (vs : List α) :
    valuesContains v vs = true ↔ vs.count v = 1 := by
  unfold valuesContains
  rw [where_spec (fun j => decide (v = j)) vs]
  rw [beq_iff_eq, List.count_eq_countP, List.countP_eq_length_filter]
  have : (fun j => decide (v = j)) = (fun x => x == v) := by
    funext x
    by_cases h : x = v
    · subst h; simp
    · simp [h, Ne.symm h]
  rw [this]

/-- **C63 (partial).** A value sequence without repetitions contains exactly its members, and what is selected by
membership in it is what is common.  Missing: a repeated value (`contains_repeated`). -/
theorem contains_partial {α : Type} [DecidableEq α] (vs : List α) (hn : vs.Nodup) :
    (∀ v, valuesContains v vs = true ↔ v ∈ vs) ∧
    (∀ ws, whereIn vs ws = ws.filter (fun w => decide (w ∈ vs))) := by
  have A : ∀ v, valuesContains v vs = true ↔ v ∈ vs := by
    intro v
    rw [contains_count]
    constructor
    · intro h
      exact List.count_pos_iff.mp (by omega)
    · intro h
      have h1 := List.nodup_iff_count.mp hn v
      have h2 := List.count_pos_iff.mpr h
      omega
  refine ⟨A, ?_⟩
  intro ws
  unfold whereIn
  rw [where_spec (fun j => valuesContains j vs) ws]
  apply List.filter_congr
  intro w _
  by_cases h : w ∈ vs
  · simp [h, (A w).mpr h]
  · have : valuesContains w vs = false := by
      cases e : valuesContains w vs with
      | true => exact absurd ((A w).mp e) h
      | false => rfl
    simp [h, this]

/-- **C63, disagreement.** A value that occurs more than once in a sequence is reported as not contained in it. -/
theorem contains_repeated {α : Type} [DecidableEq α] (v : α) (vs : List α) (h : 2 ≤ vs.count v) :
    v ∈ vs ∧ valuesContains v vs = false := by
  refine ⟨List.count_pos_iff.mp (by omega), ?_⟩
  cases e : valuesContains v vs with
  | true => have := (contains_count v vs).mp e; omega
  | false => rfl

example : 2 ≤ [1, 2, 1].count 1 ∧ valuesContains 1 [1, 2, 1] = false ∧ valuesContains 2 [1, 2, 1] = true ∧
    [1, 2, 3].Nodup := by decide

theorem conjunction_eq (bs : List Bool) : conjunction bs = bs.all id := by
  induction bs with
  | nil => rfl
  | cons b bs ih =>
    cases bs with
    | nil => simp [conjunction]
    | cons b' bs => simp only [conjunction, ih]; cases b <;> simp

theorem disjunction_eq (bs : List Bool) : disjunction bs = bs.any id := by
  induction bs with
  | nil => rfl
  | cons b bs ih =>
    cases bs with
    | nil => simp [disjunction]
    | cons b' bs => simp only [disjunction, ih]; cases b <;> simp

theorem enum_map_snd {α : Type} (vs : List α) : (Spec.enum vs).map (·.2) = vs := by
  simp only [Spec.enum]
  exact List.map_snd_zip (by simp)

/-- **C63.** A pack contains a type exactly when the type is one of its items, all its items are the same as a
type exactly when each of them is, all are trivial exactly when each is, and conjunction and disjunction are
"every" and "some". -/
theorem predicates_spec [DecidableEq τ] (t : τ) (ts : List τ) (trivial : τ → Bool) (bs : List Bool) :
    (containsType t ts = true ↔ t ∈ ts) ∧
    (areSame t ts = true ↔ ∀ u ∈ ts, u = t) ∧
    (areTrivial trivial ts = true ↔ ∀ u ∈ ts, trivial u = true) ∧
    (conjunction bs = true ↔ ∀ b ∈ bs, b = true) ∧
    (disjunction bs = true ↔ ∃ b ∈ bs, b = true) := by
  refine ⟨?_, ?_, ?_, ?_, ?_⟩
  · unfold containsType
    have h := (select_spec (fun u _ => decide (u = t)) (fun u _ => u) ts).2.2.2.1
    have h2 := (select_spec (fun u _ => decide (u = t)) (fun u _ => u) ts).2.1
    rw [filter_enum (fun u => decide (u = t)) ts] at h2
    have h3 : ((select (fun u _ => decide (u = t)) (fun u _ => u) ts).selected).map (·.2) =
        ts.filter (fun u => decide (u = t)) := by
      rw [h, ← filter_enum (fun u => decide (u = t)) ts]
      simp
    cases e : (select (fun u _ => decide (u = t)) (fun u _ => u) ts).selected with
    | nil =>
      rw [e] at h3
      simp only [List.isEmpty_nil, Bool.not_true, Bool.false_eq_true, false_iff]
      intro hm
      have : t ∈ ts.filter (fun u => decide (u = t)) := by simp [hm]
      rw [← h3] at this
      simp at this
    | cons a l =>
      rw [e] at h3
      simp only [List.isEmpty_cons, Bool.not_false, true_iff]
      have : a.2 ∈ ts.filter (fun u => decide (u = t)) := by rw [← h3]; simp
      simp only [List.mem_filter, decide_eq_true_eq] at this
      rw [← this.2]; exact this.1
  · unfold areSame
    rw [conjunction_eq, (select_spec _ _ _).2.2.1]
    rw [List.filter_eq_self.mpr (fun _ _ => rfl)]
    simp only [List.map_map, List.all_map, List.all_eq_true]
    constructor
    · intro h u hu
      have hm : (Sum.inl u : τ ⊕ Bool) ∈ (Spec.enum (ts.map (Sum.inl : τ → τ ⊕ Bool))).map (·.2) := by
        rw [enum_map_snd]; exact List.mem_map_of_mem hu
      obtain ⟨p, hp, hpe⟩ := List.mem_map.mp hm
      have := h p hp
      obtain ⟨i, v⟩ := p
      simp only at hpe
      subst hpe
      simpa using this
    · intro h p hp
      have hm : p.2 ∈ (Spec.enum (ts.map (Sum.inl : τ → τ ⊕ Bool))).map (·.2) := List.mem_map_of_mem hp
      rw [enum_map_snd] at hm
      obtain ⟨u, hu, he⟩ := List.mem_map.mp hm
      obtain ⟨i, v⟩ := p
      simp only at he
      subst he
      simpa using h u hu
  · induction ts with
    | nil => simp [areTrivial]
    | cons u us ih => simp [areTrivial, ih]
  · rw [conjunction_eq]; simp
  · rw [disjunction_eq]; simp

example : containsType "int" ["char", "int"] = true ∧ areSame "int" ["int", "int"] = true ∧
    areSame "int" ["int", "char"] = false := by decide

/-- **C63.** The largest type of a non-empty pack is the first of its items that no item exceeds in size. -/
theorem largest_spec (sizeOf : τ → Nat) (ts : List τ) (hne : ts ≠ []) :
    ∃ (t : τ) (i : Nat), largestType sizeOf ts = some t ∧ ts[i]? = some t ∧ (∀ u ∈ ts, sizeOf u ≤ sizeOf t) ∧
      ∀ (j : Nat) (u : τ), j < i → ts[j]? = some u → sizeOf u < sizeOf t := by
  have H : ∀ (n : Nat) (ts : List τ), ts.length = n → ts ≠ [] →
      ∃ (t : τ) (i : Nat), largestType sizeOf ts = some t ∧ ts[i]? = some t ∧ (∀ u ∈ ts, sizeOf u ≤ sizeOf t) ∧
        ∀ (j : Nat) (u : τ), j < i → ts[j]? = some u → sizeOf u < sizeOf t := by
    intro n
    induction n with
    | zero => intro ts hl hne; exact absurd (List.length_eq_zero_iff.mp hl) hne
    | succ n ih =>
      intro ts hl hne
      match ts, hl, hne with
      | [t], _, _ => exact ⟨t, 0, by rw [largestType], by simp, by simp, by intro j u hj; omega⟩
      | t :: u :: rest, hl, _ =>
        rw [largestType]
        obtain ⟨w, i, h1, h2, h3, h4⟩ := ih ((if sizeOf u ≤ sizeOf t then t else u) :: rest)
          (by simp only [List.length_cons] at hl ⊢; omega) (by simp)
        by_cases hle : sizeOf u ≤ sizeOf t
        · rw [if_pos hle] at h1 h2 h3 h4
          rw [if_pos hle]
          have ht : sizeOf t ≤ sizeOf w := h3 t (by simp)
          refine ⟨w, if i = 0 then 0 else i + 1, h1, ?_, ?_, ?_⟩
          · split
            · rename_i hi; subst hi; simpa using h2
            · rename_i hi
              obtain ⟨i', rfl⟩ : ∃ i', i = i' + 1 := ⟨i - 1, by omega⟩
              simpa using h2
          · intro x hx
            simp only [List.mem_cons] at hx
            rcases hx with rfl | rfl | hx
            · exact ht
            · omega
            · exact h3 x (by simp [hx])
          · intro j x hj hx
            split at hj
            · omega
            · rename_i hi
              have ht' : sizeOf t < sizeOf w := h4 0 t (by omega) (by simp)
              match j, hx with
              | 0, hx => simp at hx; rw [← hx]; exact ht'
              | 1, hx => simp at hx; rw [← hx]; omega
              | j + 2, hx => exact h4 (j + 1) x (by omega) (by simpa using hx)
        · rw [if_neg hle] at h1 h2 h3 h4
          rw [if_neg hle]
          have hu : sizeOf u ≤ sizeOf w := h3 u (by simp)
          refine ⟨w, i + 1, h1, by simpa using h2, ?_, ?_⟩
          · intro x hx
            simp only [List.mem_cons] at hx
            rcases hx with rfl | rfl | hx
            · omega
            · exact hu
            · exact h3 x (by simp [hx])
          · intro j x hj hx
            match j, hx with
            | 0, hx => simp at hx; rw [← hx]; omega
            | j + 1, hx => exact h4 j x (by omega) (by simpa using hx)
  exact H ts.length ts rfl hne

example : largestType (fun (n : Nat × Nat) => n.1) [(2, 0), (8, 1), (8, 2), (4, 3)] = some (8, 1) := by
  simp [largestType]

/-! ## Index sequences -/

theorem makeSeq_eq (n : Nat) (is : List Nat) : makeSeq n is = List.range n ++ is := by
  induction n generalizing is with
  | zero => simp [makeSeq]
  | succ n ih => simp [makeSeq, ih, List.range_succ]

theorem makeRevSeq_eq (nn n : Nat) (h : n ≤ nn) :
    makeRevSeq nn n (List.range (nn - n)).reverse = (List.range nn).reverse := by
  induction n with
  | zero => simp [makeRevSeq]
  | succ n ih =>
    rw [makeRevSeq]
    have e : nn - n = (nn - (n + 1)) + 1 := by omega
    have := ih (by omega)
    rw [e, List.range_succ, List.reverse_append] at this
    exact this

/-- **C63.** `make_index_sequence<N>` is `0, 1, …, N-1`, `make_reverse_index_sequence<N>` is `N-1, …, 1, 0`, and
reversing an index sequence reverses it. -/
theorem sequences_spec (n : Nat) (is : List Nat) :
    makeSeq n [] = List.range n ∧ makeRevSeq n n [] = (List.range n).reverse ∧ reverser is = is.reverse := by
  refine ⟨by simp [makeSeq_eq], ?_, ?_⟩
  · have := makeRevSeq_eq n n (Nat.le_refl n)
    simpa using this
  · induction is with
    | nil => rfl
    | cons i is ih => simp [reverser, ih]

example : makeSeq 3 [] = [0, 1, 2] ∧ makeRevSeq 3 3 [] = [2, 1, 0] := by decide

/-! ## Visiting -/

/-- Visiting a list of items in order (proof helper). -/
def visitList (f : σ → Nat → τ → Bool × σ) : List (Nat × τ) → σ → Int × σ
  | [], s => (-1, s)
  | (i, t) :: l, s =>
    match f s i t with
    | (true, s') => (i, s')
    | (false, s') => visitList f l s'

theorem visitList_spec (f : σ → Nat → τ → Bool × σ) (l : List (Nat × τ)) (s : σ) :
    Spec.Visited f s l (visitList f l s).1 (visitList f l s).2 := by
  induction l generalizing s with
  | nil =>
    refine Or.inr ⟨?_, rfl, rfl⟩
    intro l1 i t l2 h
    simp at h
  | cons p l ih =>
    obtain ⟨i, t⟩ := p
    rcases e : f s i t with ⟨b, s'⟩
    cases b with
    | true =>
      refine Or.inl ⟨[], i, t, l, rfl, ?_, ?_, ?_⟩
      · intro l1 j u l2 h
        simp at h
      · simp [Spec.after, visitList, e]
      · simp [visitList, e]
    | false =>
      have hv : visitList f ((i, t) :: l) s = visitList f l s' := by simp [visitList, e]
      rw [hv]
      have hafter : ∀ l0, Spec.after f s ((i, t) :: l0) = Spec.after f s' l0 := by
        intro l0
        simp [Spec.after, e]
      have hdec : ∀ l0, Spec.Declines f s' l0 → Spec.Declines f s ((i, t) :: l0) := by
        intro l0 h l1 j u l2 hl
        cases l1 with
        | nil =>
          simp only [List.nil_append, List.cons.injEq, Prod.mk.injEq] at hl
          obtain ⟨⟨rfl, rfl⟩, _⟩ := hl
          simp [Spec.after, e]
        | cons q l1 =>
          simp only [List.cons_append, List.cons.injEq] at hl
          obtain ⟨rfl, hl⟩ := hl
          rw [hafter]
          exact h l1 j u l2 hl
      rcases ih s' with ⟨l1, j, u, l2, h1, h2, h3, h4⟩ | ⟨h1, h2, h3⟩
      · refine Or.inl ⟨(i, t) :: l1, j, u, l2, by rw [h1]; rfl, hdec l1 h2, ?_, h4⟩
        rw [hafter]; exact h3
      · exact Or.inr ⟨hdec l h1, by rw [hafter]; exact h2, h3⟩

theorem visitFrom_eq (f : σ → Nat → τ → Bool × σ) (ts : List τ) (n : Nat) :
    ∀ i s, i + n = ts.length → visitFrom f ts n i s = some (visitList f ((Spec.enum ts).drop i) s) := by
  induction n with
  | zero =>
    intro i s h
    have : i = ts.length := by omega
    subst this
    simp [enum_drop_end, visitFrom, visitList]
  | succ n ih =>
    intro i s h
    have hi : i < ts.length := by omega
    rw [enum_cons_drop ts i hi]
    simp only [visitFrom, typeAt_eq, List.getElem?_eq_getElem hi, visitList]
    rcases f s i ts[i] with ⟨b, s'⟩
    cases b with
    | true => rfl
    | false => exact ih (i + 1) s' (by omega)

theorem visitReverseFrom_eq (f : σ → Nat → τ → Bool × σ) (ts : List τ) (i : Nat) :
    ∀ s, i ≤ ts.length →
      visitReverseFrom f ts i s = some (visitList f ((Spec.enum ts).take i).reverse s) := by
  induction i with
  | zero => intro s h; simp [visitReverseFrom, visitList]
  | succ i ih =>
    intro s h
    have hi : i < ts.length := by omega
    have hl : i < (Spec.enum ts).length := by simpa [Spec.enum] using hi
    have he : (Spec.enum ts)[i] = (i, ts[i]) := by simp [Spec.enum]
    rw [← List.take_append_getElem hl, he]
    simp only [visitReverseFrom, typeAt_eq, List.getElem?_eq_getElem hi, List.reverse_append,
      List.reverse_cons, List.reverse_nil, List.nil_append, List.cons_append, visitList]
    rcases f s i ts[i] with ⟨b, s'⟩
    cases b with
    | true => rfl
    | false => exact ih s' (by omega)

theorem mover_eq (f : σ → Nat → τ → Bool × σ) (ts : List τ) (n : Nat) :
    ∀ i s, i + n = ts.length →
      let r := (moverInvoke (forwardCall ts.length f) (ts.drop i) (s, -1)).2
      (r.2, r.1) = visitList f ((Spec.enum ts).drop i) s := by
  induction n with
  | zero =>
    intro i s h
    have : i = ts.length := by omega
    subst this
    simp [enum_drop_end, moverInvoke, visitList]
  | succ n ih =>
    intro i s h
    have hi : i < ts.length := by omega
    have e : ts.length - ((ts.drop (i + 1)).length + 1) = i := by rw [List.length_drop]; omega
    rw [enum_cons_drop ts i hi, List.drop_eq_getElem_cons hi]
    simp only [moverInvoke, forwardCall, e, visitList]
    rcases f s i ts[i] with ⟨b, s'⟩
    cases b with
    | true => rfl
    | false => exact ih (i + 1) s' (by omega)

/-- **C63.** Visiting a pack calls the functor on the items from the first on, stops at the first one it accepts,
and answers that item's position, or `-1` when it accepts none; reverse visiting does the same from the last item
on; the functor-moving variant agrees with forward visiting.  For every pack and every functor, stateful ones
included. -/
theorem visit_spec (f : σ → Nat → τ → Bool × σ) (ts : List τ) (s : σ) :
    (∃ r s', visit f ts s = some (r, s') ∧ Spec.Visited f s (Spec.enum ts) r s' ∧
      forwardInvoke f ts s = (r, s')) ∧
    (∃ r s', visitReverse f ts s = some (r, s') ∧ Spec.Visited f s (Spec.enum ts).reverse r s') := by
  constructor
  · refine ⟨_, _, ?_, visitList_spec f (Spec.enum ts) s, ?_⟩
    · have := visitFrom_eq f ts ts.length 0 s (by simp)
      simpa [visit] using this
    · have := mover_eq f ts ts.length 0 s (by simp)
      simp only [List.drop_zero] at this
      exact this
  · refine ⟨_, _, ?_, visitList_spec f (Spec.enum ts).reverse s⟩
    have := visitReverseFrom_eq f ts ts.length s (Nat.le_refl _)
    rw [List.take_of_length_le (by simp [Spec.enum])] at this
    simpa [visitReverse] using this

-- a functor that counts its calls and accepts `char`
example : visit (fun (n : Nat) _ t => (t == "char", n + 1)) ["int", "char", "bool", "char"] 0 = some (1, 2) ∧
    visitReverse (fun (n : Nat) _ t => (t == "char", n + 1)) ["int", "char", "bool", "char"] 0 = some (3, 1) ∧
    visit (fun (n : Nat) _ t => (t == "long", n + 1)) ["int", "char"] 0 = some (-1, 2) := by decide

end Verif.Variadic
