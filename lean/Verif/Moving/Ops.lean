import Verif.Moving.Steps
/-!
# C82: every statement does what it should
-/
namespace Verif.Moving

variable {α β : Type} [DecidableEq α]

theorem same_one {s : Mem α} {h : Nat} (c : List (Option α)) : Same (s.put h c) (((s.lk h).put h c).ul h) := by
  refine ⟨rfl, ?_, ?_⟩
  · intro x hx
    by_cases e : x = h
    · subst e; simp_all [Mem.put, Mem.lk, Mem.ul, upd]
    · simp_all [Mem.put, Mem.lk, Mem.ul, upd]
  · intro x b hx
    by_cases e : x = h
    · subst e
      cases hb : s.blk x with
      | none => simp [Mem.put, upd, hb] at hx
      | some b0 => simp [Mem.put, upd, hb] at hx; subst hx; simp [Mem.put, Mem.lk, Mem.ul, upd, hb]
    · simp_all [Mem.put, Mem.lk, Mem.ul, upd]

theorem same_read {s : Mem α} {h : Nat} : Same s ((s.lk h).ul h) := by
  refine ⟨rfl, ?_, ?_⟩
  · intro x hx
    by_cases e : x = h
    · subst e; simp_all [Mem.lk, Mem.ul, upd]
    · simp_all [Mem.lk, Mem.ul, upd]
  · intro x b hx
    by_cases e : x = h
    · subst e; simp_all [Mem.lk, Mem.ul, upd]
    · simp_all [Mem.lk, Mem.ul, upd]

/-- two locks, a change of the first block, two unlocks -/
theorem same_two {s : Mem α} {h h' : Nat} (c : List (Option α)) : Same (s.put h c) (((((s.lk h).lk h').put h c).ul h').ul h) := by
  refine ⟨rfl, ?_, ?_⟩
  · intro x hx
    by_cases e : x = h <;> by_cases e2 : x = h' <;> simp_all [Mem.put, Mem.lk, Mem.ul, upd]
  · intro x b hx
    by_cases e : x = h
    · subst e
      cases hb : s.blk x with
      | none => simp [Mem.put, upd, hb] at hx
      | some b0 =>
        simp [Mem.put, upd, hb] at hx; subst hx
        by_cases e2 : x = h'
        · subst e2; simp [Mem.put, Mem.lk, Mem.ul, upd, hb]
        · simp [Mem.put, Mem.lk, Mem.ul, upd, hb, e2]
    · by_cases e2 : x = h' <;> simp_all [Mem.put, Mem.lk, Mem.ul, upd]

/-- the same, locked and unlocked in the other order -/
theorem same_two' {s : Mem α} {h h' : Nat} (c : List (Option α)) : Same (s.put h c) (((((s.lk h').lk h).put h c).ul h).ul h') := by
  refine ⟨rfl, ?_, ?_⟩
  · intro x hx
    by_cases e : x = h <;> by_cases e2 : x = h' <;> simp_all [Mem.put, Mem.lk, Mem.ul, upd]
  · intro x b hx
    by_cases e : x = h
    · subst e
      cases hb : s.blk x with
      | none => simp [Mem.put, upd, hb] at hx
      | some b0 =>
        simp [Mem.put, upd, hb] at hx; subst hx
        by_cases e2 : x = h'
        · subst e2; simp [Mem.put, Mem.lk, Mem.ul, upd, hb]
        · simp [Mem.put, Mem.lk, Mem.ul, upd, hb, e2]
    · by_cases e2 : x = h' <;> simp_all [Mem.put, Mem.lk, Mem.ul, upd]

theorem same_read_two {s : Mem α} {h h' : Nat} : Same s ((((s.lk h).lk h').ul h).ul h') := by
  refine ⟨rfl, ?_, ?_⟩
  · intro x hx
    by_cases e : x = h <;> by_cases e2 : x = h' <;> simp_all [Mem.lk, Mem.ul, upd]
  · intro x b hx
    by_cases e : x = h <;> by_cases e2 : x = h' <;> simp_all [Mem.lk, Mem.ul, upd]

theorem same_read_two' {s : Mem α} {h h' : Nat} : Same s ((((s.lk h').lk h).ul h).ul h') := by
  refine ⟨rfl, ?_, ?_⟩
  · intro x hx
    by_cases e : x = h <;> by_cases e2 : x = h' <;> simp_all [Mem.lk, Mem.ul, upd]
  · intro x b hx
    by_cases e : x = h <;> by_cases e2 : x = h' <;> simp_all [Mem.lk, Mem.ul, upd]

/-- locks of a block -/
def Mem.locks (s : Mem α) (h : Nat) : Option Nat := (s.blk h).map Block.locks

theorem vec_lock {s : Mem α} {v : Vec} {h : Nat} {b : Block α} (hv : v.handle = some h) (hb : s.blk h = some b) (k : Nat → Prog α β) :
    sexec (v.lock k) s = sexec (k s.ptrs) (s.lk h) := by
  rw [Vec.lock, hv]; exact run_lock hb k

theorem vec_unlock {s : Mem α} {v : Vec} {h n : Nat} (hv : v.handle = some h) (hb : s.locks h = some n) (hn : 0 < n) (k : Prog α β) :
    sexec (v.unlock k) s = sexec k (s.ul h) := by
  rw [Vec.unlock, hv]
  simp only [Mem.locks, Option.map_eq_some_iff] at hb
  obtain ⟨b, h1, h2⟩ := hb
  exact run_unlock h1 (by omega) k

theorem locks_lk {s : Mem α} {h n : Nat} (hb : s.locks h = some n) : (s.lk h).locks h = some (n + 1) := by
  simp only [Mem.locks, Option.map_eq_some_iff] at hb
  obtain ⟨b, h1, h2⟩ := hb
  simp [Mem.locks, Mem.lk, upd, h1, h2]

theorem locks_lk_ge {s : Mem α} {h n : Nat} (hb : s.locks h = some n) (x : Nat) : ∃ m, (s.lk x).locks h = some m ∧ n ≤ m ∧ (h ≠ x → m = n) := by
  by_cases e : h = x
  · subst e; exact ⟨n + 1, locks_lk hb, by omega, by simp⟩
  · refine ⟨n, ?_, by omega, by simp⟩
    simpa [Mem.locks, Mem.lk, upd, e] using hb

theorem locks_ul {s : Mem α} {h n : Nat} (hb : s.locks h = some n) : (s.ul h).locks h = some (n - 1) := by
  simp only [Mem.locks, Option.map_eq_some_iff] at hb
  obtain ⟨b, h1, h2⟩ := hb
  simp [Mem.locks, Mem.ul, upd, h1, h2]

theorem locks_ul_other {s : Mem α} {h x : Nat} (e : h ≠ x) : (s.ul x).locks h = s.locks h := by
  simp [Mem.locks, Mem.ul, upd, e]

theorem locks_put (s : Mem α) (h x : Nat) (c : List (Option α)) : (s.put x c).locks h = s.locks h := by
  by_cases e : h = x
  · subst e; cases hb : s.blk h <;> simp [Mem.locks, Mem.put, upd, hb]
  · simp [Mem.locks, Mem.put, upd, e]

/-- one array locked, changed and unlocked -/
theorem lock_change {s : Mem α} {v : Vec} {h : Nat} {b : Block α} (hv : v.handle = some h) (hb : s.blk h = some b)
    (body : Nat → Prog α β → Prog α β) (c : List (Option α)) (k : Prog α β)
    (hbody : ∀ k', sexec (body s.ptrs k') (s.lk h) = sexec k' ((s.lk h).put h c)) :
    sexec (v.lock fun p => body p (v.unlock k)) s = sexec k (((s.lk h).put h c).ul h) := by
  rw [vec_lock hv hb, hbody, vec_unlock hv (n := b.locks + 1) (by
    rw [locks_put]; exact locks_lk (by simp [Mem.locks, hb])) (by omega)]

/-- one array locked, looked at and unlocked -/
theorem lock_look {γ : Type} {s : Mem α} {v : Vec} {h : Nat} {b : Block α} (hv : v.handle = some h) (hb : s.blk h = some b)
    (body : Nat → (γ → Prog α β) → Prog α β) (g : γ) (k : γ → Prog α β)
    (hbody : ∀ k', sexec (body s.ptrs k') (s.lk h) = sexec (k' g) (s.lk h)) :
    sexec (v.lock fun p => body p fun r => v.unlock (k r)) s = sexec (k g) ((s.lk h).ul h) := by
  rw [vec_lock hv hb, hbody, vec_unlock hv (n := b.locks + 1) (locks_lk (by simp [Mem.locks, hb])) (by omega)]

/-- two arrays locked, looked at and unlocked in the same order -/
theorem lock_look_two {γ : Type} {s : Mem α} {v w : Vec} {h h' : Nat} {b b' : Block α} (hv : v.handle = some h) (hb : s.blk h = some b)
    (hw : w.handle = some h') (hb' : s.blk h' = some b')
    (body : Nat → Nat → (γ → Prog α β) → Prog α β) (g : γ) (k : γ → Prog α β)
    (hbody : ∀ k', sexec (body s.ptrs (s.ptrs + 1) k') ((s.lk h).lk h') = sexec (k' g) ((s.lk h).lk h')) :
    sexec (v.lock fun p => w.lock fun q => body p q fun r => v.unlock (w.unlock (k r))) s = sexec (k g) ((((s.lk h).lk h').ul h).ul h') := by
  have l0 : s.locks h = some b.locks := by simp [Mem.locks, hb]
  have l0' : s.locks h' = some b'.locks := by simp [Mem.locks, hb']
  obtain ⟨n, l1, hn, -⟩ := locks_lk_ge l0' h
  obtain ⟨m, l2, hm, -⟩ := locks_lk_ge (locks_lk l0) h'
  have hbl : ∃ b2, (s.lk h).blk h' = some b2 := by
    simp only [Mem.locks, Option.map_eq_some_iff] at l1
    obtain ⟨b2, h1, -⟩ := l1; exact ⟨b2, h1⟩
  obtain ⟨b2, hb2⟩ := hbl
  rw [vec_lock hv hb, vec_lock hw hb2]
  show sexec (body s.ptrs (s.ptrs + 1) _) _ = _
  rw [hbody, vec_unlock hv l2 (by omega)]
  by_cases e : h = h'
  · subst e
    rw [vec_unlock hw (locks_ul l2) (by
      have := locks_lk (locks_lk l0)
      rw [this] at l2; cases l2; omega)]
  · rw [vec_unlock hw (n := n + 1) (by rw [locks_ul_other (Ne.symm e)]; exact locks_lk l1) (by omega)]

/-- a statement done: the arrays are as specified and so is the result -/
def Does (lt : α → α → Bool) (esz : Nat) (s : Mem α) (vs : List Vec) (st : List (Spec.Arr α)) (o : Op α) : Prop :=
  ∃ s' vs', Spec.Rep s' vs' (Spec.step lt st o).1 ∧
    ∀ (β' : Type) (k : List Vec → Out α → Prog α β'), sexec (o.prog lt esz vs k) s = sexec (k vs' (Spec.step lt st o).2) s'

omit [DecidableEq α] in
theorem at_some {st : List (Spec.Arr α)} {i : Nat} {a : Spec.Arr α} (h : st[i]? = some a) : (st[i]?.map Spec.Arr.xs).getD [] = a.xs := by
  simp [h]

omit [DecidableEq α] in
theorem overwrite_cells {c : List (Option α)} {xs ys : List α} {i : Nat} (hx : ∀ (m : Nat) (x : α), xs[m]? = some x → c[m]? = some (some x))
    (hi : i ≤ xs.length) (hc : i + ys.length ≤ c.length) (m : Nat) (x : α) (h : (xs.take i ++ ys)[m]? = some x) :
    (overwrite c i ys)[m]? = some (some x) := by
  rw [overwrite_get _ _ _ _ hc]
  have hm : m < (xs.take i ++ ys).length := (List.getElem?_eq_some_iff.mp h).1
  simp only [List.length_append, List.length_take, Nat.min_eq_left hi] at hm
  by_cases h1 : i ≤ m
  · rw [if_pos ⟨h1, hm⟩]
    rw [List.getElem?_append_right (by simp; omega)] at h
    simp only [List.length_take, Nat.min_eq_left hi] at h
    rw [h]; rfl
  · rw [if_neg (by omega)]
    rw [List.getElem?_append_left (by simp; omega), List.getElem?_take_of_lt (by omega)] at h
    exact hx m x h

/-- after growth, in the grown array's own terms -/
theorem Grown.has {s : Mem α} {vs : List Vec} {st : List (Spec.Arr α)} {i : Nat} {v : Vec} {a : Spec.Arr α} {n : Nat}
    {f : (β' : Type) → (Vec → Prog α β') → Prog α β'} {s1 : Mem α} {v1 : Vec} (g : Grown s vs st i v a n f s1 v1)
    (hv : vs[i]? = some v) (ha : st[i]? = some a) (hh : a.had = true ∨ 0 < n) :
    (vs.set i v1)[i]? = some v1 ∧ ∃ h b, Has s1 v1 a.xs h b := by
  have h1 : i < vs.length := (List.getElem?_eq_some_iff.mp hv).1
  have h2 : i < st.length := (List.getElem?_eq_some_iff.mp ha).1
  have e1 : (vs.set i v1)[i]? = some v1 := List.getElem?_set_self h1
  refine ⟨e1, ?_⟩
  exact has_of_rep g.rep (i := i) (v := v1) (a := ⟨a.had || decide (0 < n), a.xs⟩) e1 (List.getElem?_set_self h2) (by simpa using hh)

/-- the end of a statement that changes one array -/
theorem Grown.finish {s : Mem α} {vs : List Vec} {st : List (Spec.Arr α)} {i : Nat} {v : Vec} {a : Spec.Arr α} {n : Nat}
    {f : (β' : Type) → (Vec → Prog α β') → Prog α β'} {s1 s' : Mem α} {v1 : Vec} (g : Grown s vs st i v a n f s1 v1)
    (hv : vs[i]? = some v) {h : Nat} {b : Block α} (hs : Has s1 v1 a.xs h b) {c : List (Option α)} {xs : List α}
    (hc : c.length = b.cells.length) (hx : xs.length ≤ c.length) (hxs : ∀ (m : Nat) (x : α), xs[m]? = some x → c[m]? = some (some x))
    (hsame : Same (s1.put h c) s') : Spec.Rep s' (vs.set i { v1 with used := xs.length }) (st.set i ⟨true, xs⟩) := by
  have h1 : i < vs.length := (List.getElem?_eq_some_iff.mp hv).1
  have := rep_put g.rep (i := i) (v := v1) (List.getElem?_set_self h1) hs.handle hs.blk hs.cap hc hx hxs hsame
  simpa [List.set_set] using this

theorem does_appendPtr (lt : α → α → Bool) (esz : Nat) {s : Mem α} {vs : List Vec} {st : List (Spec.Arr α)} (r : Spec.Rep s vs st)
    {i : Nat} {a : Spec.Arr α} (ha : st[i]? = some a) {src : List α} (hsrc : a.had = true ∨ src ≠ []) :
    ∃ s' vs', Spec.Rep s' vs' (st.set i ⟨true, a.xs ++ src⟩) ∧
      ∀ (β' : Type) (k : List Vec → Prog α β'), sexec (on vs i fun v => appendPtr esz v src fun v' => k (vs.set i v')) s = sexec (k vs') s' := by
  obtain ⟨v, hv⟩ := vec_of_rep r ha
  have hsz := size_of_rep r hv ha
  obtain ⟨s1, v1, g⟩ := ensure_grown r hv ha (v.size + src.length) ((32 + esz) / esz)
  obtain ⟨-, h, b, hs⟩ := g.has hv ha (by
    rcases hsrc with h | h
    · exact .inl h
    · exact .inr (by have := List.length_pos_iff.mpr h; omega))
  have hcap := g.cap
  have hbl := hs.cap
  have hlen : a.xs.length + src.length ≤ b.cells.length := by omega
  refine ⟨((s1.lk h).put h (overwrite b.cells a.xs.length src)).ul h, vs.set i { v1 with used := (a.xs ++ src).length }, ?_, ?_⟩
  · refine g.finish hv hs (overwrite_length _ _ _) (by rw [overwrite_length]; simpa using hlen) ?_ (same_one _)
    intro m x hx
    exact overwrite_cells hs.cells (Nat.le_refl _) hlen m x (by rwa [List.take_length])
  · intro β' k
    simp only [on, hv, appendPtr, grow]
    rw [g.run]
    rw [lock_change (v := { v1 with used := v.size + src.length }) (h := h) (b := b) hs.handle hs.blk
      (fun p k' => writeAll p v.size src k') (overwrite b.cells a.xs.length src)]
    · simp [hsz]
    · intro k'
      rw [hsz]
      exact run_writeAll src _ _ _ (sees_lk hs.blk) hlen k'

theorem pushMove_eq (esz : Nat) (v : Vec) (x : α) (k : Vec → Prog α β) : pushMove esz v x k = appendPtr esz v [x] k := rfl

theorem does_assignPtr {s : Mem α} {vs : List Vec} {st : List (Spec.Arr α)} (r : Spec.Rep s vs st)
    {i : Nat} {a : Spec.Arr α} (ha : st[i]? = some a) {src : List α} (hsrc : a.had = true ∨ src ≠ []) :
    ∃ s' vs', Spec.Rep s' vs' (st.set i ⟨true, src⟩) ∧
      ∀ (β' : Type) (k : List Vec → Prog α β'), sexec (on vs i fun v => assignPtr v src fun v' => k (vs.set i v')) s = sexec (k vs') s' := by
  obtain ⟨v, hv⟩ := vec_of_rep r ha
  obtain ⟨s1, v1, g⟩ := ensure_grown r hv ha src.length 0
  obtain ⟨-, h, b, hs⟩ := g.has hv ha (by
    rcases hsrc with h | h
    · exact .inl h
    · exact .inr (List.length_pos_iff.mpr h))
  have hcap := g.cap
  have hbl := hs.cap
  refine ⟨((s1.lk h).put h (overwrite b.cells 0 src)).ul h, vs.set i { v1 with used := src.length }, ?_, ?_⟩
  · refine g.finish hv hs (overwrite_length _ _ _) (by rw [overwrite_length]; omega) ?_ (same_one _)
    intro m x hx
    exact overwrite_cells (i := 0) hs.cells (Nat.zero_le _) (by omega) m x (by simpa using hx)
  · intro β' k
    simp only [on, hv, assignPtr, ensureSize]
    rw [g.run]
    rw [lock_change (v := { v1 with used := src.length }) (h := h) (b := b) hs.handle hs.blk
      (fun p k' => writeAll p 0 src k') (overwrite b.cells 0 src)]
    intro k'
    exact run_writeAll src _ _ _ (sees_lk hs.blk) (by omega) k'

end Verif.Moving
