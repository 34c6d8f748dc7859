import Verif.Moving.Ops
/-!
# C82: statements about two arrays, removals and searches
-/
namespace Verif.Moving

variable {α β : Type} [DecidableEq α]

theorem blk_lk_cells {s : Mem α} {x : Nat} {b : Block α} (hb : s.blk x = some b) (h : Nat) :
    ∃ b2, (s.lk h).blk x = some b2 ∧ b2.cells = b.cells := by
  by_cases e : x = h
  · subst e; exact ⟨{ b with locks := b.locks + 1 }, by simp [Mem.lk, upd, hb], rfl⟩
  · exact ⟨b, by simp [Mem.lk, upd, e, hb], rfl⟩

theorem copy_between {s : Mem α} {v w : Vec} {h h' : Nat} {b b' : Block α} (hv : v.handle = some h) (hb : s.blk h = some b)
    (hw : w.handle = some h') (hb' : s.blk h' = some b') {ys : List α} {cur : Nat}
    (hys : ∀ (m : Nat) (x : α), ys[m]? = some x → b'.cells[m]? = some (some x)) (hsz : ys.length ≤ w.size)
    (hroom : cur + ys.length ≤ b.cells.length) (hsep : h = h' → cur = 0 ∨ ys.length ≤ cur) (k : Prog α β) :
    sexec (v.lock fun p => copyTo w p cur ys.length 0 (v.unlock k)) s =
      sexec k (((((s.lk h).lk h').put h (overwrite b.cells cur ys)).ul h').ul h) := by
  have l0 : s.locks h = some b.locks := by simp [Mem.locks, hb]
  have l0' : s.locks h' = some b'.locks := by simp [Mem.locks, hb']
  obtain ⟨n, l1, hn, -⟩ := locks_lk_ge l0' h
  obtain ⟨m, l2, hm, -⟩ := locks_lk_ge (locks_lk l0) h'
  obtain ⟨b2, hb2, hc2⟩ := blk_lk_cells hb' h
  rw [vec_lock hv hb, copyTo, vec_lock hw hb2, if_neg (by omega), if_neg (by omega)]
  have s1 : Sees ((s.lk h).lk h') s.ptrs h b.cells := sees_lk_keep (sees_lk hb) (by simp [Mem.lk])
  have s2 : Sees ((s.lk h).lk h') (s.lk h).ptrs h' b'.cells := by rw [← hc2]; exact sees_lk hb2
  rw [run_copyUp ys _ _ _ _ _ s1 s2 hroom (by intro e; have := hsep e; omega) (by simpa using hys)]
  rw [vec_unlock hw (n := n + 1) (by rw [locks_put]; exact locks_lk l1) (by omega)]
  by_cases e : h = h'
  · subst e
    rw [vec_unlock hv (n := b.locks + 1 + 1 - 1) (by
      apply locks_ul; rw [locks_put]; exact locks_lk (locks_lk l0)) (by omega)]
  · rw [vec_unlock hv (n := m) (by rw [locks_ul_other e, locks_put]; exact l2) (by omega)]

/-- what both copying statements need to know of the source after the target has grown -/
theorem source_after {s : Mem α} {vs : List Vec} {st : List (Spec.Arr α)} {i j : Nat} {v w : Vec} {a aj : Spec.Arr α} {n used : Nat}
    {f : (β' : Type) → (Vec → Prog α β') → Prog α β'} {s1 : Mem α} {v1 : Vec} (g : Grown s vs st i v a n f s1 v1)
    (hv : vs[i]? = some v) (ha : st[i]? = some a) (hw : vs[j]? = some w) (haj : st[j]? = some aj) (hj : aj.had = true)
    {h : Nat} {b : Block α} (hs : Has s1 v1 a.xs h b) (hu : i = j → aj.xs.length ≤ used) :
    ∃ w' h' b', (vs.set i { v1 with used := used })[j]? = some w' ∧ w'.handle = some h' ∧ s1.blk h' = some b' ∧
      (∀ (m : Nat) (x : α), aj.xs[m]? = some x → b'.cells[m]? = some (some x)) ∧ aj.xs.length ≤ w'.size ∧ (i ≠ j → h ≠ h') := by
  have h1 : i < vs.length := (List.getElem?_eq_some_iff.mp hv).1
  by_cases e : i = j
  · subst e
    rw [ha] at haj; cases haj
    refine ⟨{ v1 with used := used }, h, b, List.getElem?_set_self h1, hs.handle, hs.blk, hs.cells, ?_, by simp⟩
    simp only [Vec.size, hs.handle]
    simpa using hu rfl
  · have e1 : (vs.set i v1)[j]? = some w := by rw [List.getElem?_set_ne e]; exact hw
    have e2 : (st.set i ⟨a.had || decide (0 < n), a.xs⟩)[j]? = some aj := by rw [List.getElem?_set_ne e]; exact haj
    obtain ⟨h', b', hs'⟩ := has_of_rep g.rep e1 e2 hj
    refine ⟨w, h', b', by rw [List.getElem?_set_ne e]; exact hw, hs'.handle, hs'.blk, hs'.cells, ?_, ?_⟩
    · simp [Vec.size, hs'.handle, hs'.used]
    · intro _ e3
      subst e3
      exact e (g.rep.apart i j v1 w h (List.getElem?_set_self h1) e1 hs.handle hs'.handle)

theorem does_append (esz : Nat) {s : Mem α} {vs : List Vec} {st : List (Spec.Arr α)} (r : Spec.Rep s vs st)
    {i j : Nat} {a aj : Spec.Arr α} (ha : st[i]? = some a) (haj : st[j]? = some aj) (hj : aj.had = true) (hi : a.had = true ∨ aj.xs ≠ []) :
    ∃ s' vs', Spec.Rep s' vs' (st.set i ⟨true, a.xs ++ aj.xs⟩) ∧
      ∀ (β' : Type) (k : List Vec → Prog α β'), sexec (append esz vs i j k) s = sexec (k vs') s' := by
  obtain ⟨v, hv⟩ := vec_of_rep r ha
  obtain ⟨w, hw⟩ := vec_of_rep r haj
  have hsz := size_of_rep r hv ha
  have hwz := size_of_rep r hw haj
  obtain ⟨s1, v1, g⟩ := ensure_grown r hv ha (v.size + w.size) ((32 + esz) / esz)
  obtain ⟨-, h, b, hs⟩ := g.has hv ha (by
    rcases hi with h | h
    · exact .inl h
    · exact .inr (by have := List.length_pos_iff.mpr h; omega))
  obtain ⟨w', h', b', e1, e2, e3, e4, e5, e6⟩ := source_after (used := v.size + w.size) g hv ha hw haj hj hs (by omega)
  have hcap := g.cap
  have hbl := hs.cap
  have hlen : a.xs.length + aj.xs.length ≤ b.cells.length := by omega
  refine ⟨((((s1.lk h).lk h').put h (overwrite b.cells a.xs.length aj.xs)).ul h').ul h, vs.set i { v1 with used := (a.xs ++ aj.xs).length }, ?_, ?_⟩
  · refine g.finish hv hs (overwrite_length _ _ _) (by rw [overwrite_length]; simpa using hlen) ?_ (same_two _)
    intro m x hx
    exact overwrite_cells hs.cells (Nat.le_refl _) hlen m x (by rwa [List.take_length])
  · intro β' k
    simp only [append, hv, hw, grow]
    rw [g.run]
    simp only [e1]
    rw [hwz] at *
    rw [hsz] at *
    rw [copy_between (v := { v1 with used := a.xs.length + aj.xs.length }) hs.handle hs.blk e2 e3 e4 e5 hlen (by
      intro e
      have : i = j := by
        by_cases c : i = j
        · exact c
        · exact absurd e (e6 c)
      subst this; rw [ha] at haj; cases haj; omega)]
    simp

theorem does_assign {s : Mem α} {vs : List Vec} {st : List (Spec.Arr α)} (r : Spec.Rep s vs st)
    {i j : Nat} {a aj : Spec.Arr α} (ha : st[i]? = some a) (haj : st[j]? = some aj) (hj : aj.had = true) (hi : a.had = true ∨ aj.xs ≠ []) :
    ∃ s' vs', Spec.Rep s' vs' (st.set i ⟨true, aj.xs⟩) ∧
      ∀ (β' : Type) (k : List Vec → Prog α β'), sexec (assign vs i j k) s = sexec (k vs') s' := by
  obtain ⟨v, hv⟩ := vec_of_rep r ha
  obtain ⟨w, hw⟩ := vec_of_rep r haj
  have hwz := size_of_rep r hw haj
  obtain ⟨s1, v1, g⟩ := ensure_grown r hv ha w.size 0
  obtain ⟨-, h, b, hs⟩ := g.has hv ha (by
    rcases hi with h | h
    · exact .inl h
    · exact .inr (by have := List.length_pos_iff.mpr h; omega))
  obtain ⟨w', h', b', e1, e2, e3, e4, e5, e6⟩ := source_after (used := w.size) g hv ha hw haj hj hs (by omega)
  have hcap := g.cap
  have hbl := hs.cap
  refine ⟨((((s1.lk h).lk h').put h (overwrite b.cells 0 aj.xs)).ul h').ul h, vs.set i { v1 with used := aj.xs.length }, ?_, ?_⟩
  · refine g.finish hv hs (overwrite_length _ _ _) (by rw [overwrite_length]; omega) ?_ (same_two _)
    intro m x hx
    exact overwrite_cells (i := 0) hs.cells (Nat.zero_le _) (by omega) m x (by simpa using hx)
  · intro β' k
    simp only [assign, hv, hw, ensureSize]
    rw [g.run]
    simp only [e1]
    rw [hwz] at *
    rw [copy_between (v := { v1 with used := aj.xs.length }) hs.handle hs.blk e2 e3 e4 e5 (by omega) (by intro _; exact .inl rfl)]

/-! ## Insertion -/

omit [DecidableEq α] in
theorem insert_cells {c : List (Option α)} {xs ys : List α} {pos : Nat} (hx : ∀ (m : Nat) (x : α), xs[m]? = some x → c[m]? = some (some x))
    (hp : pos ≤ xs.length) (hc : xs.length + ys.length ≤ c.length) (m : Nat) (x : α) (h : (xs.take pos ++ ys ++ xs.drop pos)[m]? = some x) :
    (overwrite (overwrite c (pos + ys.length) (xs.drop pos)) pos ys)[m]? = some (some x) := by
  rw [overwrite_get _ _ _ _ (by rw [overwrite_length]; omega), overwrite_get _ _ _ _ (by simp; omega)]
  have hm : m < (xs.take pos ++ ys ++ xs.drop pos).length := (List.getElem?_eq_some_iff.mp h).1
  simp only [List.length_append, List.length_take, Nat.min_eq_left hp, List.length_drop] at hm
  simp only [List.length_drop]
  by_cases h1 : m < pos
  · rw [if_neg (by omega), if_neg (by omega)]
    rw [List.append_assoc, List.getElem?_append_left (by simp; omega), List.getElem?_take_of_lt h1] at h
    exact hx m x h
  · by_cases h2 : m < pos + ys.length
    · rw [if_pos (by omega)]
      rw [List.getElem?_append_left (by simp; omega), List.getElem?_append_right (by simp; omega)] at h
      simp only [List.length_take, Nat.min_eq_left hp] at h
      rw [h]; rfl
    · rw [if_neg (by omega), if_pos (by omega)]
      rw [List.getElem?_append_right (by simp; omega)] at h
      simp only [List.length_append, List.length_take, Nat.min_eq_left hp] at h
      rw [h]; rfl

theorem does_insertPtr {s : Mem α} {vs : List Vec} {st : List (Spec.Arr α)} (r : Spec.Rep s vs st)
    {i pos : Nat} {a : Spec.Arr α} (ha : st[i]? = some a) {src : List α} (hp : pos ≤ a.xs.length) (hsrc : a.had = true ∨ src ≠ []) :
    ∃ s' vs', Spec.Rep s' vs' (st.set i ⟨true, a.xs.take pos ++ src ++ a.xs.drop pos⟩) ∧
      ∀ (β' : Type) (k : List Vec → Prog α β'), sexec (on vs i fun v => insertPtr v pos src fun v' => k (vs.set i v')) s = sexec (k vs') s' := by
  obtain ⟨v, hv⟩ := vec_of_rep r ha
  have hsz := size_of_rep r hv ha
  obtain ⟨s1, v1, g⟩ := ensure_grown r hv ha (v.size + src.length) 0
  obtain ⟨-, h, b, hs⟩ := g.has hv ha (by
    rcases hsrc with h | h
    · exact .inl h
    · exact .inr (by have := List.length_pos_iff.mpr h; omega))
  have hcap := g.cap
  have hbl := hs.cap
  have hlen : a.xs.length + src.length ≤ b.cells.length := by omega
  have hlen2 : (a.xs.take pos ++ src ++ a.xs.drop pos).length = a.xs.length + src.length := by simp; omega
  refine ⟨((s1.lk h).put h (overwrite (overwrite b.cells (pos + src.length) (a.xs.drop pos)) pos src)).ul h,
    vs.set i { v1 with used := (a.xs.take pos ++ src ++ a.xs.drop pos).length }, ?_, ?_⟩
  · refine g.finish hv hs (by simp [overwrite_length]) (by simp only [overwrite_length]; omega) ?_ (same_one _)
    exact insert_cells hs.cells hp hlen
  · intro β' k
    simp only [on, hv, insertPtr, ensureSize]
    rw [g.run]
    simp only [show ¬ v.size < pos by omega, if_false]
    rw [lock_change (v := { v1 with used := v.size + src.length }) (h := h) (b := b) hs.handle hs.blk
      (fun p k' => copyDown p (pos + src.length) pos (v.size - pos) (writeAll p pos src k'))
      (overwrite (overwrite b.cells (pos + src.length) (a.xs.drop pos)) pos src)]
    · rw [hlen2, hsz]
    · intro k'
      rw [run_copyDown (v.size - pos) (a.xs.drop pos) _ _ _ _ (by simp [hsz]) (sees_lk hs.blk) (by simp; omega) (by omega) (by
        intro m x hx
        rw [List.getElem?_drop] at hx
        exact hs.cells _ _ hx)]
      rw [run_writeAll src _ _ _ (sees_put (sees_lk hs.blk) _) (by simp only [overwrite_length]; omega), put_put]

theorem does_insert {s : Mem α} {vs : List Vec} {st : List (Spec.Arr α)} (r : Spec.Rep s vs st)
    {i j pos : Nat} {a aj : Spec.Arr α} (hne : i ≠ j) (ha : st[i]? = some a) (haj : st[j]? = some aj) (hp : pos ≤ a.xs.length)
    (hj : aj.had = true) (hi : a.had = true ∨ aj.xs ≠ []) :
    ∃ s' vs', Spec.Rep s' vs' (st.set i ⟨true, a.xs.take pos ++ aj.xs ++ a.xs.drop pos⟩) ∧
      ∀ (β' : Type) (k : List Vec → Prog α β'), sexec (insert vs i pos j k) s = sexec (k vs') s' := by
  obtain ⟨v, hv⟩ := vec_of_rep r ha
  obtain ⟨w, hw⟩ := vec_of_rep r haj
  have hsz := size_of_rep r hv ha
  have hwz := size_of_rep r hw haj
  obtain ⟨s1, v1, g⟩ := ensure_grown r hv ha (v.size + w.size) 0
  obtain ⟨-, h, b, hs⟩ := g.has hv ha (by
    rcases hi with h | h
    · exact .inl h
    · exact .inr (by have := List.length_pos_iff.mpr h; omega))
  obtain ⟨h', b', hs0⟩ := has_of_rep r hw haj hj
  have e1 : (vs.set i v1)[j]? = some w := by rw [List.getElem?_set_ne hne]; exact hw
  have e1' : ∀ u, (vs.set i u)[j]? = some w := by intro u; rw [List.getElem?_set_ne hne]; exact hw
  have e2 : (st.set i ⟨a.had || decide (0 < v.size + w.size), a.xs⟩)[j]? = some aj := by rw [List.getElem?_set_ne hne]; exact haj
  obtain ⟨h2, b2, hs'⟩ := has_of_rep g.rep e1 e2 hj
  have : h2 = h' := by have h3 := hs'.handle; rw [hs0.handle] at h3; cases h3; rfl
  subst this
  have hhh : h ≠ h2 := by
    intro e; subst e
    have h1 : i < vs.length := (List.getElem?_eq_some_iff.mp hv).1
    exact hne (g.rep.apart i j v1 w h (List.getElem?_set_self h1) e1 hs.handle hs'.handle)
  have hcap := g.cap
  have hbl := hs.cap
  have hlen : a.xs.length + aj.xs.length ≤ b.cells.length := by omega
  have hlen2 : (a.xs.take pos ++ aj.xs ++ a.xs.drop pos).length = a.xs.length + aj.xs.length := by simp; omega
  refine ⟨((((s1.lk h2).lk h).put h (overwrite (overwrite b.cells (pos + aj.xs.length) (a.xs.drop pos)) pos aj.xs)).ul h).ul h2,
    vs.set i { v1 with used := (a.xs.take pos ++ aj.xs ++ a.xs.drop pos).length }, ?_, ?_⟩
  · refine g.finish hv hs (by simp [overwrite_length]) (by simp only [overwrite_length]; omega) ?_ (same_two' _)
    exact insert_cells hs.cells hp hlen
  · intro β' k
    simp only [insert, hv, hw, e1']
    have hvw : v.handle ≠ some h2 := by
      intro e
      exact hne (r.apart i j v w h2 hv hw e hs0.handle)
    rw [vec_lock hs0.handle hs0.blk, ensureSize, g.runLk h2 b' hs0.blk hvw]
    have hbl2 : (s1.lk h2).blk h = some b := by simp [Mem.lk, upd, hhh, hs.blk]
    rw [vec_lock (v := { v1 with used := v.size + w.size }) hs.handle hbl2, if_neg (by omega)]
    have sp : Sees ((s1.lk h2).lk h) (s1.lk h2).ptrs h b.cells := sees_lk hbl2
    have sq : Sees ((s1.lk h2).lk h) s.ptrs h2 b2.cells := by
      rw [← g.ptrs]; exact sees_lk_keep (sees_lk hs'.blk) (by simp [Mem.lk])
    rw [hwz, run_copyDown (v.size - pos) (a.xs.drop pos) _ _ _ _ (by simp [hsz]) sp (by simp; omega) (by omega) (by
        intro m x hx
        rw [List.getElem?_drop] at hx
        exact hs.cells _ _ hx)]
    rw [run_copyUp aj.xs _ _ _ _ _ (sees_put sp _) (sees_put_other sq (Ne.symm hhh) _) (by simp only [overwrite_length]; omega)
      (by intro e; exact absurd e hhh) (by simpa using hs'.cells), put_put]
    rw [vec_unlock (v := { v1 with used := v.size + aj.xs.length }) (h := h) (n := b.locks + 1) hs.handle (by
      rw [locks_put]; exact locks_lk (by simp [Mem.locks, hbl2])) (by omega)]
    rw [vec_unlock (v := w) (h := h2) (n := b2.locks + 1) hs'.handle (by
      rw [locks_ul_other (Ne.symm hhh), locks_put]
      obtain ⟨m, h3, -, h4⟩ := locks_lk_ge (locks_lk (s := s1) (h := h2) (n := b2.locks) (by simp [Mem.locks, hs'.blk])) h
      rw [h3, h4 (Ne.symm hhh)]) (by omega)]
    rw [hlen2, hsz]

/-! ## Removal -/

theorem has_put_same {s : Mem α} {vs : List Vec} {st : List (Spec.Arr α)} (r : Spec.Rep s vs st) {i : Nat} {v : Vec} {a : Spec.Arr α}
    (hv : vs[i]? = some v) (ha : st[i]? = some a) (hh : a.had = true) : vs.set i v = vs := by
  obtain ⟨h1, h2⟩ := List.getElem?_eq_some_iff.mp hv
  rw [← h2]; exact List.set_getElem_self h1

theorem does_erase {s : Mem α} {vs : List Vec} {st : List (Spec.Arr α)} (r : Spec.Rep s vs st)
    {i index count : Nat} {a : Spec.Arr α} (ha : st[i]? = some a) (hh : a.had = true) (hp : index ≤ a.xs.length) :
    ∃ s' vs', Spec.Rep s' vs' (st.set i ⟨true, a.xs.take index ++ a.xs.drop (index + count)⟩) ∧
      ∀ (β' : Type) (k : List Vec → Prog α β'), sexec (on vs i fun v => erase v index count fun v' => k (vs.set i v')) s = sexec (k vs') s' := by
  obtain ⟨v, hv⟩ := vec_of_rep r ha
  have hsz := size_of_rep r hv ha
  obtain ⟨h, b, hs⟩ := has_of_rep r hv ha hh
  have hbl := hs.cap
  have hle := hs.le
  have hu := hs.used
  have hd : a.xs.drop (index + count) = a.xs.drop (index + min count (a.xs.length - index)) := by
    by_cases c : count ≤ a.xs.length - index
    · rw [Nat.min_eq_left c]
    · rw [Nat.min_eq_right (by omega), List.drop_eq_nil_of_le (by omega), List.drop_eq_nil_of_le (by omega)]
  rw [hd]
  generalize hn : min count (a.xs.length - index) = n
  have hn1 : n ≤ a.xs.length - index := by omega
  have hlen2 : (a.xs.take index ++ a.xs.drop (index + n)).length = a.xs.length - n := by simp; omega
  refine ⟨((s.lk h).put h (overwrite b.cells index (a.xs.drop (index + n)))).ul h,
    vs.set i { v with used := (a.xs.take index ++ a.xs.drop (index + n)).length }, ?_, ?_⟩
  · refine rep_put r hv hs.handle hs.blk hs.cap (overwrite_length _ _ _) (by simp only [overwrite_length]; omega) ?_ (same_one _)
    intro m x hx
    exact overwrite_cells hs.cells hp (by simp; omega) m x hx
  · intro β' k
    simp only [on, hv, erase, hsz, hn]
    rw [if_neg (by omega), vec_lock hs.handle hs.blk]
    have hdl : a.xs.length - (index + n) = (a.xs.drop (index + n)).length := by simp
    rw [hdl, run_copyUp (a.xs.drop (index + n)) _ _ _ _ _ (sees_lk hs.blk) (sees_lk hs.blk) (by simp; omega) (by intro _; exact .inl (by omega)) (by
      intro m x hx
      rw [List.getElem?_drop] at hx
      exact hs.cells _ _ hx)]
    rw [vec_unlock (v := { v with used := a.xs.length - n }) (h := h) (n := b.locks + 1) hs.handle (by
      rw [locks_put]; exact locks_lk (by simp [Mem.locks, hs.blk])) (by omega), hlen2]

theorem does_popBack {s : Mem α} {vs : List Vec} {st : List (Spec.Arr α)} (r : Spec.Rep s vs st)
    {i : Nat} {a : Spec.Arr α} (ha : st[i]? = some a) (hh : a.had = true) (hp : a.xs ≠ []) :
    ∃ s' vs', Spec.Rep s' vs' (st.set i ⟨true, a.xs.dropLast⟩) ∧
      ∀ (β' : Type) (k : List Vec → Prog α β'), sexec (on vs i fun v => popBack v fun v' => k (vs.set i v')) s = sexec (k vs') s' := by
  obtain ⟨v, hv⟩ := vec_of_rep r ha
  have hsz := size_of_rep r hv ha
  obtain ⟨h, b, hs⟩ := has_of_rep r hv ha hh
  have hbl := hs.cap
  have hle := hs.le
  have hu := hs.used
  have hpos := List.length_pos_iff.mpr hp
  refine ⟨(s.lk h).ul h, vs.set i { v with used := a.xs.dropLast.length }, ?_, ?_⟩
  · refine rep_put r hv hs.handle hs.blk hs.cap (c := b.cells) rfl (by simp; omega) ?_ (by rw [put_self hs.blk]; exact same_read)
    intro m x hx
    have hm : m < a.xs.dropLast.length := (List.getElem?_eq_some_iff.mp hx).1
    rw [List.dropLast_eq_take, List.getElem?_take_of_lt (by simp at hm; omega)] at hx
    exact hs.cells m x hx
  · intro β' k
    simp only [on, hv, popBack, hsz]
    rw [if_neg (by omega), vec_lock hs.handle hs.blk, vec_unlock hs.handle (n := b.locks + 1) (locks_lk (by simp [Mem.locks, hs.blk])) (by omega)]
    simp

theorem does_resize {s : Mem α} {vs : List Vec} {st : List (Spec.Arr α)} (r : Spec.Rep s vs st)
    {i n : Nat} {a : Spec.Arr α} (ha : st[i]? = some a) (hp : n ≤ a.xs.length) :
    ∃ s' vs', Spec.Rep s' vs' (st.set i ⟨a.had, a.xs.take n⟩) ∧
      ∀ (β' : Type) (k : List Vec → Prog α β'), sexec (on vs i fun v => ensureSize v n fun v' => k (vs.set i v')) s = sexec (k vs') s' := by
  obtain ⟨v, hv⟩ := vec_of_rep r ha
  have hsz := size_of_rep r hv ha
  rcases r.holds i v a hv ha with ⟨h1, h2, h3⟩ | ⟨h1, -⟩
  · subst h2
    have hn : n = 0 := by simp [h3] at hp; omega
    subst hn
    refine ⟨s, vs, ?_, ?_⟩
    · have : (⟨a.had, a.xs.take 0⟩ : Spec.Arr α) = a := by cases a; simp_all
      rw [this]
      obtain ⟨g1, g2⟩ := List.getElem?_eq_some_iff.mp ha
      have : st.set i a = st := by rw [← g2]; exact List.set_getElem_self g1
      rw [this]; exact r
    · intro β' k
      simp only [on, hv, ensureSize, ensureCapacity, Vec.fresh]
      obtain ⟨g1, g2⟩ := List.getElem?_eq_some_iff.mp hv
      have : vs.set i ⟨none, 0, 0⟩ = vs := by
        have g3 : vs[i] = ⟨none, 0, 0⟩ := g2
        rw [← g3]; exact List.set_getElem_self g1
      simp [this]
  · obtain ⟨h, b, hs⟩ := has_of_rep r hv ha h1
    have hbl := hs.cap
    have hle := hs.le
    have hu := hs.used
    refine ⟨s, vs.set i { v with used := (a.xs.take n).length }, ?_, ?_⟩
    · rw [h1]
      refine rep_put r hv hs.handle hs.blk hs.cap (c := b.cells) rfl (by simp; omega) ?_ (by
        rw [put_self hs.blk]; exact ⟨rfl, fun _ h => h, fun x b h => ⟨b, h, rfl, rfl⟩⟩)
      intro m x hx
      have hm : m < (a.xs.take n).length := (List.getElem?_eq_some_iff.mp hx).1
      rw [List.getElem?_take_of_lt (by simp at hm; omega)] at hx
      exact hs.cells m x hx
    · intro β' k
      simp only [on, hv, ensureSize, ensureCapacity]
      rw [if_neg (by omega)]
      simp [Nat.min_eq_left hp]

theorem does_reserve {s : Mem α} {vs : List Vec} {st : List (Spec.Arr α)} (r : Spec.Rep s vs st)
    {i n : Nat} {a : Spec.Arr α} (ha : st[i]? = some a) (hp : a.xs.length ≤ n) :
    ∃ s' vs', Spec.Rep s' vs' (st.set i ⟨true, a.xs⟩) ∧
      ∀ (β' : Type) (k : List Vec → Prog α β'), sexec (on vs i fun v => reserve v n fun v' => k (vs.set i v')) s = sexec (k vs') s' := by
  obtain ⟨v, hv⟩ := vec_of_rep r ha
  obtain ⟨s1, v1, h1, -, h3, -⟩ := reserve_grown r hv ha n hp
  exact ⟨s1, vs.set i v1, h3, by intro β' k; simp only [on, hv]; exact h1 β' _⟩

/-! ## Looking -/

theorem sees_two {s : Mem α} {h h' : Nat} {b b' : Block α} (hb : s.blk h = some b) (hb' : s.blk h' = some b') :
    Sees ((s.lk h).lk h') s.ptrs h b.cells ∧ Sees ((s.lk h).lk h') (s.ptrs + 1) h' b'.cells := by
  obtain ⟨b2, hb2, hc2⟩ := blk_lk_cells hb' h
  refine ⟨sees_lk_keep (sees_lk hb) (by simp [Mem.lk]), ?_⟩
  rw [← hc2]; exact sees_lk hb2

theorem does_compare (lt : α → α → Bool) {s : Mem α} {vs : List Vec} {st : List (Spec.Arr α)} (r : Spec.Rep s vs st)
    {i j : Nat} {a aj : Spec.Arr α} (ha : st[i]? = some a) (haj : st[j]? = some aj) (hj : aj.had = true) (hi : a.had = true ∨ aj.xs ≠ []) :
    ∃ s', Spec.Rep s' vs st ∧
      ∀ (β' : Type) (k : Int → Prog α β'), sexec (on vs i fun v => on vs j fun w => compare lt v w k) s = sexec (k (Spec.compare lt a.xs aj.xs)) s' := by
  obtain ⟨v, hv⟩ := vec_of_rep r ha
  obtain ⟨w, hw⟩ := vec_of_rep r haj
  have hsz := size_of_rep r hv ha
  have hwz := size_of_rep r hw haj
  obtain ⟨h', b', hs'⟩ := has_of_rep r hw haj hj
  have l' : (s.lk h').locks h' = some (b'.locks + 1) := locks_lk (by simp [Mem.locks, hs'.blk])
  by_cases c1 : a.xs.length < aj.xs.length
  · refine ⟨(s.lk h').ul h', rep_same r same_read, ?_⟩
    intro β' k
    simp only [on, hv, hw, compare, hsz, hwz]
    rw [vec_lock hs'.handle hs'.blk, if_pos c1, vec_unlock hs'.handle l' (by omega)]
    simp [Spec.compare, c1]
  · by_cases c2 : a.xs.length > aj.xs.length
    · refine ⟨(s.lk h').ul h', rep_same r same_read, ?_⟩
      intro β' k
      simp only [on, hv, hw, compare, hsz, hwz]
      rw [vec_lock hs'.handle hs'.blk, if_neg c1, if_pos c2, vec_unlock hs'.handle l' (by omega)]
      simp [Spec.compare, c1, c2]
    · have hlen : a.xs.length = aj.xs.length := by omega
      have hh : a.had = true := by
        rcases hi with h | h
        · exact h
        · rcases r.holds i v a hv ha with ⟨e1, e2, e3⟩ | ⟨e1, -⟩
          · have := List.length_pos_iff.mpr h
            rw [e3] at hlen; simp at hlen; omega
          · exact e1
      obtain ⟨h, b, hs⟩ := has_of_rep r hv ha hh
      refine ⟨(((s.lk h').lk h).ul h).ul h', rep_same r same_read_two', ?_⟩
      intro β' k
      simp only [on, hv, hw, compare, hsz, hwz]
      obtain ⟨b2, hb2, hc2⟩ := blk_lk_cells hs.blk h'
      rw [vec_lock hs'.handle hs'.blk, if_neg c1, if_neg c2, vec_lock hs.handle hb2]
      obtain ⟨s1, s2⟩ := sees_two hs'.blk hs.blk
      have s2 : Sees ((s.lk h').lk h) (s.lk h').ptrs h b.cells := s2
      rw [run_cmpLoop lt s2 s1 a.xs aj.xs 0 hlen (by simpa using hs.cells) (by simpa using hs'.cells)]
      have lh : (s.lk h').locks h = some b2.locks := by simp [Mem.locks, hb2]
      rw [vec_unlock hs.handle (locks_lk lh) (by omega)]
      by_cases e : h = h'
      · subst e
        rw [vec_unlock hs'.handle (n := b2.locks + 1 - 1) (locks_ul (locks_lk lh)) (by
          rw [l'] at lh; simp only [Option.some.injEq] at lh; omega)]
      · rw [vec_unlock hs'.handle (n := b'.locks + 1) (by
          rw [locks_ul_other (Ne.symm e)]
          obtain ⟨m, g1, -, g2⟩ := locks_lk_ge l' h
          rw [g1, g2 (Ne.symm e)]) (by omega)]

theorem does_equal {s : Mem α} {vs : List Vec} {st : List (Spec.Arr α)} (r : Spec.Rep s vs st)
    {i j : Nat} {a aj : Spec.Arr α} (ha : st[i]? = some a) (haj : st[j]? = some aj)
    (hh : a.xs.length ≠ aj.xs.length ∨ a.had = true ∧ aj.had = true) :
    ∃ s', Spec.Rep s' vs st ∧
      ∀ (β' : Type) (k : Bool → Prog α β'), sexec (on vs i fun v => on vs j fun w => equal v w k) s = sexec (k (decide (a.xs = aj.xs))) s' := by
  obtain ⟨v, hv⟩ := vec_of_rep r ha
  obtain ⟨w, hw⟩ := vec_of_rep r haj
  have hsz := size_of_rep r hv ha
  have hwz := size_of_rep r hw haj
  by_cases c : a.xs.length = aj.xs.length
  · obtain ⟨h1, h2⟩ := hh.resolve_left (fun f => f c)
    obtain ⟨h, b, hs⟩ := has_of_rep r hv ha h1
    obtain ⟨h', b', hs'⟩ := has_of_rep r hw haj h2
    obtain ⟨s1, s2⟩ := sees_two hs.blk hs'.blk
    refine ⟨(((s.lk h).lk h').ul h).ul h', rep_same r same_read_two, ?_⟩
    intro β' k
    simp only [on, hv, hw, equal, hsz, hwz, c, ne_eq, not_true, if_false]
    rw [← c]
    exact lock_look_two hs.handle hs.blk hs'.handle hs'.blk (fun p q k' => eqLoop p 0 q 0 a.xs.length k') _ k
      (fun k' => run_eqLoop s1 s2 a.xs aj.xs 0 0 c (by simpa using hs.cells) (by simpa using hs'.cells) k')
  · refine ⟨s, r, ?_⟩
    intro β' k
    simp only [on, hv, hw, equal, hsz, hwz]
    rw [if_pos c]
    have : a.xs ≠ aj.xs := by intro e; exact c (by rw [e])
    simp [this]

theorem does_startsWith {s : Mem α} {vs : List Vec} {st : List (Spec.Arr α)} (r : Spec.Rep s vs st)
    {i j : Nat} {a aj : Spec.Arr α} (ha : st[i]? = some a) (haj : st[j]? = some aj) (h1 : a.had = true) (h2 : aj.had = true) :
    ∃ s', Spec.Rep s' vs st ∧
      ∀ (β' : Type) (k : Bool → Prog α β'), sexec (on vs i fun v => on vs j fun w => startsWith v w k) s =
        sexec (k (decide (aj.xs.length < a.xs.length ∧ a.xs.take aj.xs.length = aj.xs))) s' := by
  obtain ⟨v, hv⟩ := vec_of_rep r ha
  obtain ⟨w, hw⟩ := vec_of_rep r haj
  have hsz := size_of_rep r hv ha
  have hwz := size_of_rep r hw haj
  obtain ⟨h, b, hs⟩ := has_of_rep r hv ha h1
  obtain ⟨h', b', hs'⟩ := has_of_rep r hw haj h2
  obtain ⟨s1, s2⟩ := sees_two hs.blk hs'.blk
  refine ⟨(((s.lk h).lk h').ul h).ul h', rep_same r same_read_two, ?_⟩
  intro β' k
  simp only [on, hv, hw, startsWith, hsz, hwz]
  have := lock_look_two (β := β') hs.handle hs.blk hs'.handle hs'.blk (fun p q k' => eqLoop p 0 q 0 (min a.xs.length aj.xs.length) k')
    (decide (a.xs.take (min a.xs.length aj.xs.length) = aj.xs.take (min a.xs.length aj.xs.length)))
    (fun g => k (g && decide (aj.xs.length < a.xs.length))) (by
      intro k'
      have hl : (a.xs.take (min a.xs.length aj.xs.length)).length = min a.xs.length aj.xs.length := by simp
      have := run_eqLoop (β := β') s1 s2 (a.xs.take (min a.xs.length aj.xs.length)) (aj.xs.take (min a.xs.length aj.xs.length)) 0 0 (by simp) (by
        intro m x hx
        have hm := (List.getElem?_eq_some_iff.mp hx).1
        rw [List.getElem?_take_of_lt (by simp at hm; omega)] at hx
        simpa using hs.cells m x hx) (by
        intro m x hx
        have hm := (List.getElem?_eq_some_iff.mp hx).1
        rw [List.getElem?_take_of_lt (by simp at hm; omega)] at hx
        simpa using hs'.cells m x hx) k'
      rwa [hl] at this)
  rw [this]
  congr 2
  by_cases c : aj.xs.length < a.xs.length
  · rw [Nat.min_eq_right (by omega), List.take_length]
    simp [c]
  · simp [c]

theorem does_endsWith {s : Mem α} {vs : List Vec} {st : List (Spec.Arr α)} (r : Spec.Rep s vs st)
    {i j : Nat} {a aj : Spec.Arr α} (ha : st[i]? = some a) (haj : st[j]? = some aj) (h1 : a.had = true) (h2 : aj.had = true) :
    ∃ s', Spec.Rep s' vs st ∧
      ∀ (β' : Type) (k : Bool → Prog α β'), sexec (on vs i fun v => on vs j fun w => endsWith v w k) s =
        sexec (k (decide (aj.xs.length ≤ a.xs.length ∧ a.xs.drop (a.xs.length - aj.xs.length) = aj.xs))) s' := by
  obtain ⟨v, hv⟩ := vec_of_rep r ha
  obtain ⟨w, hw⟩ := vec_of_rep r haj
  have hsz := size_of_rep r hv ha
  have hwz := size_of_rep r hw haj
  obtain ⟨h, b, hs⟩ := has_of_rep r hv ha h1
  obtain ⟨h', b', hs'⟩ := has_of_rep r hw haj h2
  obtain ⟨s1, s2⟩ := sees_two hs.blk hs'.blk
  refine ⟨(((s.lk h).lk h').ul h).ul h', rep_same r same_read_two, ?_⟩
  intro β' k
  simp only [on, hv, hw, endsWith, hsz, hwz]
  by_cases c : aj.xs.length > a.xs.length
  · simp only [c, if_true]
    have := lock_look_two (β := β') hs.handle hs.blk hs'.handle hs'.blk (fun p q k' => k' false) false k (fun _ => rfl)
    rw [this]
    simp [show ¬ aj.xs.length ≤ a.xs.length by omega]
  · simp only [c, if_false]
    have := lock_look_two (β := β') hs.handle hs.blk hs'.handle hs'.blk (fun p q k' => eqLoop p (a.xs.length - aj.xs.length) q 0 aj.xs.length k')
      (decide (a.xs.drop (a.xs.length - aj.xs.length) = aj.xs)) k (by
        intro k'
        have hl : (a.xs.drop (a.xs.length - aj.xs.length)).length = aj.xs.length := by simp; omega
        have := run_eqLoop (β := β') s1 s2 (a.xs.drop (a.xs.length - aj.xs.length)) aj.xs (a.xs.length - aj.xs.length) 0 hl (by
          intro m x hx
          rw [List.getElem?_drop] at hx
          exact hs.cells _ x hx) (by simpa using hs'.cells) k'
        rwa [hl] at this)
    rw [this]
    simp [show aj.xs.length ≤ a.xs.length by omega]

omit [DecidableEq α] in
theorem firstIn_filter (q : α → Bool) (xs : List α) : ∀ (pos : Nat),
    firstIn q pos xs = ((List.range' pos xs.length).filter fun m => (xs[m - pos]?).any q).head? := by
  induction xs with
  | nil => intro pos; rfl
  | cons x xs ih =>
    intro pos
    have hcong : (List.range' (pos + 1) xs.length).filter (fun m => ((x :: xs)[m - pos]?).any q) =
        (List.range' (pos + 1) xs.length).filter (fun m => (xs[m - (pos + 1)]?).any q) := by
      apply List.filter_congr
      intro m hm
      simp only [List.mem_range'_1] at hm
      rw [show m - pos = (m - (pos + 1)) + 1 by omega, List.getElem?_cons_succ]
    rw [firstIn, List.length_cons, List.range'_succ, List.filter_cons]
    simp only [Nat.sub_self, List.getElem?_cons_zero, Option.any_some]
    by_cases e : q x = true
    · simp [e]
    · simp only [e]
      rw [if_neg (by simp), if_neg (by simp), hcong, ih (pos + 1)]

omit [DecidableEq α] in
theorem firstIn_first (q : α → Bool) (xs : List α) (pos : Nat) : firstIn q pos (xs.drop pos) = Spec.first q xs pos := by
  rw [firstIn_filter, Spec.first]
  by_cases h : pos ≤ xs.length
  · have hr : List.range xs.length = List.range' 0 pos ++ List.range' pos (xs.length - pos) := by
      rw [List.range_eq_range']
      have := List.range'_append (s := 0) (m := pos) (n := xs.length - pos) (step := 1)
      simp only [Nat.one_mul, Nat.zero_add] at this
      rw [this]; congr 1; omega
    rw [hr, List.filter_append]
    have h0 : (List.range' 0 pos).filter (fun i => decide (pos ≤ i) && (xs[i]?.any q)) = [] := by
      apply List.filter_eq_nil_iff.mpr
      intro m hm
      simp only [List.mem_range'_1] at hm
      simp only [Bool.and_eq_true, decide_eq_true_eq, not_and]; omega
    rw [h0, List.nil_append, List.length_drop]
    congr 1
    apply List.filter_congr
    intro m hm
    simp only [List.mem_range'_1] at hm
    rw [List.getElem?_drop, show pos + (m - pos) = m by omega]
    simp [hm.1]
  · rw [List.drop_eq_nil_of_le (by omega)]
    symm
    have : (List.range xs.length).filter (fun i => decide (pos ≤ i) && (xs[i]?.any q)) = [] := by
      apply List.filter_eq_nil_iff.mpr
      intro m hm
      simp only [List.mem_range] at hm
      simp only [Bool.and_eq_true, decide_eq_true_eq, not_and]; omega
    rw [this]; rfl

theorem does_findCh {s : Mem α} {vs : List Vec} {st : List (Spec.Arr α)} (r : Spec.Rep s vs st)
    {i pos : Nat} {a : Spec.Arr α} (x : α) (ha : st[i]? = some a) (h1 : a.had = true) :
    ∃ s', Spec.Rep s' vs st ∧
      ∀ (β' : Type) (k : Option Nat → Prog α β'), sexec (on vs i fun v => findCh v x pos k) s = sexec (k (Spec.first (· == x) a.xs pos)) s' := by
  obtain ⟨v, hv⟩ := vec_of_rep r ha
  have hsz := size_of_rep r hv ha
  obtain ⟨h, b, hs⟩ := has_of_rep r hv ha h1
  refine ⟨(s.lk h).ul h, rep_same r same_read, ?_⟩
  intro β' k
  simp only [on, hv, findCh, hsz]
  rw [vec_lock hs.handle hs.blk]
  have hl : a.xs.length - pos = (a.xs.drop pos).length := by simp
  rw [hl, run_findLoop v x (sees_lk hs.blk) (a.xs.drop pos) pos (by
    intro m y hy
    rw [List.getElem?_drop] at hy
    exact hs.cells _ _ hy), vec_unlock hs.handle (n := b.locks + 1) (locks_lk (by simp [Mem.locks, hs.blk])) (by omega), firstIn_first]

theorem does_findFirstOf {s : Mem α} {vs : List Vec} {st : List (Spec.Arr α)} (r : Spec.Rep s vs st)
    {i pos : Nat} {a : Spec.Arr α} (set : List α) (ha : st[i]? = some a) (h1 : a.had = true) (hp : pos ≤ a.xs.length) :
    ∃ s', Spec.Rep s' vs st ∧
      ∀ (β' : Type) (k : Option Nat → Prog α β'), sexec (on vs i fun v => findFirstOf v set pos k) s = sexec (k (Spec.first set.contains a.xs pos)) s' := by
  obtain ⟨v, hv⟩ := vec_of_rep r ha
  have hsz := size_of_rep r hv ha
  obtain ⟨h, b, hs⟩ := has_of_rep r hv ha h1
  refine ⟨(s.lk h).ul h, rep_same r same_read, ?_⟩
  intro β' k
  simp only [on, hv, findFirstOf, hsz, show ¬ a.xs.length < pos by omega, if_false]
  have hl : a.xs.length - pos = (a.xs.drop pos).length := by simp
  rw [hl, ← firstIn_first]
  exact lock_look hs.handle hs.blk (fun p k' => firstOfLoop set p pos (a.xs.drop pos).length k') _ k (fun k' =>
    run_firstOfLoop (sees_lk hs.blk) set (a.xs.drop pos) pos (by
      intro m y hy
      rw [List.getElem?_drop] at hy
      exact hs.cells _ _ hy) k')

theorem does_copyOut {s : Mem α} {vs : List Vec} {st : List (Spec.Arr α)} (r : Spec.Rep s vs st)
    {i count pos : Nat} {a : Spec.Arr α} (ha : st[i]? = some a) (h1 : a.had = true) (hp : pos ≤ a.xs.length) :
    ∃ s', Spec.Rep s' vs st ∧
      ∀ (β' : Type) (k : List α → Prog α β'), sexec (on vs i fun v => copyOut v count pos k) s = sexec (k ((a.xs.drop pos).take count)) s' := by
  obtain ⟨v, hv⟩ := vec_of_rep r ha
  have hsz := size_of_rep r hv ha
  obtain ⟨h, b, hs⟩ := has_of_rep r hv ha h1
  refine ⟨(s.lk h).ul h, rep_same r same_read, ?_⟩
  intro β' k
  simp only [on, hv, copyOut, hsz, show ¬ a.xs.length < pos by omega, if_false]
  have hl : (if pos + count > a.xs.length then a.xs.length - pos else count) = ((a.xs.drop pos).take count).length := by
    simp only [List.length_take, List.length_drop]
    split <;> omega
  rw [hl]
  exact lock_look hs.handle hs.blk (fun p k' => readAll p pos ((a.xs.drop pos).take count).length k') _ k (fun k' =>
    run_readAll (sees_lk hs.blk) ((a.xs.drop pos).take count) pos (by
      intro m y hy
      have hm := (List.getElem?_eq_some_iff.mp hy).1
      rw [List.getElem?_take_of_lt (by simp at hm; omega), List.getElem?_drop] at hy
      exact hs.cells _ _ hy) k')

theorem does_print {s : Mem α} {vs : List Vec} {st : List (Spec.Arr α)} (r : Spec.Rep s vs st)
    {i : Nat} {a : Spec.Arr α} (ha : st[i]? = some a) (h1 : a.had = true) :
    ∃ s', Spec.Rep s' vs st ∧
      ∀ (β' : Type) (k : List α → Prog α β'), sexec (on vs i fun v => print v k) s = sexec (k a.xs) s' := by
  obtain ⟨v, hv⟩ := vec_of_rep r ha
  have hsz := size_of_rep r hv ha
  obtain ⟨h, b, hs⟩ := has_of_rep r hv ha h1
  refine ⟨(s.lk h).ul h, rep_same r same_read, ?_⟩
  intro β' k
  simp only [on, hv, print, hsz]
  exact lock_look hs.handle hs.blk (fun p k' => readAll p 0 a.xs.length k') _ k (fun k' =>
    run_readAll (sees_lk hs.blk) a.xs 0 (by simpa using hs.cells) k')

end Verif.Moving
