import Verif.Moving.Ops2
/-!
# C82: histories under every schedule, and where the library breaks its own rules
-/
namespace Verif.Moving

variable {α β : Type} [DecidableEq α]

/-- every legal statement is done as specified -/
theorem op_does (lt : α → α → Bool) (esz : Nat) {s : Mem α} {vs : List Vec} {st : List (Spec.Arr α)} (r : Spec.Rep s vs st) (o : Op α)
    (hl : Spec.Legal st o) : Does lt esz s vs st o := by
  cases o with
  | pushBack i x =>
    obtain ⟨a, ha⟩ := hl
    obtain ⟨s', vs', h1, h2⟩ := does_appendPtr lt esz r ha (src := [x]) (.inr (by simp))
    exact ⟨s', vs', by simpa [Spec.step, ha] using h1, fun β' k => h2 β' fun vs => k vs .none⟩
  | emplaceBack i x =>
    obtain ⟨a, ha⟩ := hl
    obtain ⟨s', vs', h1, h2⟩ := does_appendPtr lt esz r ha (src := [x]) (.inr (by simp))
    exact ⟨s', vs', by simpa [Spec.step, ha] using h1, fun β' k => h2 β' fun vs => k vs .none⟩
  | appendPtr i src =>
    obtain ⟨a, ha, h⟩ := hl
    obtain ⟨s', vs', h1, h2⟩ := does_appendPtr lt esz r ha h
    exact ⟨s', vs', by simpa [Spec.step, ha] using h1, fun β' k => h2 β' fun vs => k vs .none⟩
  | append i j =>
    obtain ⟨a, aj, ha, haj, h, g⟩ := hl
    obtain ⟨s', vs', h1, h2⟩ := does_append esz r ha haj h g
    exact ⟨s', vs', by simpa [Spec.step, ha, haj] using h1, fun β' k => h2 β' fun vs => k vs .none⟩
  | assignPtr i src =>
    obtain ⟨a, ha, h⟩ := hl
    obtain ⟨s', vs', h1, h2⟩ := does_assignPtr r ha h
    exact ⟨s', vs', by simpa [Spec.step, ha] using h1, fun β' k => h2 β' fun vs => k vs .none⟩
  | assign i j =>
    obtain ⟨a, aj, ha, haj, h, g⟩ := hl
    obtain ⟨s', vs', h1, h2⟩ := does_assign r ha haj h g
    exact ⟨s', vs', by simpa [Spec.step, ha, haj] using h1, fun β' k => h2 β' fun vs => k vs .none⟩
  | insertPtr i pos src =>
    obtain ⟨a, ha, hp, h⟩ := hl
    obtain ⟨s', vs', h1, h2⟩ := does_insertPtr r ha hp h
    exact ⟨s', vs', by simpa [Spec.step, ha] using h1, fun β' k => h2 β' fun vs => k vs .none⟩
  | insert i pos j =>
    obtain ⟨hne, a, aj, ha, haj, hp, h, g⟩ := hl
    obtain ⟨s', vs', h1, h2⟩ := does_insert r hne ha haj hp h g
    exact ⟨s', vs', by simpa [Spec.step, ha, haj] using h1, fun β' k => h2 β' fun vs => k vs .none⟩
  | erase i index count =>
    obtain ⟨a, ha, h, hp⟩ := hl
    obtain ⟨s', vs', h1, h2⟩ := does_erase (count := count) r ha h hp
    exact ⟨s', vs', by simpa [Spec.step, ha] using h1, fun β' k => h2 β' fun vs => k vs .none⟩
  | popBack i =>
    obtain ⟨a, ha, h, hp⟩ := hl
    obtain ⟨s', vs', h1, h2⟩ := does_popBack r ha h hp
    exact ⟨s', vs', by simpa [Spec.step, ha] using h1, fun β' k => h2 β' fun vs => k vs .none⟩
  | resize i n =>
    obtain ⟨a, ha, hp⟩ := hl
    obtain ⟨s', vs', h1, h2⟩ := does_resize r ha hp
    exact ⟨s', vs', by simpa [Spec.step, ha] using h1, fun β' k => h2 β' fun vs => k vs .none⟩
  | reserve i n =>
    obtain ⟨a, ha, hp⟩ := hl
    obtain ⟨s', vs', h1, h2⟩ := does_reserve r ha hp
    exact ⟨s', vs', by simpa [Spec.step, ha] using h1, fun β' k => h2 β' fun vs => k vs .none⟩
  | compare i j =>
    obtain ⟨a, aj, ha, haj, h, g⟩ := hl
    obtain ⟨s', h1, h2⟩ := does_compare lt r ha haj h g
    exact ⟨s', vs, h1, fun β' k => by simpa [Op.prog, Spec.step, ha, haj] using h2 β' fun x => k vs (.int x)⟩
  | equal i j =>
    obtain ⟨a, aj, ha, haj, h⟩ := hl
    obtain ⟨s', h1, h2⟩ := does_equal r ha haj h
    exact ⟨s', vs, h1, fun β' k => by simpa [Op.prog, Spec.step, ha, haj] using h2 β' fun x => k vs (.bool x)⟩
  | startsWith i j =>
    obtain ⟨a, aj, ha, haj, h, g⟩ := hl
    obtain ⟨s', h1, h2⟩ := does_startsWith r ha haj h g
    exact ⟨s', vs, h1, fun β' k => by simpa [Op.prog, Spec.step, ha, haj] using h2 β' fun x => k vs (.bool x)⟩
  | endsWith i j =>
    obtain ⟨a, aj, ha, haj, h, g⟩ := hl
    obtain ⟨s', h1, h2⟩ := does_endsWith r ha haj h g
    exact ⟨s', vs, h1, fun β' k => by simpa [Op.prog, Spec.step, ha, haj] using h2 β' fun x => k vs (.bool x)⟩
  | findCh i x pos =>
    obtain ⟨a, ha, h⟩ := hl
    obtain ⟨s', h1, h2⟩ := does_findCh (pos := pos) r x ha h
    exact ⟨s', vs, h1, fun β' k => by simpa [Op.prog, Spec.step, ha] using h2 β' fun x => k vs (.pos x)⟩
  | findFirstOf i set pos =>
    obtain ⟨a, ha, h, hp⟩ := hl
    obtain ⟨s', h1, h2⟩ := does_findFirstOf r set ha h hp
    exact ⟨s', vs, h1, fun β' k => by simpa [Op.prog, Spec.step, ha] using h2 β' fun x => k vs (.pos x)⟩
  | copyOut i count pos =>
    obtain ⟨a, ha, h, hp⟩ := hl
    obtain ⟨s', h1, h2⟩ := does_copyOut (count := count) r ha h hp
    exact ⟨s', vs, h1, fun β' k => by simpa [Op.prog, Spec.step, ha] using h2 β' fun x => k vs (.text x)⟩
  | print i =>
    obtain ⟨a, ha, h⟩ := hl
    obtain ⟨s', h1, h2⟩ := does_print r ha h
    exact ⟨s', vs, h1, fun β' k => by simpa [Op.prog, Spec.step, ha] using h2 β' fun x => k vs (.text x)⟩

theorem history_does (lt : α → α → Bool) (esz : Nat) (ops : List (Op α)) : ∀ (s : Mem α) (vs : List Vec) (st : List (Spec.Arr α)) (outs : List (Out α)),
    Spec.Rep s vs st → Spec.Legals lt st ops →
    ∃ s' vs', sexec (history lt esz ops vs outs) s = some (s', vs', outs ++ (Spec.run lt st ops).2) ∧ Spec.Rep s' vs' (Spec.run lt st ops).1 := by
  induction ops with
  | nil => intro s vs st outs r _; exact ⟨s, vs, by simp [history, sexec, Spec.run], r⟩
  | cons o os ih =>
    intro s vs st outs r hl
    obtain ⟨s1, vs1, r1, h1⟩ := op_does lt esz r o hl.1
    obtain ⟨s2, vs2, h2, r2⟩ := ih s1 vs1 _ (outs ++ [(Spec.step lt st o).2]) r1 hl.2
    refine ⟨s2, vs2, ?_, r2⟩
    rw [history, h1, h2, Spec.run]
    simp

theorem rep_step {s m : Mem α} {vs : List Vec} {st : List (Spec.Arr α)} (r : Spec.Rep s vs st) (h : Step s m) : Spec.Rep m vs st := by
  refine rep_same r ⟨h.handles.symm, fun x hx => (h.none x).mp hx, ?_⟩
  intro x b hx
  obtain ⟨b', h1, h2, h3⟩ := h.block hx
  exact ⟨b', h1, h2.symm, h3.symm⟩

/-- arrays before the first statement -/
def Spec.start (n : Nat) : List (Spec.Arr α) := List.replicate n ⟨false, []⟩

omit [DecidableEq α] in
theorem rep_start (n : Nat) : Spec.Rep (α := α) Mem.empty (List.replicate n Vec.fresh) (Spec.start n) := by
  refine ⟨by simp [Spec.start], ?_, ?_, ?_, ?_⟩
  · intro i v a hv ha
    simp only [Spec.start, List.getElem?_replicate] at hv ha
    split at hv
    · cases hv
      rename_i h
      rw [if_pos h] at ha; cases ha
      exact .inl ⟨rfl, rfl, rfl⟩
    · cases hv
  · intro i j v w h hv _ hh _
    simp only [List.getElem?_replicate] at hv
    split at hv
    · cases hv; cases hh
    · cases hv
  · intro h b hb; cases hb
  · intro h _; rfl

/-- Whatever the allocator moves and whenever it does: a program of legal statements over any number of arrays runs to its
end without undefined behaviour, every statement yields what it should, the arrays hold what they should, each in memory of
its own, and nothing is left locked. -/
theorem moving_history_partial (lt : α → α → Bool) (esz n : Nat) (ops : List (Op α)) (hl : Spec.Legals lt (Spec.start n) ops) (mv : Sched) :
    ∃ m vs, exec mv (history lt esz ops (List.replicate n Vec.fresh) []) Mem.empty = some (m, vs, (Spec.run lt (Spec.start n) ops).2) ∧
      Spec.Rep m vs (Spec.run lt (Spec.start n) ops).1 := by
  obtain ⟨s, vs, h1, h2⟩ := history_does lt esz ops _ _ _ [] (rep_start n) hl
  obtain ⟨m, h3, h4⟩ := exec_of_sexec mv _ _ _ step_empty _ _ h1
  exact ⟨m, vs, by simpa using h3, rep_step h2 h4⟩

/-- the hypotheses are met: two strings that grow, are inserted into one another, compared, searched and erased -/
example : Spec.Legals (fun x y : Nat => decide (x < y)) (Spec.start 2)
    [.appendPtr 0 [1, 2, 3], .assign 1 0, .pushBack 1 9, .insert 0 1 1, .append 0 0, .erase 0 2 3, .compare 0 1, .equal 1 1,
      .findCh 0 9 1, .copyOut 0 2 1, .popBack 1, .startsWith 0 1, .endsWith 0 0, .resize 0 1, .print 0] := by
  simp [Spec.Legals, Spec.Legal, Spec.start, Spec.step, List.replicate]

example : (Spec.run (fun x y : Nat => decide (x < y)) (Spec.start 2)
    [.appendPtr 0 [1, 2, 3], .assign 1 0, .pushBack 1 9, .insert 0 1 1, .append 0 0, .erase 0 2 3, .compare 0 1, .findCh 0 9 1, .copyOut 0 2 1, .print 1]).2 =
    [.none, .none, .none, .none, .none, .none, .int 1, .pos (some 8), .text [1, 2], .text [1, 2, 3, 9]] := by decide +kernel

/-- a pointer used after its lock was released: whether that works depends on the allocator -/
example : let p : Prog Nat Nat := .alloc 1 fun h => .lock h fun p => .write p 0 7 (.unlock h (.read p 0 fun x => .ret x))
    (exec (fun _ _ => false) p Mem.empty).isSome = true ∧ (exec (fun _ _ => true) p Mem.empty).isSome = false := by decide +kernel

/-! ## Violations -/

theorem blk_tick (mv : Sched) {m : Mem α} {h : Nat} {b : Block α} (hb : m.blk h = some b) :
    ∃ b', (m.tick mv).blk h = some b' ∧ b'.cells = b.cells ∧ b'.locks = b.locks := by
  simp only [Mem.tick, hb, Option.map_some]
  exact ⟨_, rfl, by split <;> exact ⟨rfl, rfl⟩⟩

/-- what is locked cannot be given up -/
theorem realloc_locked (mv : Sched) {m : Mem α} {h n : Nat} {b : Block α} (hb : m.blk h = some b) (hl : b.locks ≠ 0) (k : Nat → Prog α β) :
    exec mv (.realloc h n k) m = none := by
  obtain ⟨b', h1, -, h3⟩ := blk_tick mv hb
  simp only [exec, h1]
  rw [if_neg (by omega)]

/-- after a lock the block is locked -/
theorem exec_lock (mv : Sched) {m : Mem α} {h : Nat} {b : Block α} (hb : m.blk h = some b) (k : Nat → Prog α β) :
    ∃ (m' : Mem α) (b' : Block α), exec mv (.lock h k) m = exec mv (k m.ptrs) m' ∧ m'.blk h = some b' ∧ b'.locks = b.locks + 1 ∧ b'.cells = b.cells := by
  obtain ⟨b', h1, h2, h3⟩ := blk_tick mv hb
  refine ⟨_, { b' with locks := b'.locks + 1 }, by simp only [exec, h1]; rfl, by simp [upd], by simp [h3], h2⟩

/-- **Violation.**  Inserting a string into itself gives up the string's memory while it is locked, whenever there is no room
for the result: undefined, whatever the allocator does. -/
theorem insert_self_ub (mv : Sched) {m : Mem α} {vs : List Vec} {st : List (Spec.Arr α)} (r : Spec.Rep m vs st) {i pos : Nat} {v : Vec}
    {a : Spec.Arr α} (hv : vs[i]? = some v) (ha : st[i]? = some a) (hh : a.had = true) (hc : v.cap < a.xs.length + a.xs.length)
    (k : List Vec → Prog α β) : exec mv (insert vs i pos i k) m = none := by
  have hsz := size_of_rep r hv ha
  obtain ⟨h, b, hs⟩ := has_of_rep r hv ha hh
  simp only [insert, hv, Vec.lock, hs.handle]
  obtain ⟨m', b', h1, h2, h3, -⟩ := exec_lock mv hs.blk _
  rw [h1]
  simp only [ensureSize, ensureCapacity, hsz]
  rw [if_pos hc]
  simp only [reserve, hs.handle]
  exact realloc_locked mv h2 (by omega) _

/-- Stated for a program: `s = "…"; s.insert(pos, s);` is undefined for every text that is not empty. -/
theorem insert_self_program_ub (lt : α → α → Bool) (esz pos : Nat) (xs : List α) (hx : xs ≠ []) (mv : Sched) :
    exec mv (history lt esz [.assignPtr 0 xs, .insert 0 pos 0] [Vec.fresh] []) Mem.empty = none := by
  have hpos := List.length_pos_iff.mpr hx
  suffices h : exec mv (history lt esz [.assignPtr 0 xs, .insert 0 pos 0] [Vec.fresh] []) Mem.empty =
      exec mv (on [Vec.fresh] 0 fun v => assignPtr v xs fun v' => insert [v'] 0 pos 0 fun vs => .ret (vs, [Out.none, Out.none])) Mem.empty by
    rw [h]
    simp only [on, List.getElem?_cons_zero, assignPtr, ensureSize, ensureCapacity, Vec.fresh]
    rw [if_pos (by omega)]
    simp only [reserve, exec, Vec.lock]
    rw [show xs.length + 0 = xs.length by omega]
    -- after the allocation the block is there and not locked
    have key : ∀ (ys : List α) (p j : Nat) (m : Mem α) (b : Block α) (k : Prog α (List Vec × List (Out α))), m.blk 0 = some b →
        (∀ (m' : Mem α) b', m'.blk 0 = some b' → b'.locks = b.locks → exec mv k m' = none) → exec mv (writeAll p j ys k) m = none := by
      intro ys
      induction ys with
      | nil => intro p j m b k hb hk; exact hk m b hb rfl
      | cons y ys ih =>
        intro p j m b k hb hk
        simp only [writeAll, exec]
        obtain ⟨b1, h1, -, h3⟩ := blk_tick mv hb
        split
        · rfl
        · rename_i x b2 ht
          split
          · have hb2 : (m.tick mv).blk x = some b2 := by
              unfold Mem.target at ht
              split at ht
              · cases ht
              · split at ht
                · cases ht
                · split at ht
                  · cases ht; assumption
                  · cases ht
            by_cases e : x = 0
            · subst e
              rw [h1] at hb2; cases hb2
              exact ih _ _ _ { b1 with cells := b1.cells.set j (some y) } k (by simp [upd]) (by
                intro m' b' g1 g2; exact hk m' b' g1 (by simp only at g2; omega))
            · exact ih _ _ _ b1 k (by simp [upd, Ne.symm e, h1]) (by
                intro m' b' g1 g2; exact hk m' b' g1 (by omega))
          · rfl
    split
    · rfl
    · rename_i b hb
      simp only [Mem.tick, Mem.empty] at hb
      simp [upd] at hb
      have hl : b.locks = 0 := by
        split at hb <;> (rw [← hb])
      refine key xs _ _ _ { b with locks := b.locks + 1 } _ (by simp [upd, Mem.tick, Mem.empty]) ?_
      intro m' b' hb' hl'
      simp only [Vec.unlock, exec]
      obtain ⟨b1, h1, -, h3⟩ := blk_tick mv hb'
      rw [show (m'.tick mv).blk (Mem.tick mv Mem.empty : Mem α).handles = some b1 from h1]
      simp only
      rw [if_neg (by simp only at hl'; omega)]
      simp only [insert, List.getElem?_cons_zero, Vec.lock]
      have hsz : Vec.size ⟨some (Mem.tick mv Mem.empty : Mem α).handles, xs.length, xs.length⟩ = xs.length := by simp [Vec.size]
      simp only [hsz, ensureSize, ensureCapacity]
      simp only [show xs.length + xs.length > xs.length by omega, if_true, reserve]
      simp only [exec]
      split
      · rfl
      · rename_i b2 hb2
        split
        · rfl
        · rename_i b3 hb3
          rw [if_neg]
          simp only [Mem.tick, upd] at hb3
          simp at hb3
          rw [← hb3]
          simp
  rfl

/-- what a legal history leaves behind, on both machines -/
theorem reached (lt : α → α → Bool) (esz n : Nat) (ops : List (Op α)) (hl : Spec.Legals lt (Spec.start n) ops) (mv : Sched) {m : Mem α}
    {vs : List Vec} {outs : List (Out α)} (h : exec mv (history lt esz ops (List.replicate n Vec.fresh) []) Mem.empty = some (m, vs, outs)) :
    ∃ s, Step s m ∧ Spec.Rep s vs (Spec.run lt (Spec.start n) ops).1 := by
  obtain ⟨s, vs', h1, h2⟩ := history_does lt esz ops _ _ _ [] (rep_start n) hl
  obtain ⟨m', h3, h4⟩ := exec_of_sexec mv _ _ _ step_empty _ _ h1
  rw [h] at h3
  simp only [Option.some.injEq, Prod.mk.injEq] at h3
  obtain ⟨rfl, rfl, -⟩ := h3
  exact ⟨s, h4, h2⟩

/-- forward copying within a block, to a higher place: what has been copied is copied again -/
theorem run_copyUp_over {p q h pos : Nat} (hpos : 0 < pos) (n : Nat) : ∀ (t : Nat) (s : Mem α) (c : List (Option α)) (f : Nat → α), Sees s p h c →
    Sees s q h c → pos + t + n ≤ c.length → (∀ m, m < pos + t → c[m]? = some (some (f (m % pos)))) →
    ∀ k : Prog α β, sexec (copyUp p (pos + t) q t n k) s = sexec k (s.put h (overwrite c (pos + t) ((List.range' t n).map fun m => f (m % pos)))) := by
  induction n with
  | zero => intro t s c f hs _ _ _ k; simp [copyUp, overwrite, sees_put_self hs]
  | succ n ih =>
    intro t s c f hs hq hlen hc k
    rw [copyUp, run_read hq (hc t (by omega)), run_write hs (by omega)]
    rw [show pos + t + 1 = pos + (t + 1) by omega, ih (t + 1) _ _ f (sees_put hs _) (sees_put hq _) (by simp; omega) (by
      intro m hm
      by_cases e : m = pos + t
      · subst e
        rw [List.getElem?_set_self (by omega), Nat.add_mod_left]
      · rw [List.getElem?_set_ne (by omega)]
        exact hc m (by omega)), put_put, List.range'_succ, List.map_cons, overwrite]
    rfl

/-- **Violation.**  With room for the result, a string inserted into itself behind its first character and before its end
comes out as repetitions of what is before that place. -/
theorem insert_self_repeats (lt : α → α → Bool) (esz n : Nat) (ops : List (Op α)) (hl : Spec.Legals lt (Spec.start n) ops) (mv : Sched) {m : Mem α}
    {vs : List Vec} {outs : List (Out α)} (h : exec mv (history lt esz ops (List.replicate n Vec.fresh) []) Mem.empty = some (m, vs, outs))
    {i pos : Nat} {v : Vec} {a : Spec.Arr α} (hv : vs[i]? = some v) (ha : (Spec.run lt (Spec.start n) ops).1[i]? = some a) (hh : a.had = true)
    (hroom : a.xs.length + a.xs.length ≤ v.cap) (hpos : 0 < pos) (hp : pos ≤ a.xs.length) :
    ∃ m' vs', exec mv (insert vs i pos i fun vs => .ret vs) m = some (m', vs') ∧
      Spec.Rep m' vs' ((Spec.run lt (Spec.start n) ops).1.set i
        ⟨true, a.xs.take pos ++ (List.range a.xs.length).map (fun k => a.xs[k % pos]'(Nat.lt_of_lt_of_le (Nat.mod_lt k hpos) hp)) ++ a.xs.drop pos⟩) := by
  obtain ⟨s, hstep, r⟩ := reached lt esz n ops hl mv h
  have hsz := size_of_rep r hv ha
  obtain ⟨x, b, hs⟩ := has_of_rep r hv ha hh
  have hcap := hs.cap
  have hle := hs.le
  have hi : i < vs.length := (List.getElem?_eq_some_iff.mp hv).1
  generalize hys : (List.range a.xs.length).map (fun k => a.xs[k % pos]'(Nat.lt_of_lt_of_le (Nat.mod_lt k hpos) hp)) = ys
  have hyl : ys.length = a.xs.length := by rw [← hys]; simp
  let f : Nat → α := fun k => if hk : k < a.xs.length then a.xs[k] else a.xs[0]'(by omega)
  have hyf : ys = (List.range' 0 a.xs.length).map fun m => f (m % pos) := by
    rw [← hys, List.range_eq_range']
    apply List.map_congr_left
    intro k _
    have : k % pos < a.xs.length := Nat.lt_of_lt_of_le (Nat.mod_lt k hpos) hp
    simp [f, this]
  have hlen2 : (a.xs.take pos ++ ys ++ a.xs.drop pos).length = a.xs.length + a.xs.length := by simp [hyl]; omega
  have hrun : sexec (insert vs i pos i fun vs => .ret vs) s = some
      (((((s.lk x).lk x).put x (overwrite (overwrite b.cells (pos + ys.length) (a.xs.drop pos)) pos ys)).ul x).ul x,
        vs.set i { v with used := (a.xs.take pos ++ ys ++ a.xs.drop pos).length }) := by
    simp only [insert, hv, ensureSize, ensureCapacity, hsz]
    rw [vec_lock hs.handle hs.blk, if_neg (by omega)]
    obtain ⟨s1, s2⟩ := sees_two hs.blk hs.blk
    have s2 : Sees ((s.lk x).lk x) (s.lk x).ptrs x b.cells := s2
    obtain ⟨b2, hb2, hc2⟩ := blk_lk_cells hs.blk x
    rw [vec_lock (v := { v with used := a.xs.length + a.xs.length }) hs.handle hb2, if_neg (by omega)]
    simp only [List.getElem?_set_self hi]
    rw [run_copyDown (a.xs.length - pos) (a.xs.drop pos) _ _ _ _ (by simp) s2 (by simp; omega) (by omega) (by
        intro m x hx
        rw [List.getElem?_drop] at hx
        exact hs.cells _ _ hx)]
    have hov := run_copyUp_over (β := List Vec) (q := s.ptrs) hpos a.xs.length 0 _ _ f (sees_put s2 (overwrite b.cells (pos + a.xs.length) (a.xs.drop pos)))
      (sees_put s1 (overwrite b.cells (pos + a.xs.length) (a.xs.drop pos))) (by rw [overwrite_length]; omega) (by
        intro m hm
        rw [overwrite_get _ _ _ _ (by simp; omega), if_neg (by omega), Nat.mod_eq_of_lt (by omega)]
        have : m < a.xs.length := by omega
        exact hs.cells m _ (by simp [f, this]))
    simp only [Nat.add_zero] at hov
    rw [hov, ← hyf, put_put, ← hyl]
    have l2 : ((s.lk x).lk x).locks x = some (b.locks + 1 + 1) := locks_lk (locks_lk (by simp [Mem.locks, hs.blk]))
    rw [vec_unlock (v := { v with used := ys.length + ys.length }) (h := x) (n := b.locks + 1 + 1) hs.handle (by rw [locks_put]; exact l2) (by omega)]
    rw [vec_unlock (v := { v with used := ys.length + ys.length }) (h := x) (n := b.locks + 1 + 1 - 1) hs.handle (locks_ul (by rw [locks_put]; exact l2)) (by omega)]
    simp only [sexec, hlen2, hyl]
  obtain ⟨m', h1, h2⟩ := exec_of_sexec mv _ _ _ hstep _ _ hrun
  refine ⟨m', _, h1, rep_step ?_ h2⟩
  refine rep_put r hv hs.handle hs.blk hs.cap (by simp [overwrite_length]) (by simp only [overwrite_length]; omega) ?_ (same_two' _)
  exact insert_cells hs.cells hp (by omega)

/-- the case: `s.reserve(8); s = "123"; s.insert(1, s);` makes it 1 111 23, not 1 123 23 -/
example : let ops : List (Op Nat) := [.reserve 0 8, .assignPtr 0 [1, 2, 3]]
    Spec.Legals (fun x y => decide (x < y)) (Spec.start 1) ops ∧
      ((exec (fun _ _ => true) (history (fun x y => decide (x < y)) 1 (ops ++ [.insert 0 1 0, .print 0]) [Vec.fresh] []) Mem.empty).map fun r => r.2.2) =
        some [.none, .none, .none, .text [1, 1, 1, 1, 2, 3]] := by
  refine ⟨by simp [Spec.Legals, Spec.Legal, Spec.start, Spec.step, List.replicate], by decide +kernel⟩

/-- **Violation.**  Printing, searching, copying out or appending nothing to a string that never had memory locks the invalid handle. -/
theorem unallocated_ub (mv : Sched) (m : Mem α) (lt : α → α → Bool) (esz pos : Nat) (x : α) (w : Vec) :
    exec mv (print Vec.fresh fun xs => Prog.ret xs) m = none ∧ exec mv (findCh Vec.fresh x pos fun r => Prog.ret r) m = none ∧
      exec mv (copyOut Vec.fresh pos 0 fun xs : List α => Prog.ret xs) m = none ∧
      exec mv (appendPtr esz Vec.fresh ([] : List α) fun v => Prog.ret v) m = none ∧
      exec mv (compare lt w Vec.fresh fun r => Prog.ret r) m = none ∧
      exec mv (equal Vec.fresh Vec.fresh fun r : Bool => (Prog.ret r : Prog α Bool)) m = none := by
  refine ⟨rfl, rfl, rfl, ?_, rfl, rfl⟩
  simp [appendPtr, grow, ensureCapacity, Vec.fresh, Vec.size, Vec.lock, exec]

/-- **Violation.**  `data()` locks for ever: from then on the array cannot grow. -/
theorem data_pins (mv : Sched) {m : Mem α} {vs : List Vec} {st : List (Spec.Arr α)} (r : Spec.Rep m vs st) {i : Nat} {v : Vec} {a : Spec.Arr α}
    (hv : vs[i]? = some v) (ha : st[i]? = some a) (hh : a.had = true) (hfull : v.cap = a.xs.length) (esz : Nat) (x : α) (k : Vec → Prog α β) :
    exec mv (data v fun _ => pushMove esz v x k) m = none := by
  have hsz := size_of_rep r hv ha
  obtain ⟨h, b, hs⟩ := has_of_rep r hv ha hh
  simp only [data, Vec.lock, hs.handle]
  obtain ⟨m', b', h1, h2, h3, -⟩ := exec_lock mv hs.blk (fun _ => pushMove esz v x k)
  rw [h1]
  simp only [pushMove, grow, ensureCapacity, hsz]
  rw [if_pos (by omega)]
  simp only [reserve, hs.handle]
  exact realloc_locked mv h2 (by omega) _

/-! ## Iteration -/

/-- The body of `for(it = begin(); it != end(); ++it) use(*it);`, runtime_array.h:282-318: iterators are compared and moved
without locking (internal/container/iterator.h:90-134, 177-186); every `*it` locks (203-204). -/
def derefLoop (v : Vec) : Nat → Nat → (List α → Prog α β) → Prog α β
  | _, 0, k => k []
  | i, n + 1, k => v.lock fun p => .read p i fun x => derefLoop v (i + 1) n fun xs => k (x :: xs)

/-- The whole loop; at its end both iterators go, and each unlocks once (internal/container/iterator.h:79-87).  Their accessors
lock and unlock the block (internal/container/accessor.h:289-314). -/
def iterate (v : Vec) (k : List α → Prog α β) : Prog α β := derefLoop v 0 v.size fun xs => v.unlock (v.unlock (k xs))

/-- locking `n` times -/
def Mem.lks (s : Mem α) (h : Nat) : Nat → Mem α
  | 0 => s
  | n + 1 => (s.lk h).lks h n

theorem run_derefLoop {v : Vec} {h : Nat} (hv : v.handle = some h) (xs : List α) : ∀ (s : Mem α) (b : Block α) (i : Nat), s.blk h = some b →
    (∀ (m : Nat) x, xs[m]? = some x → b.cells[i + m]? = some (some x)) →
    ∀ k : List α → Prog α β, sexec (derefLoop v i xs.length k) s = sexec (k xs) (s.lks h xs.length) := by
  induction xs with
  | nil => intro s b i _ _ k; rfl
  | cons x xs ih =>
    intro s b i hb hx k
    simp only [List.length_cons, derefLoop, Mem.lks]
    rw [vec_lock hv hb, run_read (sees_lk hb) (by simpa using hx 0 x (by simp))]
    obtain ⟨b2, h1, h2⟩ := blk_lk_cells hb h
    rw [ih _ b2 (i + 1) h1 (by
      intro m y hy
      have := hx (m + 1) y (by simpa using hy)
      rw [h2, show i + 1 + m = i + (m + 1) by omega]; exact this)]

theorem locks_lks {h : Nat} (n : Nat) : ∀ {s : Mem α} {l : Nat}, s.locks h = some l → (s.lks h n).locks h = some (l + n) := by
  induction n with
  | zero => intro s l hl; exact hl
  | succ n ih => intro s l hl; rw [Mem.lks, ih (locks_lk hl)]; congr 1; omega

/-- **Violation.**  Going once through an array of `n ≥ 2` elements reads them all and leaves the memory locked `n - 2` times. -/
theorem iterate_leaves_locked (lt : α → α → Bool) (esz n : Nat) (ops : List (Op α)) (hl : Spec.Legals lt (Spec.start n) ops) (mv : Sched) {m : Mem α}
    {vs : List Vec} {outs : List (Out α)} (h : exec mv (history lt esz ops (List.replicate n Vec.fresh) []) Mem.empty = some (m, vs, outs))
    {i : Nat} {v : Vec} {a : Spec.Arr α} (hv : vs[i]? = some v) (ha : (Spec.run lt (Spec.start n) ops).1[i]? = some a) (hh : a.had = true)
    (h2 : 2 ≤ a.xs.length) :
    ∃ m' x b, exec mv (iterate v fun xs => .ret xs) m = some (m', a.xs) ∧ v.handle = some x ∧ m'.blk x = some b ∧ b.locks = a.xs.length - 2 := by
  obtain ⟨s, hstep, r⟩ := reached lt esz n ops hl mv h
  have hsz := size_of_rep r hv ha
  obtain ⟨x, b, hs⟩ := has_of_rep r hv ha hh
  have hlk := locks_lks (s := s) (h := x) (l := 0) a.xs.length (by simp [Mem.locks, hs.blk, hs.locks])
  have hrun : sexec (iterate v fun xs : List α => .ret xs) s = some (((s.lks x a.xs.length).ul x).ul x, a.xs) := by
    simp only [iterate, hsz]
    rw [run_derefLoop hs.handle a.xs s b 0 hs.blk (by simpa using hs.cells), vec_unlock hs.handle hlk (by omega),
      vec_unlock hs.handle (locks_ul hlk) (by omega)]
    rfl
  obtain ⟨m', h3, h4⟩ := exec_of_sexec mv _ _ _ hstep _ _ hrun
  have h5 := locks_ul (locks_ul hlk)
  simp only [Mem.locks, Option.map_eq_some_iff] at h5
  obtain ⟨b1, h6, h7⟩ := h5
  obtain ⟨b2, h8, -, h9⟩ := h4.block h6
  exact ⟨m', x, b2, h3, hs.handle, h8, by omega⟩

/-- **Violation.**  Going through an empty array unlocks what is not locked. -/
theorem iterate_empty_ub (mv : Sched) {m : Mem α} {vs : List Vec} {st : List (Spec.Arr α)} (r : Spec.Rep m vs st) {i : Nat} {v : Vec} {a : Spec.Arr α}
    (hv : vs[i]? = some v) (ha : st[i]? = some a) (hx : a.xs = []) (k : List α → Prog α β) : exec mv (iterate v k) m = none := by
  have hsz := size_of_rep r hv ha
  simp only [iterate, hsz, hx, List.length_nil, derefLoop]
  rcases r.holds i v a hv ha with ⟨-, h2, -⟩ | ⟨h1, -⟩
  · subst h2; rfl
  · obtain ⟨h, b, hs⟩ := has_of_rep r hv ha h1
    simp only [Vec.unlock, hs.handle, exec]
    obtain ⟨b', h3, -, h4⟩ := blk_tick mv hs.blk
    rw [h3]
    simp only
    rw [if_pos (by rw [h4]; exact hs.locks)]

end Verif.Moving
