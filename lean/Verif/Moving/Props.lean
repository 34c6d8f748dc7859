import Verif.Moving.Model
/-!
# C82: vectors and strings work in memory that moves, and leave nothing locked
-/
namespace Verif.Moving

variable {α β : Type} [DecidableEq α]

/-! ## Specification -/

/-- an array for its user: whether it ever had memory, and its elements -/
structure Spec.Arr (α : Type) where
  had : Bool
  xs : List α
  deriving DecidableEq, Repr

/-- lexicographic comparison after comparison by length -/
def Spec.compare (lt : α → α → Bool) (xs ys : List α) : Int :=
  if xs.length < ys.length then -1
  else if xs.length > ys.length then 1
  else
    match (xs.zip ys).find? fun p => lt p.1 p.2 || lt p.2 p.1 with
    | none => 0
    | some p => if lt p.1 p.2 then -1 else 1

/-- the first position from `pos` on whose element passes -/
def Spec.first (q : α → Bool) (xs : List α) (pos : Nat) : Option Nat :=
  ((List.range xs.length).filter fun i => decide (pos ≤ i) && (xs[i]?.any q)).head?

/-- what the arrays hold after a statement, and what it yields -/
def Spec.step (lt : α → α → Bool) (st : List (Spec.Arr α)) : Op α → List (Spec.Arr α) × Out α :=
  let at_ (i : Nat) : List α := ((st[i]?.map Spec.Arr.xs).getD [])
  let put (i : Nat) (xs : List α) : List (Spec.Arr α) × Out α := (st.set i ⟨true, xs⟩, .none)
  fun
  | .pushBack i x => put i (at_ i ++ [x])
  | .emplaceBack i x => put i (at_ i ++ [x])
  | .appendPtr i src => put i (at_ i ++ src)
  | .append i j => put i (at_ i ++ at_ j)
  | .assignPtr i src => put i src
  | .assign i j => put i (at_ j)
  | .insertPtr i pos src => put i ((at_ i).take pos ++ src ++ (at_ i).drop pos)
  | .insert i pos j => put i ((at_ i).take pos ++ at_ j ++ (at_ i).drop pos)
  | .erase i index count => put i ((at_ i).take index ++ (at_ i).drop (index + count))
  | .popBack i => put i (at_ i).dropLast
  | .resize i n => ((st[i]?.map fun a => st.set i ⟨a.had, a.xs.take n⟩).getD st, .none)
  | .reserve i _ => put i (at_ i)
  | .compare i j => (st, .int (Spec.compare lt (at_ i) (at_ j)))
  | .equal i j => (st, .bool (decide (at_ i = at_ j)))
  | .startsWith i j => (st, .bool (decide ((at_ j).length < (at_ i).length ∧ (at_ i).take (at_ j).length = at_ j)))
  | .endsWith i j => (st, .bool (decide ((at_ j).length ≤ (at_ i).length ∧ (at_ i).drop ((at_ i).length - (at_ j).length) = at_ j)))
  | .findCh i x pos => (st, .pos (Spec.first (· == x) (at_ i) pos))
  | .findFirstOf i s pos => (st, .pos (Spec.first s.contains (at_ i) pos))
  | .copyOut i count pos => (st, .text (((at_ i).drop pos).take count))
  | .print i => (st, .text (at_ i))

/-- Statements the property is about.  Arrays exist; positions are inside; sizes only go down by `resize`; an array is not
inserted into itself; and an array that never had memory is only given elements. -/
def Spec.Legal (st : List (Spec.Arr α)) : Op α → Prop
  | .pushBack i _ | .emplaceBack i _ => ∃ a, st[i]? = some a
  | .appendPtr i src | .assignPtr i src => ∃ a, st[i]? = some a ∧ (a.had = true ∨ src ≠ [])
  | .append i j | .assign i j => ∃ a b, st[i]? = some a ∧ st[j]? = some b ∧ b.had = true ∧ (a.had = true ∨ b.xs ≠ [])
  | .insertPtr i pos src => ∃ a, st[i]? = some a ∧ pos ≤ a.xs.length ∧ (a.had = true ∨ src ≠ [])
  | .insert i pos j => i ≠ j ∧ ∃ a b, st[i]? = some a ∧ st[j]? = some b ∧ pos ≤ a.xs.length ∧ b.had = true ∧ (a.had = true ∨ b.xs ≠ [])
  | .erase i index _ => ∃ a, st[i]? = some a ∧ a.had = true ∧ index ≤ a.xs.length
  | .popBack i => ∃ a, st[i]? = some a ∧ a.had = true ∧ a.xs ≠ []
  | .resize i n => ∃ a, st[i]? = some a ∧ n ≤ a.xs.length
  | .reserve i n => ∃ a, st[i]? = some a ∧ a.xs.length ≤ n
  | .compare i j => ∃ a b, st[i]? = some a ∧ st[j]? = some b ∧ b.had = true ∧ (a.had = true ∨ b.xs ≠ [])
  | .equal i j => ∃ a b, st[i]? = some a ∧ st[j]? = some b ∧ (a.xs.length ≠ b.xs.length ∨ a.had = true ∧ b.had = true)
  | .startsWith i j | .endsWith i j => ∃ a b, st[i]? = some a ∧ st[j]? = some b ∧ a.had = true ∧ b.had = true
  | .findCh i _ _ => ∃ a, st[i]? = some a ∧ a.had = true
  | .findFirstOf i _ pos => ∃ a, st[i]? = some a ∧ a.had = true ∧ pos ≤ a.xs.length
  | .copyOut i _ pos => ∃ a, st[i]? = some a ∧ a.had = true ∧ pos ≤ a.xs.length
  | .print i => ∃ a, st[i]? = some a ∧ a.had = true

/-- a history of such statements -/
def Spec.Legals (lt : α → α → Bool) : List (Spec.Arr α) → List (Op α) → Prop
  | _, [] => True
  | st, o :: os => Spec.Legal st o ∧ Spec.Legals lt (Spec.step lt st o).1 os

/-- the arrays and outputs of a history -/
def Spec.run (lt : α → α → Bool) : List (Spec.Arr α) → List (Op α) → List (Spec.Arr α) × List (Out α)
  | st, [] => (st, [])
  | st, o :: os => ((Spec.run lt (Spec.step lt st o).1 os).1, (Spec.step lt st o).2 :: (Spec.run lt (Spec.step lt st o).1 os).2)

/-- nothing is locked -/
def Spec.Unlocked (m : Mem α) : Prop := ∀ h b, m.blk h = some b → b.locks = 0

/-- the array's memory has the elements -/
def Spec.Holds (m : Mem α) (v : Vec) (a : Spec.Arr α) : Prop :=
  (a.had = false ∧ v = Vec.fresh ∧ a.xs = []) ∨
  (a.had = true ∧ ∃ h b, v.handle = some h ∧ m.blk h = some b ∧ b.cells.length = v.cap ∧ v.used = a.xs.length ∧ v.used ≤ v.cap ∧
    ∀ (i : Nat) (x : α), a.xs[i]? = some x → b.cells[i]? = some (some x))

/-- the arrays hold what they should, each in memory of its own -/
structure Spec.Rep (m : Mem α) (vs : List Vec) (st : List (Spec.Arr α)) : Prop where
  len : vs.length = st.length
  holds : ∀ (i : Nat) v a, vs[i]? = some v → st[i]? = some a → Spec.Holds m v a
  apart : ∀ (i j : Nat) v w h, vs[i]? = some v → vs[j]? = some w → v.handle = some h → w.handle = some h → i = j
  unlocked : Spec.Unlocked m
  fresh : ∀ h, m.handles ≤ h → m.blk h = none

/-! ## Single steps -/

/-- the memory after a lock -/
def Mem.lk (s : Mem α) (h : Nat) : Mem α :=
  { s with
    blk := upd s.blk h ((s.blk h).map fun b => { b with locks := b.locks + 1 })
    ptr := upd s.ptr s.ptrs ((s.blk h).map fun b => (h, b.place))
    ptrs := s.ptrs + 1 }

/-- the memory after an unlock -/
def Mem.ul (s : Mem α) (h : Nat) : Mem α :=
  { s with blk := upd s.blk h ((s.blk h).map fun b => ⟨b.cells, b.locks - 1, if b.locks = 1 then b.place + 1 else b.place⟩) }

/-- the memory with other cells in a block -/
def Mem.put (s : Mem α) (h : Nat) (c : List (Option α)) : Mem α :=
  { s with blk := upd s.blk h ((s.blk h).map fun b => { b with cells := c }) }

/-- pointer `p` leads to block `h`, whose cells are `c` -/
def Sees (s : Mem α) (p h : Nat) (c : List (Option α)) : Prop :=
  ∃ l e, s.ptr p = some (h, e) ∧ s.blk h = some ⟨c, l, e⟩

theorem run_lock {s : Mem α} {h : Nat} {b : Block α} (hb : s.blk h = some b) (k : Nat → Prog α β) :
    sexec (.lock h k) s = sexec (k s.ptrs) (s.lk h) := by
  simp [sexec, hb, Mem.lk]

theorem run_unlock {s : Mem α} {h : Nat} {b : Block α} (hb : s.blk h = some b) (hl : b.locks ≠ 0) (k : Prog α β) :
    sexec (.unlock h k) s = sexec k (s.ul h) := by
  simp [sexec, hb, Mem.ul, hl]

theorem run_read {s : Mem α} {p h i : Nat} {c : List (Option α)} {x : α} (hs : Sees s p h c) (hx : c[i]? = some (some x))
    (k : α → Prog α β) : sexec (.read p i k) s = sexec (k x) s := by
  obtain ⟨l, e, h1, h2⟩ := hs
  simp [sexec, Mem.target, h1, h2, hx]

theorem run_write {s : Mem α} {p h i : Nat} {c : List (Option α)} (hs : Sees s p h c) (hi : i < c.length) (x : α)
    (k : Prog α β) : sexec (.write p i x k) s = sexec k (s.put h (c.set i (some x))) := by
  obtain ⟨l, e, h1, h2⟩ := hs
  simp [sexec, Mem.target, h1, h2, hi, Mem.put]

theorem sees_put {s : Mem α} {p h : Nat} {c : List (Option α)} (hs : Sees s p h c) (c' : List (Option α)) : Sees (s.put h c') p h c' := by
  obtain ⟨l, e, h1, h2⟩ := hs
  exact ⟨l, e, h1, by simp [Mem.put, upd, h2]⟩

theorem sees_put_other {s : Mem α} {q h h' : Nat} {d : List (Option α)} (hs : Sees s q h' d) (hne : h' ≠ h) (c' : List (Option α)) :
    Sees (s.put h c') q h' d := by
  obtain ⟨l, e, h1, h2⟩ := hs
  exact ⟨l, e, h1, by simp [Mem.put, upd, hne, h2]⟩

theorem sees_lk {s : Mem α} {h : Nat} {b : Block α} (hb : s.blk h = some b) : Sees (s.lk h) s.ptrs h b.cells :=
  ⟨b.locks + 1, b.place, by simp [Mem.lk, upd, hb], by simp [Mem.lk, upd, hb]⟩

theorem sees_lk_keep {s : Mem α} {p h h' : Nat} {d : List (Option α)} (hs : Sees s p h' d) (hp : p ≠ s.ptrs) :
    Sees (s.lk h) p h' d := by
  obtain ⟨l, e, h1, h2⟩ := hs
  by_cases hh : h' = h
  · subst hh; exact ⟨l + 1, e, by simp [Mem.lk, upd, hp, h1], by simp [Mem.lk, upd, h2]⟩
  · exact ⟨l, e, by simp [Mem.lk, upd, hp, h1], by simp [Mem.lk, upd, hh, h2]⟩

theorem put_put (s : Mem α) (h : Nat) (c c' : List (Option α)) : (s.put h c).put h c' = s.put h c' := by
  simp only [Mem.put, Mem.mk.injEq, and_true]
  funext x
  by_cases e : x = h
  · subst e; cases s.blk x <;> simp [upd]
  · simp [upd, e]

theorem put_self {s : Mem α} {h : Nat} {b : Block α} (hb : s.blk h = some b) : s.put h b.cells = s := by
  cases s with
  | mk blk handles ptr ptrs time =>
    simp only [Mem.put, Mem.mk.injEq, and_true]
    simp only at hb
    funext x
    by_cases e : x = h
    · subst e; simp [upd, hb]
    · simp [upd, e]

theorem sees_put_self {s : Mem α} {p h : Nat} {c : List (Option α)} (hs : Sees s p h c) : s.put h c = s := by
  obtain ⟨l, e, h1, h2⟩ := hs
  exact put_self h2

/-! ## Loops -/

/-- cells with `xs` written from `i` on -/
def overwrite : List (Option α) → Nat → List α → List (Option α)
  | c, _, [] => c
  | c, i, x :: xs => overwrite (c.set i (some x)) (i + 1) xs

omit [DecidableEq α] in
theorem overwrite_length (xs : List α) : ∀ (c : List (Option α)) (i : Nat), (overwrite c i xs).length = c.length := by
  induction xs with
  | nil => intro c i; rfl
  | cons x xs ih => intro c i; simp [overwrite, ih]

omit [DecidableEq α] in
theorem overwrite_get (xs : List α) : ∀ (c : List (Option α)) (i m : Nat), i + xs.length ≤ c.length →
    (overwrite c i xs)[m]? = if i ≤ m ∧ m < i + xs.length then (xs[m - i]?).map some else c[m]? := by
  induction xs with
  | nil => intro c i m h; simp [overwrite]; omega
  | cons x xs ih =>
    intro c i m h
    simp only [List.length_cons] at h
    rw [overwrite, ih _ _ _ (by simp; omega)]
    by_cases h1 : i = m
    · subst h1
      rw [if_neg (by omega), if_pos (by simp)]
      simp only [Nat.sub_self, List.getElem?_cons_zero, Option.map_some]
      rw [List.getElem?_set_self (by omega)]
    · by_cases h2 : i + 1 ≤ m ∧ m < i + 1 + xs.length
      · rw [if_pos h2, if_pos (by simp; omega), show m - i = (m - (i + 1)) + 1 by omega, List.getElem?_cons_succ]
      · rw [if_neg h2, if_neg (by simp; omega), List.getElem?_set_ne (by omega)]

theorem run_writeAll {p h : Nat} (xs : List α) : ∀ (s : Mem α) (c : List (Option α)) (i : Nat), Sees s p h c → i + xs.length ≤ c.length →
    ∀ k : Prog α β, sexec (writeAll p i xs k) s = sexec k (s.put h (overwrite c i xs)) := by
  induction xs with
  | nil => intro s c i hs _ k; simp [writeAll, overwrite, sees_put_self hs]
  | cons x xs ih =>
    intro s c i hs hi k
    simp only [List.length_cons] at hi
    rw [writeAll, run_write hs (by omega), ih _ _ _ (sees_put hs _) (by simp; omega), put_put, overwrite]

theorem run_readAll {s : Mem α} {p h : Nat} {c : List (Option α)} (hs : Sees s p h c) (xs : List α) : ∀ (i : Nat),
    (∀ (m : Nat) x, xs[m]? = some x → c[i + m]? = some (some x)) →
    ∀ k : List α → Prog α β, sexec (readAll p i xs.length k) s = sexec (k xs) s := by
  induction xs with
  | nil => intro i _ k; rfl
  | cons x xs ih =>
    intro i hx k
    simp only [List.length_cons, readAll]
    rw [run_read hs (by simpa using hx 0 x (by simp)), ih (i + 1) (by
      intro m y hy
      have := hx (m + 1) y (by simpa using hy)
      rw [show i + 1 + m = i + (m + 1) by omega]; exact this)]

theorem run_copyUp {p q h h' : Nat} (xs : List α) : ∀ (s : Mem α) (c d : List (Option α)) (i j : Nat), Sees s p h c → Sees s q h' d →
    i + xs.length ≤ c.length → (h = h' → i ≤ j ∨ j + xs.length ≤ i) →
    (∀ (m : Nat) x, xs[m]? = some x → d[j + m]? = some (some x)) →
    ∀ k : Prog α β, sexec (copyUp p i q j xs.length k) s = sexec k (s.put h (overwrite c i xs)) := by
  induction xs with
  | nil => intro s c d i j hs _ _ _ _ k; simp [copyUp, overwrite, sees_put_self hs]
  | cons x xs ih =>
    intro s c d i j hs ht hi hh hx k
    simp only [List.length_cons] at hi hh
    simp only [List.length_cons, copyUp]
    rw [run_read ht (by simpa using hx 0 x (by simp)), run_write hs (by omega)]
    have hval : ∀ (m : Nat) y, xs[m]? = some y → d[j + 1 + m]? = some (some y) := by
      intro m y hy
      have := hx (m + 1) y (by simpa using hy)
      rw [show j + 1 + m = j + (m + 1) by omega]; exact this
    by_cases e : h = h'
    · subst e
      have hcd : c = d := by
        obtain ⟨l, e, h1, h2⟩ := hs; obtain ⟨l', e', h1', h2'⟩ := ht
        rw [h2] at h2'; simp at h2'; exact h2'.1
      subst hcd
      have htq : Sees (s.put h (c.set i (some x))) q h (c.set i (some x)) := sees_put ht _
      rw [ih _ _ _ _ _ (sees_put hs _) htq (by simp; omega) (by intro _; have := hh rfl; omega) (by
        intro m y hy
        have hm : m < xs.length := by
          rcases Nat.lt_or_ge m xs.length with h | h
          · exact h
          · rw [List.getElem?_eq_none h] at hy; cases hy
        have := hh rfl
        rw [List.getElem?_set_ne (by omega)]
        exact hval m y hy), put_put, overwrite]
    · rw [ih _ _ _ _ _ (sees_put hs _) (sees_put_other ht (Ne.symm e) _) (by simp; omega) (by intro e'; exact absurd e' e) hval,
        put_put, overwrite]

omit [DecidableEq α] in
theorem overwrite_snoc (x : α) (xs : List α) : ∀ (c : List (Option α)) (i : Nat), i + xs.length < c.length →
    overwrite (c.set (i + xs.length) (some x)) i xs = overwrite c i (xs ++ [x]) := by
  intro c i h
  apply List.ext_getElem?
  intro m
  rw [overwrite_get _ _ _ _ (by simp; omega), overwrite_get _ _ _ _ (by simp; omega)]
  by_cases h1 : i ≤ m ∧ m < i + xs.length
  · rw [if_pos h1, if_pos (by simp; omega), List.getElem?_append_left (by omega)]
  · rw [if_neg h1]
    by_cases h2 : m = i + xs.length
    · subst h2
      rw [List.getElem?_set_self h, if_pos (by simp), List.getElem?_append_right (by omega)]
      simp
    · rw [if_neg (by simp; omega), List.getElem?_set_ne (by omega)]

theorem run_copyDown {p h : Nat} (n : Nat) : ∀ (xs : List α) (s : Mem α) (c : List (Option α)) (i j : Nat), xs.length = n → Sees s p h c →
    i + xs.length ≤ c.length → j ≤ i →
    (∀ (m : Nat) x, xs[m]? = some x → c[j + m]? = some (some x)) →
    ∀ k : Prog α β, sexec (copyDown p i j n k) s = sexec k (s.put h (overwrite c i xs)) := by
  induction n with
  | zero =>
    intro xs s c i j hn hs _ _ _ k
    cases xs with
    | nil => simp [copyDown, overwrite, sees_put_self hs]
    | cons x xs => simp at hn
  | succ n ih =>
    intro xs s c i j hn hs hi hij hx k
    rcases List.eq_nil_or_concat xs with h0 | ⟨ys, x, rfl⟩
    · subst h0; simp at hn
    · rw [List.concat_eq_append] at *
      simp only [List.length_append, List.length_singleton] at hn hi
      have hlen : ys.length = n := by omega
      have hlast := hx n x (by rw [← hlen]; simp)
      simp only [copyDown]
      rw [run_read hs hlast, run_write hs (by omega), ih ys _ _ i j hlen (sees_put hs _) (by simp; omega) hij (by
        intro m y hy
        have hm : m < ys.length := by
          rcases Nat.lt_or_ge m ys.length with h | h
          · exact h
          · rw [List.getElem?_eq_none h] at hy; cases hy
        rw [List.getElem?_set_ne (by omega)]
        exact hx m y (by rw [List.getElem?_append_left hm]; exact hy)), put_put]
      rw [← hlen, overwrite_snoc _ _ _ _ (by omega)]

theorem run_eqLoop {s : Mem α} {p q h h' : Nat} {c d : List (Option α)} (hs : Sees s p h c) (ht : Sees s q h' d) (xs : List α) :
    ∀ (ys : List α) (i j : Nat), xs.length = ys.length → (∀ (m : Nat) x, xs[m]? = some x → c[i + m]? = some (some x)) →
    (∀ (m : Nat) x, ys[m]? = some x → d[j + m]? = some (some x)) →
    ∀ k : Bool → Prog α β, sexec (eqLoop p i q j xs.length k) s = sexec (k (decide (xs = ys))) s := by
  induction xs with
  | nil => intro ys i j hl _ _ k; cases ys with
    | nil => simp [eqLoop]
    | cons y ys => simp at hl
  | cons x xs ih =>
    intro ys i j hl hx hy k
    cases ys with
    | nil => simp at hl
    | cons y ys =>
      simp only [List.length_cons, eqLoop]
      rw [run_read hs (by simpa using hx 0 x (by simp)), run_read ht (by simpa using hy 0 y (by simp))]
      by_cases e : x = y
      · subst e
        simp only [ne_eq, not_true, if_false]
        rw [ih ys (i + 1) (j + 1) (by simpa using hl) (by
          intro m z hz
          have := hx (m + 1) z (by simpa using hz)
          rw [show i + 1 + m = i + (m + 1) by omega]; exact this) (by
          intro m z hz
          have := hy (m + 1) z (by simpa using hz)
          rw [show j + 1 + m = j + (m + 1) by omega]; exact this)]
        congr 2; simp
      · rw [if_pos e]; simp [e]

theorem run_cmpLoop (lt : α → α → Bool) {s : Mem α} {p q h h' : Nat} {c d : List (Option α)} (hs : Sees s p h c) (ht : Sees s q h' d)
    (xs : List α) : ∀ (ys : List α) (i : Nat), xs.length = ys.length → (∀ (m : Nat) x, xs[m]? = some x → c[i + m]? = some (some x)) →
    (∀ (m : Nat) x, ys[m]? = some x → d[i + m]? = some (some x)) →
    ∀ k : Int → Prog α β, sexec (cmpLoop lt p q i ys.length k) s = sexec (k (Spec.compare lt xs ys)) s := by
  induction xs with
  | nil => intro ys i hl _ _ k; cases ys with
    | nil => simp [cmpLoop, Spec.compare]
    | cons y ys => simp at hl
  | cons x xs ih =>
    intro ys i hl hx hy k
    cases ys with
    | nil => simp at hl
    | cons y ys =>
      simp only [List.length_cons, cmpLoop]
      have hl' : xs.length = ys.length := by simpa using hl
      rw [run_read hs (by simpa using hx 0 x (by simp)), run_read ht (by simpa using hy 0 y (by simp))]
      by_cases h1 : lt x y = true
      · simp [h1, Spec.compare, hl']
      · by_cases h2 : lt y x = true
        · simp [h1, h2, Spec.compare, hl']
        · simp only [h1, h2]
          simp only [Bool.false_eq_true, if_false]
          rw [ih ys (i + 1) hl' (by
            intro m z hz
            have := hx (m + 1) z (by simpa using hz)
            rw [show i + 1 + m = i + (m + 1) by omega]; exact this) (by
            intro m z hz
            have := hy (m + 1) z (by simpa using hz)
            rw [show i + 1 + m = i + (m + 1) by omega]; exact this)]
          congr 2; simp [Spec.compare, hl', h1, h2]

/-- looking for the first of some elements, counted from `i` -/
def firstIn (q : α → Bool) : Nat → List α → Option Nat
  | _, [] => none
  | i, x :: xs => if q x then some i else firstIn q (i + 1) xs

theorem run_firstOfLoop {s : Mem α} {p h : Nat} {c : List (Option α)} (hs : Sees s p h c) (set : List α) (xs : List α) : ∀ (i : Nat),
    (∀ (m : Nat) x, xs[m]? = some x → c[i + m]? = some (some x)) →
    ∀ k : Option Nat → Prog α β, sexec (firstOfLoop set p i xs.length k) s = sexec (k (firstIn set.contains i xs)) s := by
  induction xs with
  | nil => intro i _ k; rfl
  | cons x xs ih =>
    intro i hx k
    simp only [List.length_cons, firstOfLoop, firstIn]
    rw [run_read hs (by simpa using hx 0 x (by simp))]
    by_cases e : set.contains x = true
    · simp only [e, if_true]
    · simp only [e]
      rw [if_neg (by simp), if_neg (by simp)]
      exact ih (i + 1) (by
        intro m y hy
        have := hx (m + 1) y (by simpa using hy)
        rw [show i + 1 + m = i + (m + 1) by omega]; exact this) k

theorem run_findLoop (v : Vec) (t : α) {s : Mem α} {p h : Nat} {c : List (Option α)} (hs : Sees s p h c) (xs : List α) : ∀ (i : Nat),
    (∀ (m : Nat) x, xs[m]? = some x → c[i + m]? = some (some x)) →
    ∀ k : Option Nat → Prog α β, sexec (findLoop v t p i xs.length k) s = sexec (v.unlock (k (firstIn (· == t) i xs))) s := by
  induction xs with
  | nil => intro i _ k; rfl
  | cons x xs ih =>
    intro i hx k
    simp only [List.length_cons, findLoop, firstIn]
    rw [run_read hs (by simpa using hx 0 x (by simp))]
    by_cases e : x = t
    · simp only [e, if_true, beq_self_eq_true]
    · simp only [e, if_false]
      rw [if_neg (by simpa using e)]
      exact ih (i + 1) (by
        intro m y hy
        have := hx (m + 1) y (by simpa using hy)
        rw [show i + 1 + m = i + (m + 1) by omega]; exact this) k

end Verif.Moving
