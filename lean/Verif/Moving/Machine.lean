import Verif.Common.Mem
/-!
# Memory that moves while it is not locked

`traits/allocator_traits.h:143-206`: an allocator with the locking tag hands out handles.  Memory is reached by `lock`,
which gives a pointer, and given back by `unlock`; in between the allocator keeps the block where it is.  The allocator
itself is the caller's (the library comes with none that moves blocks, internal/container/iterator.h:200-201), so it is
modelled by what it may do: move any block that is not locked, at any time.

A program is what the library does with such memory, one access after the other; what comes next may depend on what was
read.  Pointers are opaque to it: the `n`th lock of the run gives pointer `n`.
-/
namespace Verif.Moving

variable {α β : Type}

/-- a program over such memory, with a result -/
inductive Prog (α β : Type) where
  /-- the end -/
  | ret (b : β)
  /-- undefined behaviour -/
  | undef
  /-- `allocator_traits::lock(a, h)` and `clock`, traits/allocator_traits.h:167-185 -/
  | lock (h : Nat) (k : Nat → Prog α β)
  /-- `allocator_traits::unlock(a, h)` and `cunlock`, traits/allocator_traits.h:187-195 -/
  | unlock (h : Nat) (k : Prog α β)
  /-- `p[i]`; reading a cell never written is undefined -/
  | read (p i : Nat) (k : α → Prog α β)
  /-- `p[i] = x` -/
  | write (p i : Nat) (x : α) (k : Prog α β)
  /-- `allocate(n)`, traits/allocator_traits.h:360-363, here always granted (refusals: C72) -/
  | alloc (n : Nat) (k : Nat → Prog α β)
  /-- `reallocate(h, n)`, impl/handle_desc.h:255-259: the block is given up for one that keeps the common part -/
  | realloc (h n : Nat) (k : Nat → Prog α β)

/-- a block of memory, its cells (`none`: never written), how often it is locked, and where it is -/
structure Block (α : Type) where
  cells : List (Option α)
  locks : Nat
  place : Nat

/-- function update -/
def upd {γ : Type} (f : Nat → γ) (i : Nat) (v : γ) : Nat → γ := fun j => if j = i then v else f j

/-- the memory: blocks by handle, the handles given out so far, and for each pointer the handle and place it was made for -/
structure Mem (α : Type) where
  blk : Nat → Option (Block α)
  handles : Nat
  ptr : Nat → Option (Nat × Nat)
  ptrs : Nat
  time : Nat

/-- nothing allocated -/
def Mem.empty : Mem α := ⟨fun _ => none, 0, fun _ => none, 0, 0⟩

/-- A schedule: which handles the allocator wants to move when. -/
abbrev Sched := Nat → Nat → Bool

/-- the allocator moves the blocks it wants to, except those that are locked -/
def Mem.tick (mv : Sched) (m : Mem α) : Mem α :=
  { m with
    time := m.time + 1
    blk := fun h => (m.blk h).map fun b => if b.locks = 0 ∧ mv m.time h then { b with place := b.place + 1 } else b }

/-- the block a pointer leads to: only if it still is where it was -/
def Mem.target (m : Mem α) (p : Nat) : Option (Nat × Block α) :=
  match m.ptr p with
  | none => none
  | some (h, place) =>
    match m.blk h with
    | none => none
    | some b => if b.place = place then some (h, b) else none

/-- what is left of the cells of a block, resized to `n` -/
def resized (c : List (Option α)) (n : Nat) : List (Option α) := c.take n ++ List.replicate (n - c.length) none

/-- running a program under a schedule; before every step the allocator may move things.  `none` is undefined behaviour:
a pointer to a place the block has left, a cell outside the block, unlocking what is not locked, giving up a block that
is locked. -/
def exec (mv : Sched) : Prog α β → Mem α → Option (Mem α × β)
  | .ret b, m => some (m, b)
  | .undef, _ => none
  | .lock h k, m =>
    let m := m.tick mv
    match m.blk h with
    | none => none
    | some b => exec mv (k m.ptrs)
        { m with blk := upd m.blk h (some { b with locks := b.locks + 1 }), ptr := upd m.ptr m.ptrs (some (h, b.place)), ptrs := m.ptrs + 1 }
  | .unlock h k, m =>
    let m := m.tick mv
    match m.blk h with
    | none => none
    | some b => if b.locks = 0 then none else exec mv k { m with blk := upd m.blk h (some { b with locks := b.locks - 1 }) }
  | .read p i k, m =>
    let m := m.tick mv
    match m.target p with
    | none => none
    | some (_, b) =>
      match b.cells[i]? with
      | some (some x) => exec mv (k x) m
      | _ => none
  | .write p i x k, m =>
    let m := m.tick mv
    match m.target p with
    | none => none
    | some (h, b) =>
      if i < b.cells.length then exec mv k { m with blk := upd m.blk h (some { b with cells := b.cells.set i (some x) }) } else none
  | .alloc n k, m =>
    let m := m.tick mv
    exec mv (k m.handles) { m with blk := upd m.blk m.handles (some ⟨List.replicate n none, 0, 0⟩), handles := m.handles + 1 }
  | .realloc h n k, m =>
    let m := m.tick mv
    match m.blk h with
    | none => none
    | some b =>
      if b.locks = 0 then
        exec mv (k m.handles) { m with blk := upd (upd m.blk h none) m.handles (some ⟨resized b.cells n, 0, 0⟩), handles := m.handles + 1 }
      else none

/-! ## The same without a schedule

A second machine forgets where blocks are.  A pointer is good until the block's last lock is released.  Programs that are
defined on it are defined under every schedule, with the same results. -/

/-- running a program where the place of a block changes exactly when its last lock is released -/
def sexec : Prog α β → Mem α → Option (Mem α × β)
  | .ret b, m => some (m, b)
  | .undef, _ => none
  | .lock h k, m =>
    match m.blk h with
    | none => none
    | some b => sexec (k m.ptrs)
        { m with blk := upd m.blk h (some { b with locks := b.locks + 1 }), ptr := upd m.ptr m.ptrs (some (h, b.place)), ptrs := m.ptrs + 1 }
  | .unlock h k, m =>
    match m.blk h with
    | none => none
    | some b =>
      if b.locks = 0 then none
      else sexec k { m with blk := upd m.blk h (some ⟨b.cells, b.locks - 1, if b.locks = 1 then b.place + 1 else b.place⟩) }
  | .read p i k, m =>
    match m.target p with
    | none => none
    | some (_, b) =>
      match b.cells[i]? with
      | some (some x) => sexec (k x) m
      | _ => none
  | .write p i x k, m =>
    match m.target p with
    | none => none
    | some (h, b) =>
      if i < b.cells.length then sexec k { m with blk := upd m.blk h (some { b with cells := b.cells.set i (some x) }) } else none
  | .alloc n k, m =>
    sexec (k m.handles) { m with blk := upd m.blk m.handles (some ⟨List.replicate n none, 0, 0⟩), handles := m.handles + 1 }
  | .realloc h n k, m =>
    match m.blk h with
    | none => none
    | some b =>
      if b.locks = 0 then
        sexec (k m.handles) { m with blk := upd (upd m.blk h none) m.handles (some ⟨resized b.cells n, 0, 0⟩), handles := m.handles + 1 }
      else none

/-- the two machines in step: same blocks, contents and locks; pointers good on the second are good on the first -/
structure Step (s m : Mem α) : Prop where
  handles : s.handles = m.handles
  ptrs : s.ptrs = m.ptrs
  none : ∀ h, s.blk h = none ↔ m.blk h = none
  some : ∀ h a b, s.blk h = some a → m.blk h = some b → a.cells = b.cells ∧ a.locks = b.locks
  /-- handles not given out yet have no block, and no pointer leads to one -/
  fresh : ∀ h, s.handles ≤ h → s.blk h = .none
  ptrNone : ∀ p, s.ptr p = .none ↔ m.ptr p = .none
  ptrFresh : ∀ p h e, s.ptr p = .some (h, e) → h < s.handles
  ptr : ∀ p h e h' e', s.ptr p = .some (h, e) → m.ptr p = .some (h', e') → h = h' ∧
    ∀ a b, s.blk h = .some a → m.blk h = .some b → e ≤ a.place ∧ (a.place = e → 0 < a.locks ∧ b.place = e')

theorem step_empty : Step (Mem.empty (α := α)) Mem.empty := by
  constructor <;> simp [Mem.empty]

theorem step_tick (mv : Sched) {s m : Mem α} (h : Step s m) : Step s (m.tick mv) := by
  constructor
  · exact h.handles
  · exact h.ptrs
  · intro x; simp [Mem.tick, h.none x]
  · intro x a b ha hb
    simp only [Mem.tick, Option.map_eq_some_iff] at hb
    obtain ⟨b', hb', rfl⟩ := hb
    have := h.some x a b' ha hb'
    split <;> simpa using this
  · exact h.fresh
  · exact h.ptrNone
  · exact h.ptrFresh
  · intro p x e x' e' h1 h2
    have h2' : m.ptr p = .some (x', e') := h2
    obtain ⟨rfl, h3⟩ := h.ptr p x e x' e' h1 h2'
    refine ⟨rfl, ?_⟩
    intro a b ha hb
    simp only [Mem.tick, Option.map_eq_some_iff] at hb
    obtain ⟨b', hb', rfl⟩ := hb
    obtain ⟨h4, h5⟩ := h3 a b' ha hb'
    refine ⟨h4, ?_⟩
    intro h6
    obtain ⟨h7, h8⟩ := h5 h6
    have h9 := (h.some x a b' ha hb').2
    refine ⟨h7, ?_⟩
    rw [if_neg (by omega)]; exact h8

/-- the block on the other machine -/
theorem Step.block {s m : Mem α} (h : Step s m) {x : Nat} {a : Block α} (ha : s.blk x = .some a) :
    ∃ b, m.blk x = .some b ∧ a.cells = b.cells ∧ a.locks = b.locks := by
  cases hb : m.blk x with
  | none => rw [← h.none] at hb; simp [hb] at ha
  | some b => exact ⟨b, rfl, h.some x a b ha hb⟩

theorem Step.target {s m : Mem α} (h : Step s m) {p x : Nat} {a : Block α} (ha : s.target p = .some (x, a)) :
    s.blk x = .some a ∧ ∃ b, m.target p = .some (x, b) ∧ m.blk x = .some b ∧ a.cells = b.cells ∧ a.locks = b.locks := by
  unfold Mem.target at ha
  split at ha
  · cases ha
  · rename_i x' e hp
    split at ha
    · cases ha
    · rename_i a' hx
      split at ha
      · rename_i he
        simp only [Option.some.injEq, Prod.mk.injEq] at ha
        obtain ⟨rfl, rfl⟩ := ha
        refine ⟨hx, ?_⟩
        obtain ⟨b, hb, hc, hl⟩ := h.block hx
        refine ⟨b, ?_, hb, hc, hl⟩
        cases hmp : m.ptr p with
        | none => rw [← h.ptrNone] at hmp; simp [hmp] at hp
        | some q =>
          obtain ⟨y, e'⟩ := q
          obtain ⟨rfl, h3⟩ := h.ptr p _ _ _ _ hp hmp
          have := (h3 _ _ hx hb).2 he
          simp [Mem.target, hmp, hb, this.2]
      · cases ha

theorem upd_same {γ : Type} (f : Nat → γ) (i : Nat) (v : γ) : upd f i v i = v := by simp [upd]
theorem upd_other {γ : Type} (f : Nat → γ) {i j : Nat} (v : γ) (h : j ≠ i) : upd f i v j = f j := by simp [upd, h]

theorem step_lock {s m : Mem α} (h : Step s m) {x : Nat} {a b : Block α} (ha : s.blk x = .some a) (hb : m.blk x = .some b) :
    Step { s with blk := upd s.blk x (.some { a with locks := a.locks + 1 }), ptr := upd s.ptr s.ptrs (.some (x, a.place)), ptrs := s.ptrs + 1 }
      { m with blk := upd m.blk x (.some { b with locks := b.locks + 1 }), ptr := upd m.ptr m.ptrs (.some (x, b.place)), ptrs := m.ptrs + 1 } := by
  have hab := h.some x a b ha hb
  constructor
  · exact h.handles
  · simp [h.ptrs]
  · intro y; by_cases e : y = x <;> simp [upd, e, h.none]
  · intro y a' b' h1 h2
    by_cases e : y = x
    · simp [upd, e] at h1 h2; subst h1 h2; simp [hab]
    · simp [upd, e] at h1 h2; exact h.some y a' b' h1 h2
  · intro y hy
    have := h.fresh y hy
    have hne : y ≠ x := by intro e; subst e; simp [ha] at this
    simp [upd, hne, this]
  · intro p
    by_cases e : p = s.ptrs
    · simp [upd, e, h.ptrs]
    · have : p ≠ m.ptrs := by rw [← h.ptrs]; exact e
      simp [upd, e, this, h.ptrNone]
  · intro p y e hp
    by_cases e2 : p = s.ptrs
    · simp [upd, e2] at hp
      obtain ⟨rfl, rfl⟩ := hp
      cases Nat.lt_or_ge x s.handles with
      | inl h => exact h
      | inr h' => have := h.fresh x h'; simp [ha] at this
    · simp [upd, e2] at hp; exact h.ptrFresh p y e hp
  · intro p y e y' e' h1 h2
    by_cases e2 : p = s.ptrs
    · subst e2
      rw [← h.ptrs] at h2
      simp only [upd, if_true, Option.some.injEq, Prod.mk.injEq] at h1 h2
      obtain ⟨rfl, rfl⟩ := h1; obtain ⟨rfl, rfl⟩ := h2
      refine ⟨rfl, ?_⟩
      intro a' b' h3 h4
      simp [upd] at h3 h4; subst h3 h4
      simp
    · have hm2 : p ≠ m.ptrs := by rw [← h.ptrs]; exact e2
      simp only [upd, e2, hm2, if_false] at h1 h2
      obtain ⟨rfl, h3⟩ := h.ptr p _ _ _ _ h1 h2
      refine ⟨rfl, ?_⟩
      intro a' b' h4 h5
      by_cases e3 : y = x
      · subst e3
        simp [upd] at h4 h5; subst h4 h5
        have := h3 a b ha hb
        exact ⟨this.1, fun q => ⟨by simp, (this.2 q).2⟩⟩
      · simp [upd, e3] at h4 h5
        exact h3 a' b' h4 h5

theorem step_unlock {s m : Mem α} (h : Step s m) {x : Nat} {a b : Block α} (ha : s.blk x = .some a) (hb : m.blk x = .some b)
    (hl : a.locks ≠ 0) :
    Step { s with blk := upd s.blk x (.some ⟨a.cells, a.locks - 1, if a.locks = 1 then a.place + 1 else a.place⟩) }
      { m with blk := upd m.blk x (.some { b with locks := b.locks - 1 }) } := by
  have hab := h.some x a b ha hb
  constructor
  · exact h.handles
  · exact h.ptrs
  · intro y; by_cases e : y = x <;> simp [upd, e, h.none]
  · intro y a' b' h1 h2
    by_cases e : y = x
    · simp [upd, e] at h1 h2; subst h1 h2; simp [hab]
    · simp [upd, e] at h1 h2; exact h.some y a' b' h1 h2
  · intro y hy
    have := h.fresh y hy
    have hne : y ≠ x := by intro e; subst e; simp [ha] at this
    simp [upd, hne, this]
  · exact h.ptrNone
  · exact h.ptrFresh
  · intro p y e y' e' h1 h2
    obtain ⟨rfl, h3⟩ := h.ptr p _ _ _ _ h1 h2
    refine ⟨rfl, ?_⟩
    intro a' b' h4 h5
    by_cases e3 : y = x
    · subst e3
      simp [upd] at h4 h5; subst h4 h5
      have := h3 a b ha hb
      by_cases e4 : a.locks = 1
      · simp only [e4, if_true]
        exact ⟨by omega, by intro q; omega⟩
      · simp only [e4, if_false]
        exact ⟨this.1, fun q => ⟨by omega, (this.2 q).2⟩⟩
    · simp [upd, e3] at h4 h5
      exact h3 a' b' h4 h5

theorem step_write {s m : Mem α} (h : Step s m) {x : Nat} {a b : Block α} (ha : s.blk x = .some a) (hb : m.blk x = .some b)
    (c : List (Option α)) :
    Step { s with blk := upd s.blk x (.some { a with cells := c }) } { m with blk := upd m.blk x (.some { b with cells := c }) } := by
  have hab := h.some x a b ha hb
  constructor
  · exact h.handles
  · exact h.ptrs
  · intro y; by_cases e : y = x <;> simp [upd, e, h.none]
  · intro y a' b' h1 h2
    by_cases e : y = x
    · simp [upd, e] at h1 h2; subst h1 h2; simp [hab]
    · simp [upd, e] at h1 h2; exact h.some y a' b' h1 h2
  · intro y hy
    have := h.fresh y hy
    have hne : y ≠ x := by intro e; subst e; simp [ha] at this
    simp [upd, hne, this]
  · exact h.ptrNone
  · exact h.ptrFresh
  · intro p y e y' e' h1 h2
    obtain ⟨rfl, h3⟩ := h.ptr p _ _ _ _ h1 h2
    refine ⟨rfl, ?_⟩
    intro a' b' h4 h5
    by_cases e3 : y = x
    · subst e3
      simp [upd] at h4 h5; subst h4 h5
      exact h3 a b ha hb
    · simp [upd, e3] at h4 h5
      exact h3 a' b' h4 h5

theorem step_alloc {s m : Mem α} (h : Step s m) (c : List (Option α)) :
    Step { s with blk := upd s.blk s.handles (.some ⟨c, 0, 0⟩), handles := s.handles + 1 }
      { m with blk := upd m.blk m.handles (.some ⟨c, 0, 0⟩), handles := m.handles + 1 } := by
  have hh := h.handles
  constructor
  · simp [hh]
  · exact h.ptrs
  · intro y; rw [← hh]; by_cases e : y = s.handles <;> simp [upd, e, h.none]
  · intro y a' b' h1 h2
    rw [← hh] at h2
    by_cases e : y = s.handles
    · simp [upd, e] at h1 h2; subst h1 h2; simp
    · simp [upd, e] at h1 h2; exact h.some y a' b' h1 h2
  · intro y hy
    simp only at hy
    have := h.fresh y (by omega)
    simp [upd, show y ≠ s.handles by omega, this]
  · exact h.ptrNone
  · intro p y e hp; have := h.ptrFresh p y e hp; simp only; omega
  · intro p y e y' e' h1 h2
    obtain ⟨rfl, h3⟩ := h.ptr p _ _ _ _ h1 h2
    refine ⟨rfl, ?_⟩
    intro a' b' h4 h5
    have hlt := h.ptrFresh p _ _ h1
    rw [← hh] at h5
    simp [upd, show y ≠ s.handles by omega] at h4 h5
    exact h3 a' b' h4 h5

theorem step_free {s m : Mem α} (h : Step s m) (x : Nat) :
    Step { s with blk := upd s.blk x .none } { m with blk := upd m.blk x .none } := by
  constructor
  · exact h.handles
  · exact h.ptrs
  · intro y; by_cases e : y = x <;> simp [upd, e, h.none]
  · intro y a' b' h1 h2
    by_cases e : y = x
    · simp [upd, e] at h1
    · simp [upd, e] at h1 h2; exact h.some y a' b' h1 h2
  · intro y hy
    have := h.fresh y hy
    by_cases e : y = x <;> simp [upd, e, this]
  · exact h.ptrNone
  · exact h.ptrFresh
  · intro p y e y' e' h1 h2
    obtain ⟨rfl, h3⟩ := h.ptr p _ _ _ _ h1 h2
    refine ⟨rfl, ?_⟩
    intro a' b' h4 h5
    by_cases e3 : y = x
    · simp [upd, e3] at h4
    · simp [upd, e3] at h4 h5
      exact h3 a' b' h4 h5

/-- What is defined while pointers are used only under locks is defined under every schedule, with the same results. -/
theorem exec_of_sexec (mv : Sched) (p : Prog α β) : ∀ (s m : Mem α), Step s m → ∀ (s' : Mem α) (b : β), sexec p s = some (s', b) →
    ∃ m', exec mv p m = some (m', b) ∧ Step s' m' := by
  induction p with
  | ret b => intro s m h s' b' e; simp only [sexec, Option.some.injEq, Prod.mk.injEq] at e; obtain ⟨rfl, rfl⟩ := e; exact ⟨m, rfl, h⟩
  | undef => intro s m h s' b' e; cases e
  | lock x k ih =>
    intro s m h s' b' e
    simp only [sexec] at e
    split at e
    · cases e
    · rename_i a ha
      have ht := step_tick mv h
      obtain ⟨b, hb, -, -⟩ := ht.block ha
      simp only [exec, hb]
      rw [← ht.ptrs]
      have hs := step_lock ht ha hb
      rw [← ht.ptrs] at hs
      exact ih _ _ _ hs _ _ e
  | unlock x k ih =>
    intro s m h s' b' e
    simp only [sexec] at e
    split at e
    · cases e
    · rename_i a ha
      split at e
      · cases e
      · rename_i hl
        have ht := step_tick mv h
        obtain ⟨b, hb, -, hl2⟩ := ht.block ha
        simp only [exec, hb]
        rw [if_neg (by omega)]
        exact ih _ _ (step_unlock ht ha hb hl) _ _ e
  | read p i k ih =>
    intro s m h s' b' e
    simp only [sexec] at e
    split at e
    · cases e
    · rename_i x a ha
      have ht := step_tick mv h
      obtain ⟨hsx, b, hb, -, hc, -⟩ := ht.target ha
      split at e
      · rename_i v hv
        simp only [exec, hb, ← hc, hv]
        exact ih _ _ _ ht _ _ e
      · cases e
  | write p i x k ih =>
    intro s m h s' b' e
    simp only [sexec] at e
    split at e
    · cases e
    · rename_i y a ha
      have ht := step_tick mv h
      obtain ⟨hsx, b, hb, hmx, hc, -⟩ := ht.target ha
      split at e
      · rename_i hi
        simp only [exec, hb, ← hc]
        rw [if_pos hi]
        exact ih _ _ (step_write ht hsx hmx _) _ _ e
      · cases e
  | alloc n k ih =>
    intro s m h s' b' e
    simp only [sexec] at e
    have ht := step_tick mv h
    simp only [exec]
    have hs := step_alloc ht (List.replicate n none)
    rw [← ht.handles] at hs ⊢
    exact ih _ _ _ hs _ _ e
  | realloc x n k ih =>
    intro s m h s' b' e
    simp only [sexec] at e
    split at e
    · cases e
    · rename_i a ha
      split at e
      · rename_i hl
        have ht := step_tick mv h
        obtain ⟨b, hb, hc, hl2⟩ := ht.block ha
        simp only [exec, hb]
        rw [if_pos (by omega), ← hc]
        have hs := step_alloc (step_free ht x) (resized a.cells n)
        simp only at hs
        rw [← ht.handles] at hs ⊢
        exact ih _ _ _ hs _ _ e
      · cases e

end Verif.Moving
