import Verif.Common.Mem

/-!
# C122: a variant or an expected shared with an interrupt handler

Modelled from `src/estd/internal/variant.h:276-361`, `src/estd/internal/variant/storage.h:420-520` and
`src/estd/expected.h:177-228`.  The alternatives are trivially copied; alternative `i` takes `w i` words, which the processor
loads and stores one at a time, first to last; the index (of an expected: `has_value_`) is one more.  The main program is cut
between any two of its accesses, the handler runs to its end.  One core; accesses are not reordered.

An `expected` is the variant with alternatives 0 (value) and 1 (error) that is never valueless: its `operator=` and its
`emplace` store what `assign` here stores (the flag also when it does not change: `assignFrom`).
-/
namespace Verif.Sum.Shared
open Verif

variable {β : Type}

/-- what someone who asks for the index and then looks at that alternative gets; `none`: valueless -/
abbrev Seen (β : Type) := Option (Nat × List β)

/-- `index_` and the storage, internal/variant.h:158, expected.h:64 -/
structure Var (β : Type) where
  tag : Option Nat
  cells : List β
  deriving DecidableEq, Repr

/-- `index()` and then `get_if`, internal/variant.h:345, or `has_value()` and then `value()` or `error()`, expected.h:230-254 -/
def Var.look (w : Nat → Nat) (x : Var β) : Seen β := x.tag.map fun i => (i, x.cells.take (w i))

/-- one store -/
inductive Store (β : Type) where
  | word (k : Nat) (b : β)
  | tag (t : Option Nat)
  deriving DecidableEq, Repr

/-- a store into `index_` or into the storage, internal/variant.h:158 -/
def Var.put (x : Var β) : Store β → Var β
  | .word k b => { x with cells := x.cells.set k b }
  | .tag t => { x with tag := t }

/-- several stores, internal/variant.h:158 -/
def Var.puts (x : Var β) (l : List (Store β)) : Var β := l.foldl Var.put x

inductive Op (β : Type) where
  /-- `x = v`, `v` of alternative `i` -/
  | assign (i : Nat) (v : List β)
  /-- `x = y`, `y` holding `v` of alternative `i` -/
  | assignFrom (i : Nat) (v : List β)
  /-- `x.emplace<i>(v)` of a variant -/
  | emplace (i : Nat) (v : List β)
  /-- `x = y`, `y` valueless -/
  | clear
  deriving DecidableEq, Repr

/-- the words of a value, variant/storage.h:425, 444 -/
def wordsFrom (k : Nat) : List β → List (Store β)
  | [] => []
  | b :: v => .word k b :: wordsFrom (k + 1) v

/-- the stores of an operation on a variant whose index is `tag`: variant/storage.h:507-519 (called by variant.h:281);
variant.h:323, 339 (the functor has its own copy of the index, variant.h:106-107; expected.h:223-225); variant.h:351-358;
variant.h:315-316.  Destroying a trivial value stores nothing. -/
def stores (tag : Option Nat) : Op β → List (Store β)
  | .assign i v => wordsFrom 0 v ++ if tag = some i then [] else [.tag (some i)]
  | .assignFrom i v => wordsFrom 0 v ++ [.tag (some i)]
  | .emplace i v => .tag none :: (wordsFrom 0 v ++ [.tag (some i)])
  | .clear => [.tag none]

/-- what the variant is to hold after an operation -/
def Spec.target : Op β → Seen β
  | .assign i v | .assignFrom i v | .emplace i v => some (i, v)
  | .clear => none

/-! ## The main program writes, the handler looks -/

/-- what one look of the handler saw; what the operations complete by then had put there; and what the one under way, if any,
is to put there -/
structure Sight (β : Type) where
  last : Seen β
  coming : Option (Seen β)
  seen : Seen β
  deriving DecidableEq, Repr

/-- the variant and the stores the main program has still to do, internal/variant.h:276-361; for the statements: what it last
put there, what it is about to put there, what was seen -/
structure M (β : Type) where
  x : Var β
  todo : List (Store β)
  last : Seen β
  coming : Option (Seen β)
  log : List (Sight β)
  deriving DecidableEq, Repr

inductive Ev (β : Type) where
  | start (op : Op β)
  | tick
  /-- the handler looks -/
  | look
  deriving DecidableEq, Repr

/-- the bookkeeping when no store is left, internal/variant.h:276-361 -/
def M.settle (m : M β) : M β :=
  match m.todo, m.coming with
  | [], some t => { m with last := t, coming := none }
  | _, _ => m

/-- one event, internal/variant.h:276-361; an operation begins only after the last one -/
def step (w : Nat → Nat) (m : M β) : Ev β → M β
  | .start op => match m.todo with
    | [] => M.settle { m with todo := stores m.x.tag op, coming := some (Spec.target op) }
    | _ => m
  | .tick => match m.todo with
    | [] => m
    | s :: r => M.settle { m with x := m.x.put s, todo := r }
  | .look => { m with log := m.log ++ [⟨m.last, m.coming, m.x.look w⟩] }

/-- a schedule, internal/variant.h:276-361 -/
def run (w : Nat → Nat) (m : M β) (evs : List (Ev β)) : M β := evs.foldl (step w) m

/-- a variant that holds `v` of alternative `i` in storage of `cells`, internal/variant.h:218-223 -/
def M.holding (i : Nat) (cells : List β) (v : List β) : M β := ⟨⟨some i, v ++ cells.drop v.length⟩, [], some (i, v), none, []⟩

/-- what is seen is what was put last, or, while that is being replaced, nothing, or what replaces it -/
def Spec.Right (s : Sight β) : Prop :=
  s.seen = s.last ∨ ∃ t, s.coming = some t ∧ (s.seen = none ∨ s.seen = t)

/-- A careful program, given what the variant holds: it changes the alternative with `emplace`, and assigns only single words
of the alternative that is there.  Values are of the size of their alternative and fit. -/
def Spec.Careful (w : Nat → Nat) (cap : Nat) (last : Seen β) : Op β → Prop
  | .assign i v | .assignFrom i v => v.length = w i ∧ w i ≤ cap ∧ v.length ≤ 1 ∧ ∃ u, last = some (i, u)
  | .emplace i v => v.length = w i ∧ w i ≤ cap
  | .clear => True

/-- a schedule whose operations are careful -/
def Spec.CarefulRun (w : Nat → Nat) (cap : Nat) (m : M β) : List (Ev β) → Prop
  | [] => True
  | .start op :: r => (m.todo = [] → Spec.Careful w cap m.last op) ∧ Spec.CarefulRun w cap (step w m (.start op)) r
  | e :: r => Spec.CarefulRun w cap (step w m e) r

/-! ### Stores -/

theorem puts_words : ∀ (v : List β) (k : Nat) (x : Var β), k + v.length ≤ x.cells.length →
    x.puts (wordsFrom k v) = { x with cells := x.cells.take k ++ v ++ x.cells.drop (k + v.length) } := by
  intro v
  induction v with
  | nil => intro k x h; simp [wordsFrom, Var.puts]
  | cons b v ih =>
    intro k x h
    simp only [List.length_cons] at h
    show (x.put (.word k b)).puts (wordsFrom (k + 1) v) = _
    rw [ih (k + 1) (x.put (.word k b)) (by simp [Var.put]; omega)]
    have h1 : (x.cells.set k b).take (k + 1) = x.cells.take k ++ [b] := by
      rw [List.take_succ_eq_append_getElem (by simp; omega), List.take_set, List.getElem_set_self]
      rw [List.set_eq_of_length_le (by simp; omega)]
    have h2 : (x.cells.set k b).drop (k + 1 + v.length) = x.cells.drop (k + 1 + v.length) := by
      rw [List.drop_set_of_lt (by omega)]
    simp only [Var.put, h1, h2]
    simp only [List.append_assoc, List.singleton_append, List.cons_append, List.length_cons, List.nil_append]
    rw [show k + 1 + v.length = k + (v.length + 1) by omega]

theorem words_take (v : List β) : ∀ (k j : Nat), (wordsFrom k v).take j = wordsFrom k (v.take j) := by
  induction v with
  | nil => intro k j; simp [wordsFrom]
  | cons b v ih =>
    intro k j
    cases j with
    | zero => rfl
    | succ j => simp [wordsFrom, ih]

theorem words_length (v : List β) : ∀ k, (wordsFrom k v).length = v.length := by
  induction v with
  | nil => intro k; rfl
  | cons b v ih => intro k; simp [wordsFrom, ih]

/-- after the first `j` words of a value -/
theorem puts_take (v : List β) (j : Nat) (x : Var β) (h : v.length ≤ x.cells.length) :
    x.puts ((wordsFrom 0 v).take j) = { x with cells := v.take j ++ x.cells.drop (v.take j).length } := by
  rw [words_take, puts_words _ _ _ (by simp; omega)]
  simp

theorem puts_append (x : Var β) (a b : List (Store β)) : x.puts (a ++ b) = (x.puts a).puts b := by
  simp [Var.puts]

/-! ### Schedules -/

/-- after every number of the remaining stores the variant looks right, and after all of them it holds `t` -/
def Safe (w : Nat → Nat) (x : Var β) (todo : List (Store β)) (last t : Seen β) : Prop :=
  (∀ j, (x.puts (todo.take j)).look w = last ∨ (x.puts (todo.take j)).look w = none ∨ (x.puts (todo.take j)).look w = t) ∧
    (x.puts todo).look w = t

theorem safe_start (w : Nat → Nat) (x : Var β) (last : Seen β) (hl : x.look w = last) (op : Op β)
    (hc : Spec.Careful w x.cells.length last op) : Safe w x (stores x.tag op) last (Spec.target op) := by
  cases op with
  | clear =>
    refine ⟨fun j => ?_, rfl⟩
    cases j with
    | zero => exact Or.inl hl
    | succ j => exact Or.inr (Or.inl (by simp [stores, Var.puts, Var.put, Var.look]))
  | emplace i v =>
    obtain ⟨h1, h2⟩ := hc
    have hfull : (x.puts (stores x.tag (.emplace i v))).look w = some (i, v) := by
      show (((x.put (.tag none)).puts (wordsFrom 0 v ++ [Store.tag (some i)]))).look w = _
      rw [puts_append, puts_words _ _ _ (by simp [Var.put]; omega)]
      simp [Var.puts, Var.put, Var.look, ← h1]
    refine ⟨fun j => ?_, hfull⟩
    cases j with
    | zero => exact Or.inl hl
    | succ j =>
      by_cases hj : j ≤ v.length
      · refine Or.inr (Or.inl ?_)
        show ((x.put (.tag none)).puts ((wordsFrom 0 v ++ [Store.tag (some i)]).take j)).look w = none
        rw [List.take_append_of_le_length (by rw [words_length]; exact hj), puts_take _ _ _ (by simp [Var.put]; omega)]
        rfl
      · refine Or.inr (Or.inr ?_)
        rw [List.take_of_length_le (by simp [stores, words_length]; omega)]
        exact hfull
  | assign i v =>
    obtain ⟨h1, h2, h3, u, h4⟩ := hc
    have ht : x.tag = some i := by
      rw [h4] at hl
      unfold Var.look at hl
      cases e : x.tag with
      | none => simp [e] at hl
      | some k => simp [e] at hl; rw [hl.1]
    have hfull : (x.puts (stores x.tag (.assign i v))).look w = some (i, v) := by
      simp only [stores, if_pos ht, List.append_nil]
      rw [puts_words _ _ _ (by omega)]
      simp [Var.look, ht, ← h1]
    refine ⟨fun j => ?_, hfull⟩
    cases j with
    | zero => exact Or.inl hl
    | succ j =>
      refine Or.inr (Or.inr ?_)
      rw [List.take_of_length_le (by simp [stores, words_length, ht]; omega)]
      exact hfull
  | assignFrom i v =>
    obtain ⟨h1, h2, h3, u, h4⟩ := hc
    have ht : x.tag = some i := by
      rw [h4] at hl
      unfold Var.look at hl
      cases e : x.tag with
      | none => simp [e] at hl
      | some k => simp [e] at hl; rw [hl.1]
    have hwords : (x.puts (wordsFrom 0 v)).look w = some (i, v) := by
      rw [puts_words _ _ _ (by omega)]
      simp [Var.look, ht, ← h1]
    have hfull : (x.puts (stores x.tag (.assignFrom i v))).look w = some (i, v) := by
      simp only [stores]
      rw [puts_append, puts_words _ _ _ (by omega)]
      simp [Var.puts, Var.put, Var.look, ← h1]
    refine ⟨fun j => ?_, hfull⟩
    by_cases hj : j ≤ v.length
    · simp only [stores]
      rw [List.take_append_of_le_length (by rw [words_length]; exact hj)]
      rcases Nat.eq_zero_or_pos j with e | hp
      · rw [e]; exact Or.inl hl
      · rw [List.take_of_length_le (by rw [words_length]; omega)]
        exact Or.inr (Or.inr hwords)
    · rw [List.take_of_length_le (by simp [stores, words_length]; omega)]
      exact Or.inr (Or.inr hfull)

theorem puts_size (x : Var β) (s : Store β) : (x.put s).cells.length = x.cells.length := by
  cases s <;> simp [Var.put]

/-- what holds between any two events -/
def Good (w : Nat → Nat) (cap : Nat) (m : M β) : Prop :=
  m.x.cells.length = cap ∧ (∀ s ∈ m.log, Spec.Right s) ∧
    match m.coming with
    | none => m.todo = [] ∧ m.x.look w = m.last
    | some t => m.todo ≠ [] ∧ Safe w m.x m.todo m.last t

theorem settle_good (w : Nat → Nat) (cap : Nat) (m : M β) (t : Seen β) (h1 : m.x.cells.length = cap) (h2 : ∀ s ∈ m.log, Spec.Right s)
    (h3 : m.coming = some t) (h4 : Safe w m.x m.todo m.last t) : Good w cap m.settle := by
  unfold M.settle
  cases e : m.todo with
  | nil =>
    rw [h3]
    refine ⟨h1, h2, rfl, ?_⟩
    have := h4.2
    rw [e] at this
    exact this
  | cons s r =>
    refine ⟨h1, h2, ?_⟩
    rw [h3]
    exact ⟨by rw [e]; simp, h4⟩

/-- **What a handler sees of a variant that is changed with care (partial).**  The main program changes a variant: the
alternative with `emplace`, and by assignment only a value of one word of the alternative that is there.  However the handler's
looks fall between its loads and stores, each sees what was put there last, or, while that is being replaced, a variant without
value, or the new value; never a mixture, and never one alternative's words under the other's index.  Between operations it
sees what was put there last.  Missing: assignments of another alternative (`assign_across`), which are all an `expected`
offers, and of several words (`assign_torn`). -/
theorem looks_partial (w : Nat → Nat) (i : Nat) (cells v : List β) (hv : v.length = w i) (hw : w i ≤ cells.length) (evs : List (Ev β))
    (hc : Spec.CarefulRun w cells.length (M.holding i cells v) evs) :
    ∀ s ∈ (run w (M.holding i cells v) evs).log, Spec.Right s ∧ (s.coming = none → s.seen = s.last) := by
  have key : ∀ (evs : List (Ev β)) (m : M β), Good w cells.length m → (∀ s ∈ m.log, s.coming = none → s.seen = s.last) →
      Spec.CarefulRun w cells.length m evs →
      Good w cells.length (run w m evs) ∧ ∀ s ∈ (run w m evs).log, s.coming = none → s.seen = s.last := by
    intro evs
    induction evs with
    | nil => intro m h hq _; exact ⟨h, hq⟩
    | cons e evs ih =>
      intro m h hq hc
      rw [show run w m (e :: evs) = run w (step w m e) evs from rfl]
      have settle_log : ∀ m : M β, m.settle.log = m.log := by
        intro m; unfold M.settle; split <;> rfl
      cases e with
      | start op =>
        refine ih _ ?_ ?_ hc.2
        · obtain ⟨g1, g2, g3⟩ := h
          cases ht : m.todo with
          | cons s r => unfold step; rw [ht]; exact ⟨g1, g2, by rw [ht] at g3; rw [ht]; exact g3⟩
          | nil =>
            cases hcm : m.coming with
            | some t => rw [hcm] at g3; exact absurd ht g3.1
            | none =>
              rw [hcm] at g3
              unfold step; rw [ht]
              refine settle_good w _ _ (Spec.target op) g1 g2 rfl ?_
              exact safe_start w m.x m.last g3.2 op (by rw [g1]; exact hc.1 ht)
        · simp only [step]
          split
          · rw [settle_log]; exact hq
          · exact hq
      | tick =>
        refine ih _ ?_ ?_ hc
        · obtain ⟨g1, g2, g3⟩ := h
          cases ht : m.todo with
          | nil => unfold step; rw [ht]; exact ⟨g1, g2, by rw [ht] at g3; rw [ht]; exact g3⟩
          | cons s r =>
            cases hcm : m.coming with
            | none => rw [hcm] at g3; rw [ht] at g3; simp at g3
            | some t =>
              rw [hcm] at g3
              unfold step; rw [ht]
              refine settle_good w _ _ t (by simp [puts_size, g1]) g2 hcm ?_
              have hs := g3.2
              rw [ht] at hs
              exact ⟨fun j => hs.1 (j + 1), hs.2⟩
        · simp only [step]
          split
          · exact hq
          · rw [settle_log]; exact hq
      | look =>
        refine ih _ ?_ ?_ hc
        · obtain ⟨g1, g2, g3⟩ := h
          refine ⟨g1, ?_, g3⟩
          intro s hs
          rcases List.mem_append.mp hs with hs | hs
          · exact g2 s hs
          · rw [List.mem_singleton.mp hs]
            cases hcm : m.coming with
            | none => rw [hcm] at g3; exact Or.inl g3.2
            | some t =>
              rw [hcm] at g3
              rcases g3.2.1 0 with e | e
              · exact Or.inl e
              · exact Or.inr ⟨t, rfl, e⟩
        · intro s hs
          rcases List.mem_append.mp hs with hs | hs
          · exact hq s hs
          · rw [List.mem_singleton.mp hs]
            intro hcm
            have := h.2.2
            have hcm : m.coming = none := hcm
            rw [hcm] at this
            exact this.2
  obtain ⟨h1, h2⟩ := key evs (M.holding i cells v)
    ⟨by simp [M.holding]; omega, by simp [M.holding], rfl, by simp [M.holding, Var.look, ← hv]⟩ (by simp [M.holding]) hc
  exact fun s hs => ⟨h1.2.1 s hs, h2 s hs⟩

/-- two alternatives, of one and of two words -/
def sampleW (i : Nat) : Nat := i + 1

def sample : List (Ev Nat) :=
  [.look, .start (.emplace 1 [7, 8]), .look, .tick, .look, .tick, .look, .tick, .tick, .look, .start .clear, .tick, .look,
   .start (.emplace 0 [5]), .tick, .tick, .tick, .look, .start (.assign 0 [6]), .look, .tick, .look]

example : Spec.CarefulRun sampleW 2 (M.holding 0 [0, 0] [4]) sample := by
  simp [Spec.CarefulRun, sample, M.holding, step, stores, wordsFrom, M.settle, Var.put, Spec.Careful, Spec.target, sampleW]

example : (run sampleW (M.holding 0 [0, 0] [4]) sample).log.map (·.seen) =
    [some (0, [4]), some (0, [4]), none, none, some (1, [7, 8]), none, some (0, [5]), some (0, [5]), some (0, [6])] := by
  decide +kernel

theorem run_ticks (w : Nat → Nat) : ∀ (j : Nat) (m : M β), j < m.todo.length →
    run w m (List.replicate j .tick) = { m with x := m.x.puts (m.todo.take j), todo := m.todo.drop j } := by
  intro j
  induction j with
  | zero => intro m _; simp [run, Var.puts]
  | succ j ih =>
    intro m h
    obtain ⟨x, todo, last, coming, log⟩ := m
    cases todo with
    | nil => simp at h
    | cons s r =>
      cases r with
      | nil => simp at h
      | cons s' r =>
        rw [show run w ⟨x, s :: s' :: r, last, coming, log⟩ (List.replicate (j + 1) .tick) =
          run w ⟨x.put s, s' :: r, last, coming, log⟩ (List.replicate j .tick) from rfl]
        rw [ih _ (by simpa using h)]
        rfl

/-- **Violation.**  Assigning another alternative stores the words first and the index last.  In between, the handler sees the
old index over the new words: whatever variant (or expected) holds `u` of alternative `k`, and whatever `v` of another
alternative `i` it is assigned, a look just before the index is stored sees, as alternative `k`, the words of `v` (and behind
them, if `v` is shorter, what is left of `u`). -/
theorem assign_across (w : Nat → Nat) (k i : Nat) (hki : k ≠ i) (cells u v : List β) (hu : u.length = w k) (hv : v.length = w i)
    (hk : w k ≤ cells.length) (hi : w i ≤ cells.length) :
    (run w (M.holding k cells u) (.start (.assign i v) :: List.replicate v.length .tick ++ [.look])).log =
      [⟨some (k, u), some (some (i, v)), some (k, (v ++ u.drop v.length ++ cells.drop (max u.length v.length)).take (w k))⟩] := by
  have h0 : step w (M.holding k cells u) (.start (.assign i v)) =
      ⟨⟨some k, u ++ cells.drop u.length⟩, wordsFrom 0 v ++ [.tag (some i)], some (k, u), some (some (i, v)), []⟩ := by
    show M.settle ⟨⟨some k, u ++ cells.drop u.length⟩, wordsFrom 0 v ++ (if some k = some i then [] else [.tag (some i)]),
      some (k, u), some (some (i, v)), []⟩ = _
    rw [if_neg (by simpa using hki)]
    unfold M.settle
    cases h : wordsFrom 0 v ++ [Store.tag (some i)] with
    | nil => simp at h
    | cons s r => rfl
  rw [show run w (M.holding k cells u) (.start (.assign i v) :: List.replicate v.length .tick ++ [.look]) =
    step w (run w (step w (M.holding k cells u) (.start (.assign i v))) (List.replicate v.length .tick)) .look by
      simp [run, List.foldl_append]]
  rw [h0, run_ticks _ _ _ (by simp [words_length])]
  simp only [step, List.nil_append, Var.look]
  rw [List.take_append_of_le_length (by rw [words_length]; exact Nat.le_refl _), List.take_of_length_le (by rw [words_length]; exact Nat.le_refl _),
    puts_words _ _ _ (by simp; omega)]
  simp only [Option.map_some, List.take_zero, List.nil_append, Nat.zero_add]
  rw [List.drop_append, List.drop_drop, List.append_assoc, show u.length + (v.length - u.length) = max u.length v.length by omega]

/-- the value 1 of an expected, taken over by the error 9: seen as the value 9 -/
example : (run (fun _ => 1) (M.holding 0 [0] [1]) (.start (.assign 1 [9]) :: List.replicate 1 .tick ++ [.look])).log =
    [⟨some (0, [1]), some (some (1, [9])), some (0, [9])⟩] := by decide +kernel

/-- **Violation.**  Assigning a value of several words over one of the same alternative: after `j` of the words the handler sees
`j` new words and the rest old. -/
theorem assign_torn (w : Nat → Nat) (i : Nat) (cells u v : List β) (hu : u.length = w i) (hv : v.length = w i)
    (hw : w i ≤ cells.length) (j : Nat) (hj : j < w i) :
    (run w (M.holding i cells u) (.start (.assign i v) :: List.replicate j .tick ++ [.look])).log =
      [⟨some (i, u), some (some (i, v)), some (i, v.take j ++ u.drop j)⟩] := by
  have h0 : step w (M.holding i cells u) (.start (.assign i v)) =
      ⟨⟨some i, u ++ cells.drop u.length⟩, wordsFrom 0 v, some (i, u), some (some (i, v)), []⟩ := by
    show M.settle ⟨⟨some i, u ++ cells.drop u.length⟩, wordsFrom 0 v ++ (if some i = some i then [] else [.tag (some i)]),
      some (i, u), some (some (i, v)), []⟩ = _
    rw [if_pos rfl, List.append_nil]
    unfold M.settle
    cases v with
    | nil => simp at hv; omega
    | cons b v => rfl
  rw [show run w (M.holding i cells u) (.start (.assign i v) :: List.replicate j .tick ++ [.look]) =
    step w (run w (step w (M.holding i cells u) (.start (.assign i v))) (List.replicate j .tick)) .look by
      simp [run, List.foldl_append]]
  rw [h0, run_ticks _ _ _ (by simp [words_length]; omega)]
  simp only [step, List.nil_append, Var.look]
  rw [puts_take _ _ _ (by simp; omega)]
  have hlen : (v.take j).length = j := by simp; omega
  simp only [Option.map_some, hlen]
  rw [List.drop_append_of_le_length (by omega), ← List.append_assoc, List.take_left' (by simp; omega)]

/-! ## The handler writes, the main program looks -/

/-- the main program's look: before the index, or after it and the words loaded so far; internal/variant.h:345 -/
inductive Pc (β : Type) where
  | idle
  | loading (i : Nat) (got : List β)
  deriving DecidableEq, Repr

/-- the variant, the look under way, and the looks that are done, each with what the variant held when it ended;
internal/variant.h:158, 345 -/
structure R (β : Type) where
  x : Var β
  pc : Pc β
  log : List (Seen β × Seen β)
  deriving DecidableEq, Repr

inductive In (β : Type) where
  /-- the main program's next load -/
  | load
  /-- the handler puts `v` of alternative `i`, in one of the ways of `Op` -/
  | put (i : Nat) (v : List β)
  deriving DecidableEq, Repr

/-- a look that has all its words is done, internal/variant.h:345 -/
def R.done (w : Nat → Nat) (r : R β) : R β :=
  match r.pc with
  | .loading i got => if w i ≤ got.length then { r with pc := .idle, log := r.log ++ [(some (i, got), r.x.look w)] } else r
  | .idle => r

/-- one event, internal/variant.h:276-361 -/
def rstep (w : Nat → Nat) (r : R β) : In β → R β
  | .load =>
    match r.pc with
    | .idle =>
      match r.x.tag with
      | none => { r with log := r.log ++ [(none, r.x.look w)] }
      | some i => R.done w { r with pc := .loading i [] }
    | .loading i got => R.done w { r with pc := .loading i (got ++ (r.x.cells[got.length]?).toList) }
  | .put i v => { r with x := ⟨some i, v ++ r.x.cells.drop v.length⟩ }

/-- a schedule, internal/variant.h:276-361 -/
def rrun (w : Nat → Nat) (r : R β) (evs : List (In β)) : R β := evs.foldl (rstep w) r

/-- the handler only puts values of alternative `i` -/
def Spec.Keeps (i : Nat) : In β → Prop
  | .load => True
  | .put j v => j = i ∧ v.length = 1

/-- **A variant that a handler writes (partial)**: while the handler puts values of one alternative only, of one word, every
look of the main program gets the value that is there when it ends.  Missing: a handler that changes the alternative
(`read_across`), and values of several words (`read_torn`). -/
theorem reads_partial (w : Nat → Nat) (i : Nat) (hw : w i = 1) (cells : List β) (hc : 1 ≤ cells.length) (evs : List (In β))
    (h : ∀ e ∈ evs, Spec.Keeps i e) :
    ∀ g ∈ (rrun w ⟨⟨some i, cells⟩, .idle, []⟩ evs).log, g.1 = g.2 := by
  have key : ∀ (evs : List (In β)) (r : R β), (∀ e ∈ evs, Spec.Keeps i e) → r.x.tag = some i → 1 ≤ r.x.cells.length →
      (∀ g ∈ r.log, g.1 = g.2) → (∀ k got, r.pc = .loading k got → k = i ∧ got = []) →
      ∀ g ∈ (rrun w r evs).log, g.1 = g.2 := by
    intro evs
    induction evs with
    | nil => intro r _ _ _ h3 _; exact h3
    | cons e evs ih =>
      intro r h h1 h2 h3 h4
      rw [show rrun w r (e :: evs) = rrun w (rstep w r e) evs from rfl]
      have h' : ∀ e ∈ evs, Spec.Keeps i e := fun e he => h e (by simp [he])
      obtain ⟨⟨tag, cs⟩, pc, log⟩ := r
      dsimp only at h1 h2 h3 h4
      subst h1
      cases e with
      | put j v =>
        obtain ⟨hj, hl⟩ := h (.put j v) (by simp)
        subst hj
        exact ih _ h' rfl (by simp [rstep]; omega) h3 h4
      | load =>
        cases pc with
        | idle =>
          have : rstep w ⟨⟨some i, cs⟩, .idle, log⟩ .load = ⟨⟨some i, cs⟩, .loading i [], log⟩ := by
            simp [rstep, R.done, hw]
          rw [this]
          refine ih _ h' rfl h2 h3 ?_
          intro k got he
          injection he with e1 e2
          exact ⟨e1.symm, e2.symm⟩
        | loading k got =>
          obtain ⟨e1, e2⟩ := h4 k got rfl
          subst e1 e2
          cases cs with
          | nil => simp at h2
          | cons b cs =>
            have : rstep w ⟨⟨some k, b :: cs⟩, .loading k [], log⟩ .load =
                ⟨⟨some k, b :: cs⟩, .idle, log ++ [(some (k, [b]), some (k, [b]))]⟩ := by
              simp [rstep, R.done, hw, Var.look]
            rw [this]
            refine ih _ h' rfl h2 ?_ (by intro k got he; cases he)
            intro g hg
            rcases List.mem_append.mp hg with hg | hg
            · exact h3 g hg
            · rw [List.mem_singleton.mp hg]
  exact key evs _ h rfl hc (by simp) (by intro k got he; cases he)

example : (rrun (fun _ => 1) ⟨⟨some 0, [3]⟩, .idle, []⟩ [.load, .put 0 [4], .load, .load, .load] : R Nat).log =
    [(some (0, [4]), some (0, [4])), (some (0, [4]), some (0, [4]))] := by decide +kernel

theorem rrun_loads (w : Nat → Nat) (x : Var β) (i : Nat) (log : List (Seen β × Seen β)) (hc : w i ≤ x.cells.length) :
    ∀ (n : Nat) (got : List β), got.length + n < w i →
      rrun w ⟨x, .loading i got, log⟩ (List.replicate n .load) = ⟨x, .loading i (got ++ (x.cells.drop got.length).take n), log⟩ := by
  intro n
  induction n with
  | zero => intro got _; simp [rrun]
  | succ n ih =>
    intro got h
    have hlt : got.length < x.cells.length := by omega
    have hs : rstep w ⟨x, .loading i got, log⟩ .load = ⟨x, .loading i (got ++ [x.cells[got.length]]), log⟩ := by
      simp only [rstep, List.getElem?_eq_getElem hlt, Option.toList, R.done]
      rw [if_neg (by simp; omega)]
    rw [show rrun w ⟨x, .loading i got, log⟩ (List.replicate (n + 1) .load) =
      rrun w (rstep w ⟨x, .loading i got, log⟩ .load) (List.replicate n .load) from rfl, hs, ih _ (by simp; omega)]
    rw [List.drop_eq_getElem_cons hlt, List.take_succ_cons]
    simp only [List.length_append, List.length_singleton, List.append_assoc, List.singleton_append]

/-- all the words of a look that is not interrupted any more -/
theorem rrun_rest (w : Nat → Nat) (x : Var β) (i : Nat) (log : List (Seen β × Seen β)) (hc : w i ≤ x.cells.length)
    (got : List β) (hg : got.length < w i) :
    (rrun w ⟨x, .loading i got, log⟩ (List.replicate (w i - got.length) .load)).log =
      log ++ [(some (i, got ++ (x.cells.take (w i)).drop got.length), x.look w)] := by
  obtain ⟨n, hn⟩ : ∃ n, w i - got.length = n + 1 := ⟨w i - got.length - 1, by omega⟩
  have hlt : got.length + n < x.cells.length := by omega
  rw [hn, List.replicate_succ', show rrun w ⟨x, .loading i got, log⟩ (List.replicate n .load ++ [.load]) =
    rstep w (rrun w ⟨x, .loading i got, log⟩ (List.replicate n .load)) .load by simp [rrun, List.foldl_append],
    rrun_loads w x i log hc n got (by omega)]
  have hl : (got ++ (x.cells.drop got.length).take n).length = got.length + n := by simp; omega
  simp only [rstep, hl, List.getElem?_eq_getElem hlt, Option.toList, R.done]
  rw [if_pos (by simp only [List.length_append, List.length_singleton] at hl ⊢; omega)]
  simp only [List.append_assoc]
  congr 5
  rw [show w i = got.length + (n + 1) by omega, List.drop_take, Nat.add_sub_cancel_left, List.take_succ_eq_append_getElem (by simp; omega)]
  simp

/-- **Violation.**  The index is loaded first: if the handler then puts `v` of any other alternative, the look gets the words
of `v`, as far as they go, as the alternative that was there before. -/
theorem read_across (w : Nat → Nat) (i k : Nat) (cells v : List β) (hi : 0 < w i) (hc : w i ≤ cells.length) (hv : v.length = w k) :
    (rrun w ⟨⟨some i, cells⟩, .idle, []⟩ (.load :: .put k v :: List.replicate (w i) .load)).log =
      [(some (i, (v ++ cells.drop v.length).take (w i)), some (k, v))] := by
  have h1 : rstep w ⟨⟨some i, cells⟩, .idle, []⟩ .load = ⟨⟨some i, cells⟩, .loading i [], []⟩ := by
    simp only [rstep, R.done]
    rw [if_neg (by simp; omega)]
  rw [show rrun w ⟨⟨some i, cells⟩, .idle, []⟩ (.load :: .put k v :: List.replicate (w i) .load) =
    rrun w (rstep w (rstep w ⟨⟨some i, cells⟩, .idle, []⟩ .load) (.put k v)) (List.replicate (w i) .load) from rfl, h1]
  have := rrun_rest w ⟨some k, v ++ cells.drop v.length⟩ i [] (by simp; omega) [] (by simpa using hi)
  simp only [List.length_nil, Nat.sub_zero, List.nil_append, List.drop_zero] at this
  simp only [rstep]
  rw [this]
  simp [Var.look, ← hv]

/-- a value that became an error: the error 9 is taken for the value -/
example : (rrun (fun _ => 1) ⟨⟨some 0, [3]⟩, .idle, []⟩ [.load, .put 1 [9], .load] : R Nat).log =
    [(some (0, [9]), some (1, [9]))] := by decide +kernel

/-- **Violation.**  If the handler puts a new value of the same alternative after `j` of its words were loaded, the look gets
`j` old words and the rest new. -/
theorem read_torn (w : Nat → Nat) (i : Nat) (cells u v : List β) (hu : u.length = w i) (hv : v.length = w i) (j : Nat) (hj : j < w i) :
    (rrun w ⟨⟨some i, u ++ cells⟩, .idle, []⟩ (.load :: List.replicate j .load ++ .put i v :: List.replicate (w i - j) .load)).log =
      [(some (i, u.take j ++ v.drop j), some (i, v))] := by
  have h1 : rstep w ⟨⟨some i, u ++ cells⟩, .idle, []⟩ .load = ⟨⟨some i, u ++ cells⟩, .loading i [], []⟩ := by
    simp only [rstep, R.done]
    rw [if_neg (by simp; omega)]
  rw [show rrun w ⟨⟨some i, u ++ cells⟩, .idle, []⟩ (.load :: List.replicate j .load ++ .put i v :: List.replicate (w i - j) .load) =
    rrun w (rstep w (rrun w (rstep w ⟨⟨some i, u ++ cells⟩, .idle, []⟩ .load) (List.replicate j .load)) (.put i v))
      (List.replicate (w i - j) .load) by simp [rrun, List.foldl_append]]
  rw [h1, rrun_loads w _ i _ (by simp; omega) j [] (by simpa using hj)]
  have ht : ([] ++ ((u ++ cells).drop ([] : List β).length).take j) = u.take j := by
    simp [List.take_append_of_le_length (show j ≤ u.length by omega)]
  have hlen : (u.take j).length = j := by simp; omega
  have hx : (rstep w ⟨⟨some i, u ++ cells⟩, .loading i ([] ++ ((u ++ cells).drop ([] : List β).length).take j), []⟩ (.put i v)) =
      ⟨⟨some i, v ++ cells⟩, .loading i (u.take j), []⟩ := by
    rw [ht]
    simp only [rstep]
    rw [show v.length = u.length by omega, List.drop_left]
  rw [hx]
  have := rrun_rest w ⟨some i, v ++ cells⟩ i [] (by simp; omega) (u.take j) (by rw [hlen]; exact hj)
  rw [hlen] at this
  rw [this]
  simp [Var.look, ← hv]

end Verif.Sum.Shared
