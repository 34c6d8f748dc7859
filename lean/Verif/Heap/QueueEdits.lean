import Verif.Heap.PriorityQueue
/-!
# C94: editing and assigning priority queues

`push`, `emplace`, `emplace_with_notify`, `pop`, `erase`, `erase_if` and assignment in any order, on any number of queues
with comparators that have state.  Modelled from `src/estd/internal/priority_queue.h`; the heap algorithms and the
one-queue operations are those of `Verif.Heap` and `Verif.PriorityQueue`.  `none` is undefined behaviour.
-/
namespace Verif.PriorityQueue.Edits
open Verif Verif.Heap Verif.Heap.Spec Verif.Algorithm

variable {α : Type u} {γ : Type v}

/-! ## The model -/

/-- A queue: its comparator object (priority_queue.h:41-43, value_evaporator.h:85-105; an empty comparator class is made
afresh each time, value_evaporator.h:68-82, which is the case of `γ` with one element) and its contents
(priority_queue.h:46). -/
structure Q (γ : Type v) (α : Type u) where
  cmp : γ
  c : List α

/-- The member functions.  `erase` is given the index of the element the reference denotes. -/
inductive Edit (α : Type u) where
  | push (v : α)
  | emplace (v : α)
  | notify (v : α) (f : α → α)
  | pop
  | erase (i : Nat)
  | eraseIf (p : α → Bool)

inductive Op (α : Type u) where
  | on (q : Nat) (e : Edit α)
  | assign (dst src : Nat)

/-- What a call tells its caller; for `pop` the element `top()` denoted just before, for `erase` the one the argument
denoted. -/
inductive Out (α : Type u) where
  | unit
  | elem (x : α)
  | flag (b : Bool)
  deriving DecidableEq

/-- One call (priority_queue.h).
* `push`: 99-110.  * `emplace`: 134-139.  * `pop`: 125-129.  * `erase`: 165-182.  * `eraseIf`: 186-194.
* `notify`: `emplace_with_notify`, 148-156: the new element is the last of the container, `f` gets it by reference (here:
  leaves `f v` there), then it is moved into place and `c.back()` is returned. -/
def edit (comp : α → α → Bool) (cap : Nat) (c : List α) : Edit α → Option (List α × Out α)
  | .push v => (PriorityQueue.push comp cap c v).map fun c' => (c', .unit)
  | .emplace v => (PriorityQueue.emplace comp cap c v).map fun r => (r.1, .elem r.2)
  | .notify v f => (PriorityQueue.emplace comp cap c (f v)).map fun r => (r.1, .elem r.2)
  | .pop =>
    match top c, PriorityQueue.pop comp c with
    | some t, some c' => some (c', .elem t)
    | _, _ => none
  | .erase i =>
    match rd c i, PriorityQueue.erase comp c i with
    | some x, some c' => some (c', .elem x)
    | _, _ => none
  | .eraseIf p => (PriorityQueue.eraseIf comp c p).map fun r => (r.1, .flag r.2)

/-- All queues, by number. -/
abbrev State (γ : Type v) (α : Type u) := Nat → Q γ α

def State.set (s : State γ α) (q : Nat) (x : Q γ α) : State γ α := fun i => if i = q then x else s i

/-- One call on one of the queues.  `assign`: priority_queue.h:112-123, copy and move alike: `c = other.c;`, simplified to
elements that are copied; the comparator is not touched. -/
def step (comp : γ → α → α → Bool) (cap : Nat) (s : State γ α) : Op α → Option (State γ α × Out α)
  | .on q e => (edit (comp (s q).cmp) cap (s q).c e).map fun r => (s.set q ⟨(s q).cmp, r.1⟩, r.2)
  | .assign d r => some (s.set d ⟨(s d).cmp, (s r).c⟩, .unit)

/-! ## The specification -/

namespace Spec

/-- What the caller has to see to: room for a new element, an element to remove. -/
def Allowed (cap : Nat) (bag : List α) : Edit α → Prop
  | .push _ | .emplace _ | .notify _ _ => bag.length < cap
  | .pop => bag ≠ []
  | .erase i => i < bag.length
  | .eraseIf _ => True

/-- What the call does to the elements held, in whatever order they are kept. -/
def Effect (lt : α → α → Bool) (bag : List α) (e : Edit α) (out : Out α) (bag' : List α) : Prop :=
  match e with
  | .push v => out = .unit ∧ bag'.Perm (v :: bag)
  | .emplace v => bag'.Perm (v :: bag)
  | .notify v f => bag'.Perm (f v :: bag)
  | .pop => ∃ x, out = .elem x ∧ bag.Perm (x :: bag') ∧ ∀ y ∈ bag, lt x y = false
  | .erase i => ∃ x, bag[i]? = some x ∧ out = .elem x ∧ bag.Perm (x :: bag')
  | .eraseIf p =>
    (out = .flag false ∧ (∀ x ∈ bag, p x = false) ∧ bag' = bag) ∨
    (out = .flag true ∧ ∃ x, p x = true ∧ bag.Perm (x :: bag'))

/-- The one thing the code cannot do: remove the only element by `erase` or `erase_if`. -/
def RemovesOnly (bag : List α) : Edit α → Prop
  | .erase _ => bag.length = 1
  | .eraseIf p => ∃ x, bag = [x] ∧ p x = true
  | _ => False

end Spec

/-- The states a program can bring about from empty queues whose comparators all order alike, doing only what is allowed
and never what the code cannot do. -/
inductive Reach (comp : γ → α → α → Bool) (cap : Nat) (lt : α → α → Bool) : State γ α → Prop
  | init (s : State γ α) : (∀ q, comp (s q).cmp = lt) → (∀ q, (s q).c = []) → Reach comp cap lt s
  | on (s s' : State γ α) (q : Nat) (e : Edit α) (out : Out α) : Reach comp cap lt s → Spec.Allowed cap (s q).c e →
      ¬ Spec.RemovesOnly (s q).c e → step comp cap s (.on q e) = some (s', out) → Reach comp cap lt s'
  | assign (s s' : State γ α) (d r : Nat) (out : Out α) : Reach comp cap lt s →
      step comp cap s (.assign d r) = some (s', out) → Reach comp cap lt s'

/-! ## Proofs -/

theorem emplace_eq (comp : α → α → Bool) (cap : Nat) (c : List α) (v : α) (c' : List α)
    (h : PriorityQueue.push comp cap c v = some c') (hp : c'.Perm (v :: c)) :
    ∃ x, PriorityQueue.emplace comp cap c v = some (c', x) ∧ c'[c'.length - 1]? = some x := by
  have hl : c'.length - 1 < c'.length := by rw [hp.length_eq]; simp
  exact ⟨c'[c'.length - 1], by simp [PriorityQueue.emplace, h, rd_lt hl], by simp [hl]⟩

theorem edit_spec {comp : α → α → Bool} (hs : StrictWeak comp) (cap : Nat) (c : List α) (e : Edit α) (hi : Inv comp c)
    (ha : Spec.Allowed cap c e) (hr : ¬ Spec.RemovesOnly c e) :
    ∃ c' out, edit comp cap c e = some (c', out) ∧ Inv comp c' ∧ Spec.Effect comp c e out c' := by
  cases e with
  | push v =>
    obtain ⟨c', e1, e2, e3⟩ := push_spec hs cap c v hi ha
    exact ⟨c', .unit, by simp [edit, e1], e2, rfl, e3⟩
  | emplace v =>
    obtain ⟨c', e1, e2, e3⟩ := push_spec hs cap c v hi ha
    obtain ⟨x, a1, -⟩ := emplace_eq comp cap c v c' e1 e3
    exact ⟨c', .elem x, by simp [edit, a1], e2, e3⟩
  | notify v f =>
    obtain ⟨c', e1, e2, e3⟩ := push_spec hs cap c (f v) hi ha
    obtain ⟨x, a1, -⟩ := emplace_eq comp cap c (f v) c' e1 e3
    exact ⟨c', .elem x, by simp [edit, a1], e2, e3⟩
  | pop =>
    obtain ⟨t, c', e0, e1, e2, e3, e4⟩ := pop_spec hs c hi ha
    exact ⟨c', .elem t, by simp [edit, e0, e1], e2, t, rfl, e3, e4⟩
  | erase i =>
    have hi2 : i < c.length := ha
    have h1 : c.length ≠ 1 := hr
    obtain ⟨c', e1, e2, e3⟩ := erase_spec hs c i hi2 (by omega)
    exact ⟨c', .elem c[i], by simp [edit, rd_lt hi2, e1], e2, c[i], by simp [hi2], rfl, e3⟩
  | eraseIf p =>
    obtain ⟨r, e1, e2⟩ := find_if_first c p 0 c.length (by omega) (by omega)
    by_cases hr' : r = c.length
    · refine ⟨c, .flag false, by simp [edit, PriorityQueue.eraseIf, e1, hr'], hi, Or.inl ⟨rfl, ?_, rfl⟩⟩
      intro x hx
      obtain ⟨i, hil, rfl⟩ := List.mem_iff_getElem.mp hx
      have := e2.earlier i c[i] (by omega) (by omega) (by simp [hil])
      simpa using this
    · have hrl : r < c.length := by have := e2.hi; omega
      obtain ⟨x, hx, hpx⟩ := e2.here hrl
      rw [List.getElem?_eq_getElem hrl] at hx
      cases hx
      have h1 : c.length ≠ 1 := by
        intro h1
        obtain ⟨y, rfl⟩ := List.length_eq_one_iff.mp h1
        have : r = 0 := by simp at hrl; omega
        subst this
        exact hr ⟨y, rfl, by simpa using hpx⟩
      obtain ⟨c', a1, a2, a3⟩ := erase_spec hs c r hrl (by omega)
      exact ⟨c', .flag true, by simp [edit, PriorityQueue.eraseIf, e1, hr', a1], a2,
        Or.inr ⟨rfl, c[r], hpx, a3⟩⟩

theorem Reach.inv {comp : γ → α → α → Bool} {cap : Nat} {lt : α → α → Bool} (hs : StrictWeak lt) {s : State γ α}
    (h : Reach comp cap lt s) : (∀ q, comp (s q).cmp = lt) ∧ ∀ q, Inv lt (s q).c := by
  induction h with
  | init s hc he => exact ⟨hc, fun q => by rw [he]; intro i _ _ _ h; simp at h⟩
  | on s s' q e out _ ha hr hst ih =>
    obtain ⟨i1, i2⟩ := ih
    obtain ⟨c', o, e1, e2, -⟩ := edit_spec hs cap (s q).c e (i2 q) ha hr
    rw [← i1 q] at e1
    simp only [step, e1, Option.map_some, Option.some.injEq, Prod.mk.injEq] at hst
    obtain ⟨rfl, rfl⟩ := hst
    refine ⟨fun j => ?_, fun j => ?_⟩ <;> simp only [State.set] <;> split
    · exact i1 q
    · exact i1 j
    · exact e2
    · exact i2 j
  | assign s s' d r out _ hst ih =>
    obtain ⟨i1, i2⟩ := ih
    simp only [step, Option.some.injEq, Prod.mk.injEq] at hst
    obtain ⟨rfl, rfl⟩ := hst
    refine ⟨fun j => ?_, fun j => ?_⟩ <;> simp only [State.set] <;> split
    · exact i1 d
    · exact i1 j
    · exact i2 r
    · exact i2 j

/-! ## Properties -/

/-- C94: in every state a program can bring about, every allowed call (but for removing the only element by `erase` or
`erase_if`) is defined, does to its queue exactly what the specification says, leaves the other queues alone, and leads
to such a state again. -/
theorem queue_edits_partial {comp : γ → α → α → Bool} {cap : Nat} {lt : α → α → Bool} (hs : StrictWeak lt)
    {s : State γ α} (h : Reach comp cap lt s) (q : Nat) (e : Edit α) (ha : Spec.Allowed cap (s q).c e)
    (hr : ¬ Spec.RemovesOnly (s q).c e) :
    ∃ s' out, step comp cap s (.on q e) = some (s', out) ∧ Reach comp cap lt s' ∧
      Spec.Effect lt (s q).c e out (s' q).c ∧ ∀ j, j ≠ q → s' j = s j := by
  obtain ⟨i1, i2⟩ := h.inv hs
  obtain ⟨c', o, e1, -, e3⟩ := edit_spec hs cap (s q).c e (i2 q) ha hr
  have hst : step comp cap s (.on q e) = some (s.set q ⟨(s q).cmp, c'⟩, o) := by
    rw [← i1 q] at e1
    simp [step, e1]
  refine ⟨_, o, hst, .on s _ q e o h ha hr hst, by simpa [State.set] using e3, fun j hj => by simp [State.set, hj]⟩

/-- C94: in every state a program can bring about, `top()` of a queue that holds something is one of its elements, and
none of them comes before it. -/
theorem queue_edits_top {comp : γ → α → α → Bool} {cap : Nat} {lt : α → α → Bool} (hs : StrictWeak lt)
    {s : State γ α} (h : Reach comp cap lt s) (q : Nat) (hne : (s q).c ≠ []) :
    ∃ t, top (s q).c = some t ∧ t ∈ (s q).c ∧ ∀ x ∈ (s q).c, lt t x = false :=
  top_extremal hs _ ((h.inv hs).2 q) hne

/-- C94: assigning one queue to another of the same order gives it the same elements and the same `top()`, and leaves the
source and all others alone. -/
theorem queue_assign_partial {comp : γ → α → α → Bool} {cap : Nat} {lt : α → α → Bool} {s : State γ α}
    (h : Reach comp cap lt s) (d r : Nat) :
    ∃ s', step comp cap s (.assign d r) = some (s', .unit) ∧ Reach comp cap lt s' ∧ (s' d).c = (s r).c ∧
      top (s' d).c = top (s r).c ∧ ∀ j, j ≠ d → s' j = s j :=
  ⟨_, rfl, .assign s _ d r .unit h rfl, by simp [State.set], by simp [State.set], fun j hj => by simp [State.set, hj]⟩

/-- C94: `emplace` (and `emplace_with_notify`) returns the new element when it comes before none of those held. -/
theorem emplace_returns_new_partial {comp : α → α → Bool} (cap : Nat) (c : List α) (v : α)
    (hc : c.length < cap) (hv : ∀ x ∈ c, comp x v = false) :
    edit comp cap c (.emplace v) = some (c ++ [v], .elem v) := by
  have hp : PriorityQueue.push comp cap c v = some (c ++ [v]) := by
    unfold PriorityQueue.push
    rw [if_pos hc]
    unfold pushHeap restoreUp
    rw [if_neg (by omega)]
    simp only [Nat.sub_zero, Nat.add_sub_cancel]
    unfold upLoop
    by_cases h0 : c.length = 0
    · simp [h0]
    · rw [dif_neg h0, if_neg (by omega)]
      have hpl : (c.length - 1) / 2 < c.length := by omega
      simp only [Nat.zero_add]
      have h1 : rd (c ++ [v]) ((c.length - 1) / 2) = some c[(c.length - 1) / 2] := by
        simp [rd, List.getElem?_append_left hpl]
      have h2 : rd (c ++ [v]) c.length = some v := by simp [rd]
      rw [h1, h2]
      simp [hv _ (List.getElem_mem hpl)]
  simp [edit, PriorityQueue.emplace, hp, rd]

/-- **Violation.** C94: whenever the new element comes before all of those held, `emplace` returns another element: one
of those held before, different from the new one. -/
theorem emplace_returns_another {comp : γ → α → α → Bool} {cap : Nat} {lt : α → α → Bool} (hs : StrictWeak lt)
    {s : State γ α} (h : Reach comp cap lt s) (q : Nat) (v : α) (hne : (s q).c ≠ []) (hc : (s q).c.length < cap)
    (hv : ∀ x ∈ (s q).c, lt x v = true) :
    ∃ s' x, step comp cap s (.on q (.emplace v)) = some (s', .elem x) ∧ x ∈ (s q).c ∧ x ≠ v := by
  obtain ⟨i1, i2⟩ := h.inv hs
  obtain ⟨c', e1, e2, e3⟩ := push_spec hs cap (s q).c v (i2 q) hc
  obtain ⟨x, a1, a2⟩ := emplace_eq lt cap (s q).c v c' e1 e3
  have hvn : v ∉ (s q).c := fun hm => by have := hv v hm; rw [hs.irrefl] at this; cases this
  have hlen := e3.length_eq
  have hpos : 0 < (s q).c.length := List.length_pos_iff.mpr hne
  simp only [List.length_cons] at hlen
  have hxm : x ∈ c' := List.mem_of_getElem? a2
  have hxv : x ≠ v := by
    rintro rfl
    -- the parent of the last cell
    have hpl : (c'.length - 1 - 1) / 2 < c'.length - 1 := by omega
    have hpl2 : (c'.length - 1 - 1) / 2 < c'.length := by omega
    have hheap := e2 (c'.length - 1) c'[(c'.length - 1 - 1) / 2] x (by omega) (by omega) (by simp [hpl2]) (by simpa using a2)
    -- the last cell dropped, the rest is a rearrangement of the old contents
    have hc'ne : c' ≠ [] := by intro h; simp [h] at hlen
    have hgl : c'.getLast hc'ne = x := by
      rw [List.getLast_eq_getElem]
      rw [List.getElem?_eq_some_iff] at a2
      exact a2.2
    have hsplit : c' = c'.dropLast ++ [x] := by rw [← hgl, List.dropLast_concat_getLast]
    have hperm : (c'.dropLast).Perm (s q).c := by
      have h1 : (c'.dropLast ++ [x]).Perm (x :: c'.dropLast) := List.perm_append_comm
      have h2 : (x :: c'.dropLast).Perm (x :: (s q).c) := h1.symm.trans ((List.Perm.of_eq hsplit.symm).trans e3)
      exact (List.perm_cons x).mp h2
    have hmem : c'[(c'.length - 1 - 1) / 2] ∈ c'.dropLast := by
      have hd : (c'.length - 1 - 1) / 2 < c'.dropLast.length := by simp; omega
      have := List.getElem_mem hd
      simpa [List.getElem_dropLast] using this
    have := hv _ (hperm.mem_iff.mp hmem)
    rw [hheap] at this
    cases this
  refine ⟨s.set q ⟨(s q).cmp, c'⟩, x, ?_, ?_, hxv⟩
  · rw [← i1 q] at a1
    simp [step, edit, a1]
  · have := e3.mem_iff.mp hxm
    simpa [hxv] using this

/-- **Violation.** C94: removing the only element by `erase` or `erase_if` is undefined in every state. -/
theorem remove_only_undefined (comp : γ → α → α → Bool) (cap : Nat) (s : State γ α) (q : Nat) (x : α)
    (h1 : (s q).c = [x]) :
    step comp cap s (.on q (.erase 0)) = none ∧
      ∀ p : α → Bool, p x = true → step comp cap s (.on q (.eraseIf p)) = none := by
  refine ⟨?_, fun p hp => ?_⟩
  · simp [step, edit, h1, erase_single_undefined]
  · obtain ⟨r, e1, e2⟩ := find_if_first [x] p 0 [x].length (by omega) (by omega)
    have hr : r = 0 := by
      rcases Nat.eq_zero_or_pos r with h | h
      · exact h
      · have := e2.earlier 0 x (by omega) h (by simp)
        exact absurd hp this
    subst hr
    simp only [step, edit, h1, PriorityQueue.eraseIf, e1]
    simp [erase_single_undefined]

/-- **Violation.** C94: assignment leaves the comparator of the target as it was, so a queue assigned from one of another
order has a `top()` that another of its elements comes before, by its own comparator, whenever the two orders disagree
about the source's `top()`. -/
theorem assign_keeps_comparator (comp : γ → α → α → Bool) (cap : Nat) (s : State γ α) (d r : Nat) (t x : α)
    (ht : top (s r).c = some t) (hx : x ∈ (s r).c) (hd : comp (s d).cmp t x = true) :
    ∃ s', step comp cap s (.assign d r) = some (s', .unit) ∧ (s' d).cmp = (s d).cmp ∧ top (s' d).c = some t ∧
      x ∈ (s' d).c ∧ comp (s' d).cmp t x = true :=
  ⟨_, rfl, by simp [State.set], by simpa [State.set] using ht, by simpa [State.set] using hx, by simpa [State.set] using hd⟩

/-! ## Examples -/

/-- comparator with a direction: `false` for the greatest first, `true` for the least first -/
def exComp (b : Bool) (x y : Nat) : Bool := if b then decide (y < x) else decide (x < y)

theorem exComp_weak (b : Bool) : StrictWeak (exComp b) := by
  cases b
  · exact ⟨by simp [exComp], by simp [exComp]; omega, by simp [exComp]; omega⟩
  · exact ⟨by simp [exComp], by simp [exComp]; omega, by simp [exComp]; omega⟩

def exRun (s : State Bool Nat) : List (Op Nat) → Option (State Bool Nat × List (Out Nat))
  | [] => some (s, [])
  | o :: os => (step exComp 4 s o).bind fun r => (exRun r.1 os).map fun q => (q.1, r.2 :: q.2)

/-- queue 0 has the greatest first, queue 1 the least first -/
def exStart : State Bool Nat := fun q => ⟨q == 1, []⟩

/-- all the operations, on queues of one order -/
example : (exRun exStart [.on 0 (.push 4), .on 0 (.emplace 9), .on 0 (.notify 3 (· + 3)), .assign 2 0, .on 2 .pop, .on 0 (.erase 1),
    .on 2 (.eraseIf (· == 4)), .on 0 (.eraseIf (· == 100))]).map (·.2) =
    some [.unit, .elem 4, .elem 6, .unit, .elem 9, .elem 4, .flag true, .flag false] := by decide +kernel

/-- **Violation.** C94: a queue with the least first is assigned from one with the greatest first; what comes out of it
then is neither in the one order nor in the other. -/
theorem assign_order_lost :
    (exRun exStart [.on 0 (.push 5), .on 0 (.push 2), .on 0 (.push 4), .assign 1 0, .on 1 (.push 3), .on 1 .pop, .on 1 .pop,
      .on 1 .pop]).map (·.2) = some [.unit, .unit, .unit, .unit, .unit, .elem 5, .elem 2, .elem 3] := by
  decide +kernel

/-- a state of two elements that is reached -/
example : ∃ s : State Bool Nat, Reach exComp 4 (exComp false) s ∧ (s 0).c = [9, 4] := by
  have h1 : edit (exComp false) 4 [] (.push 4) = some ([4], .unit) := by decide +kernel
  have h2 : edit (exComp false) 4 [4] (.push 9) = some ([9, 4], .unit) := by decide +kernel
  let s0 : State Bool Nat := fun _ => ⟨false, []⟩
  let s1 := s0.set 0 ⟨false, [4]⟩
  refine ⟨s1.set 0 ⟨false, [9, 4]⟩, .on s1 _ 0 (.push 9) .unit (.on s0 s1 0 (.push 4) .unit (.init s0 (fun _ => rfl) (fun _ => rfl))
    (show 0 < 4 by decide) (fun h => h) ?_) (show 1 < 4 by decide) (fun h => h) ?_, rfl⟩
  · simp [step, s0, s1, h1]
  · simp [step, s0, s1, State.set, h2]

end Verif.PriorityQueue.Edits
