import Verif.Common.Mem

/-!
# An optional as a mailbox between the main program and an interrupt handler (C117)

Modelled from `src/estd/optional.h:43-61, 206-215, 303-309`, `src/estd/internal/optional.h:77-91, 165-178, 234-250` and, for
the flavour without a flag, `262-307`.  The value is trivially copied and takes `w` words, which the processor loads and
stores one at a time, first to last; the flag is one more.  The main program is cut between any two of its accesses, the
handler runs to its end.  One core; accesses are not reordered.
-/
namespace Verif.Mailbox
open Verif

/-- an optional: the flag `initialized_` and the words of the value, internal/optional.h:77-91, 107 -/
structure Box (β : Type) where
  full : Bool
  cells : List β
  deriving DecidableEq, Repr

/-! ## The main program puts, the handler takes -/

/-- where the main program is in `o = v`: `storing v i` is before word `i` of the value, or the flag after the last -/
inductive OutPc (β : Type) where
  | idle
  | storing (v : List β) (i : Nat)
  deriving DecidableEq, Repr

/-- the optional, the main program's place, the values it has put and those the handler has got; optional.h:43-53 -/
structure Out (β : Type) where
  box : Box β
  pc : OutPc β
  put : List (List β)
  got : List (List β)
  deriving DecidableEq, Repr

inductive OutAct (β : Type) where
  /-- `if(!o) o = v;` -/
  | put (v : List β)
  /-- `o = v;` -/
  | over (v : List β)
  /-- the next access of the main program -/
  | tick
  /-- the handler: `if(o) { use(*o); o.reset(); }` -/
  | take
  deriving DecidableEq, Repr

/-- one action: `operator=(U&&)` optional.h:206-215 with `assign_value` 47-53 stores the words (internal/optional.h:167-171)
and then the flag (87); the handler reads `has_value()`, `operator*` and calls `reset()` (internal/optional.h:85-90, 245-250) -/
def outStep {β : Type} (s : Out β) : OutAct β → Out β
  | .put v =>
    match s.pc with
    | .idle => if s.box.full then s else { s with pc := .storing v 0 }
    | _ => s
  | .over v =>
    match s.pc with
    | .idle => { s with pc := .storing v 0 }
    | _ => s
  | .tick =>
    match s.pc with
    | .idle => s
    | .storing v i =>
      match v[i]? with
      | some x => { s with box := { s.box with cells := s.box.cells.set i x }, pc := .storing v (i + 1) }
      | none => { s with box := { s.box with full := true }, pc := .idle, put := s.put ++ [v] }
  | .take => if s.box.full then { s with box := { s.box with full := false }, got := s.got ++ [s.box.cells] } else s

/-- a sequence of actions, optional.h:206-215 -/
def outRun {β : Type} (s : Out β) (as : List (OutAct β)) : Out β := as.foldl outStep s

/-- a new optional, over whatever the memory holds; internal/optional.h:82-83 -/
def outStart {β : Type} (mem : List β) : Out β := ⟨⟨false, mem⟩, .idle, [], []⟩

/-- Specification: what is in the mailbox -/
def Spec.pending {β : Type} (b : Box β) : List (List β) := if b.full then [b.cells] else []

/-- Specification: the main program puts only values of the type, and only into an empty optional -/
def Spec.polite {β : Type} (w : Nat) : OutAct β → Prop
  | .put v => v.length = w
  | .over _ => False
  | _ => True

/-- storing the words of a value one after the other -/
theorem set_next {β : Type} {u v : List β} {i : Nat} {x : β} (hl : u.length = v.length) (hx : v[i]? = some x) :
    (v.take i ++ u.drop i).set i x = v.take (i + 1) ++ u.drop (i + 1) := by
  obtain ⟨hi, rfl⟩ := List.getElem?_eq_some_iff.mp hx
  rw [List.drop_eq_getElem_cons (l := u) (i := i) (by omega), List.set_append_right _ _ (by rw [List.length_take]; omega),
    show i - (v.take i).length = 0 from by rw [List.length_take]; omega, List.set_cons_zero,
    List.take_succ_eq_append_getElem hi, List.append_assoc, List.singleton_append]

/-- **Nothing is lost, repeated, torn or invented** when the main program looks first: at any point of any schedule the
handler has got exactly the values that were put, whole and in order, except for the one in the mailbox. -/
theorem out_shared {β : Type} (mem : List β) (as : List (OutAct β)) (h : ∀ a ∈ as, Spec.polite mem.length a) :
    (outRun (outStart mem) as).got ++ Spec.pending (outRun (outStart mem) as).box = (outRun (outStart mem) as).put := by
  have key : ∀ (as : List (OutAct β)) (s : Out β), (∀ a ∈ as, Spec.polite mem.length a) → s.box.cells.length = mem.length →
      s.got ++ Spec.pending s.box = s.put →
      (∀ v i, s.pc = .storing v i → s.box.full = false ∧ v.length = mem.length ∧ i ≤ v.length ∧
        s.box.cells.take i = v.take i) →
      (outRun s as).got ++ Spec.pending (outRun s as).box = (outRun s as).put := by
    intro as
    induction as with
    | nil => intro s _ _ h2 _; exact h2
    | cons a as ih =>
      intro s hp h1 h2 h3
      have hpa := hp a (by simp)
      have hps : ∀ a ∈ as, Spec.polite mem.length a := fun b hb => hp b (by simp [hb])
      rw [show outRun s (a :: as) = outRun (outStep s a) as from rfl]
      cases a with
      | over v => exact hpa.elim
      | put v =>
        cases hpc : s.pc with
        | storing u i => simp only [outStep, hpc]; exact ih s hps h1 h2 h3
        | idle =>
          simp only [outStep, hpc]
          cases hf : s.box.full with
          | true => simp only [if_true]; exact ih s hps h1 h2 h3
          | false =>
            simp only [Bool.false_eq_true, if_false]
            refine ih _ hps h1 h2 ?_
            intro v' i' he
            cases he
            exact ⟨hf, hpa, Nat.zero_le _, by simp⟩
      | tick =>
        cases hpc : s.pc with
        | idle => simp only [outStep, hpc]; exact ih s hps h1 h2 h3
        | storing v i =>
          obtain ⟨g1, g2, g3, g4⟩ := h3 v i hpc
          simp only [outStep, hpc]
          cases hx : v[i]? with
          | some x =>
            simp only
            obtain ⟨hi, hxe⟩ := List.getElem?_eq_some_iff.mp hx
            refine ih _ hps (by simpa using h1) (by simpa [Spec.pending, g1] using h2) ?_
            intro v' i' he
            cases he
            refine ⟨g1, g2, hi, ?_⟩
            show (s.box.cells.set i x).take (i + 1) = _
            have hi' : i < (s.box.cells.set i x).length := by rw [List.length_set]; omega
            rw [List.take_succ_eq_append_getElem hi', List.take_succ_eq_append_getElem hi, List.getElem_set_self,
              List.take_set_of_le (Nat.le_refl i), g4, hxe]
          | none =>
            simp only
            have hiv : i = v.length := by have := List.getElem?_eq_none_iff.mp hx; omega
            have hcv : s.box.cells = v := by
              rw [hiv, List.take_of_length_le (by omega), List.take_of_length_le (Nat.le_refl _)] at g4
              exact g4
            refine ih _ hps h1 ?_ (by intro v' i' he; cases he)
            simp only [Spec.pending, g1, Bool.false_eq_true, if_false, List.append_nil] at h2
            simp [Spec.pending, hcv, h2]
      | take =>
        simp only [outStep]
        cases hf : s.box.full with
        | false => simp only [Bool.false_eq_true, if_false]; exact ih s hps h1 h2 h3
        | true =>
          simp only [if_true]
          refine ih _ hps h1 (by simpa [Spec.pending, hf] using h2) ?_
          intro v' i' he
          have := h3 v' i' he
          rw [hf] at this
          cases this.1
  exact key as (outStart mem) h rfl (by simp [outStart, Spec.pending]) (by intro v i he; cases he)

/-- Meets the hypotheses: two values of two words, with interrupts inside. -/
example : (∀ a ∈ ([.put [1, 2], .tick, .take, .tick, .take, .tick, .put [9, 9], .take, .put [3, 4], .tick, .tick, .tick] :
      List (OutAct Nat)), Spec.polite 2 a) ∧
    (outRun (outStart [7, 7]) [.put [1, 2], .tick, .take, .tick, .take, .tick, .put [9, 9], .take, .put [3, 4], .tick, .tick,
      .tick]).put = [[1, 2], [3, 4]] := by
  refine ⟨?_, by decide⟩
  simp [Spec.polite]

/-- the main program has stored `j` words -/
theorem out_words {β : Type} (u v : List β) (hl : u.length = v.length) (f : Bool) (P G : List (List β)) : ∀ j, j ≤ v.length →
    outRun ⟨⟨f, u⟩, .storing v 0, P, G⟩ (List.replicate j .tick) = ⟨⟨f, v.take j ++ u.drop j⟩, .storing v j, P, G⟩ := by
  intro j
  induction j with
  | zero => intro _; simp [outRun]
  | succ j ih =>
    intro hj
    have := ih (by omega)
    rw [List.replicate_succ', outRun, List.foldl_append]
    rw [outRun] at this
    rw [this]
    have hx : v[j]? = some v[j] := List.getElem?_eq_getElem (by omega)
    simp only [List.foldl_cons, List.foldl_nil, outStep, hx]
    rw [set_next hl hx]

/-- **Violation.**  A value assigned over one that has not been taken: a handler in between gets the first words of the new
value with the last words of the old one, and the new one again when it is complete. -/
theorem over_torn {β : Type} (u v : List β) (hl : u.length = v.length) (P G : List (List β)) (j : Nat) (hj : j ≤ v.length) :
    outRun ⟨⟨true, u⟩, .idle, P, G⟩ (.over v :: (List.replicate j .tick ++ [.take])) =
      ⟨⟨false, v.take j ++ u.drop j⟩, .storing v j, P, G ++ [v.take j ++ u.drop j]⟩ := by
  show outRun ⟨⟨true, u⟩, .storing v 0, P, G⟩ (List.replicate j .tick ++ [.take]) = _
  have := out_words u v hl true P G j hj
  rw [outRun] at this ⊢
  rw [List.foldl_append, this]
  rfl

/-- Meets the hypotheses: 0x0100 is replaced by 0x00FF, low byte first; the handler reads 0x01FF. -/
example : (outRun ⟨⟨true, [0x00, 0x01]⟩, .idle, [], []⟩ [.over [0xFF, 0x00], .tick, .take]).got = [[0xFF, 0x01]] := by decide

/-! ## The handler puts, the main program takes -/

/-- where the main program is in `if(o) { x = *o; o.reset(); }`: the words loaded so far -/
inductive InPc (β : Type) where
  | idle
  | loading (acc : List β)
  deriving DecidableEq, Repr

/-- the optional, the main program's place, the values the handler has put and those the main program has got;
optional.h:303-309 -/
structure In (β : Type) where
  box : Box β
  pc : InPc β
  put : List (List β)
  got : List (List β)
  deriving DecidableEq, Repr

inductive InAct (β : Type) where
  /-- the main program: `if(o)` -/
  | look
  /-- its next access: a word of `*o`, or the store of `reset()` -/
  | tick
  /-- the handler: `if(!o) o = v;` -/
  | put (v : List β)
  /-- the handler: `o = v;` -/
  | over (v : List β)
  deriving DecidableEq, Repr

/-- one action: `operator bool` optional.h:306, `operator*` 308-309, `reset()` internal/optional.h:245-250 (a trivial value is
not destroyed); the handler's assignment 206-215 at one go -/
def inStep {β : Type} (s : In β) : InAct β → In β
  | .look =>
    match s.pc with
    | .idle => if s.box.full then { s with pc := .loading [] } else s
    | _ => s
  | .tick =>
    match s.pc with
    | .idle => s
    | .loading acc =>
      match s.box.cells[acc.length]? with
      | some x => { s with pc := .loading (acc ++ [x]) }
      | none => { s with box := { s.box with full := false }, pc := .idle, got := s.got ++ [acc] }
  | .put v => if s.box.full then s else { s with box := ⟨true, v⟩, put := s.put ++ [v] }
  | .over v => { s with box := ⟨true, v⟩, put := s.put ++ [v] }

/-- a sequence of actions, optional.h:303-309 -/
def inRun {β : Type} (s : In β) (as : List (InAct β)) : In β := as.foldl inStep s

/-- a new optional, internal/optional.h:82-83 -/
def inStart {β : Type} (mem : List β) : In β := ⟨⟨false, mem⟩, .idle, [], []⟩

/-- Specification: the handler puts only into an empty optional -/
def Spec.politeIn {β : Type} (w : Nat) : InAct β → Prop
  | .put v => v.length = w
  | .over _ => False
  | _ => True

/-- Specification: values of the type -/
def Spec.sized {β : Type} (w : Nat) : InAct β → Prop
  | .put v => v.length = w
  | .over v => v.length = w
  | _ => True

/-- **Nothing is lost, repeated, torn or invented** when the handler looks first. -/
theorem in_shared {β : Type} (mem : List β) (as : List (InAct β)) (h : ∀ a ∈ as, Spec.politeIn mem.length a) :
    (inRun (inStart mem) as).got ++ Spec.pending (inRun (inStart mem) as).box = (inRun (inStart mem) as).put := by
  have key : ∀ (as : List (InAct β)) (s : In β), (∀ a ∈ as, Spec.politeIn mem.length a) →
      s.got ++ Spec.pending s.box = s.put →
      (∀ acc, s.pc = .loading acc → s.box.full = true ∧ acc = s.box.cells.take acc.length) →
      (inRun s as).got ++ Spec.pending (inRun s as).box = (inRun s as).put := by
    intro as
    induction as with
    | nil => intro s _ h2 _; exact h2
    | cons a as ih =>
      intro s hp h2 h3
      have hpa := hp a (by simp)
      have hps : ∀ a ∈ as, Spec.politeIn mem.length a := fun b hb => hp b (by simp [hb])
      rw [show inRun s (a :: as) = inRun (inStep s a) as from rfl]
      cases a with
      | over v => exact hpa.elim
      | look =>
        cases hpc : s.pc with
        | loading acc => simp only [inStep, hpc]; exact ih s hps h2 h3
        | idle =>
          simp only [inStep, hpc]
          cases hf : s.box.full with
          | false => simp only [Bool.false_eq_true, if_false]; exact ih s hps h2 h3
          | true =>
            simp only [if_true]
            refine ih _ hps h2 ?_
            intro acc he
            cases he
            exact ⟨hf, by simp⟩
      | tick =>
        cases hpc : s.pc with
        | idle => simp only [inStep, hpc]; exact ih s hps h2 h3
        | loading acc =>
          obtain ⟨g1, g2⟩ := h3 acc hpc
          simp only [inStep, hpc]
          cases hx : s.box.cells[acc.length]? with
          | some x =>
            simp only
            obtain ⟨hi, hxe⟩ := List.getElem?_eq_some_iff.mp hx
            refine ih _ hps h2 ?_
            intro acc' he
            cases he
            refine ⟨g1, ?_⟩
            rw [List.length_append, List.length_singleton, List.take_succ_eq_append_getElem hi, ← g2, hxe]
          | none =>
            simp only
            have hall : acc = s.box.cells := by
              rw [g2]; exact List.take_of_length_le (List.getElem?_eq_none_iff.mp hx)
            refine ih _ hps ?_ (by intro acc' he; cases he)
            simp only [Spec.pending, g1, if_true] at h2
            simp [Spec.pending, hall, h2]
      | put v =>
        simp only [inStep]
        cases hf : s.box.full with
        | true => simp only [if_true]; exact ih s hps h2 h3
        | false =>
          simp only [Bool.false_eq_true, if_false]
          refine ih _ hps (by simpa [Spec.pending, hf] using h2) ?_
          intro acc he
          have := h3 acc he
          rw [hf] at this
          cases this.1
  exact key as (inStart mem) h (by simp [inStart, Spec.pending]) (by intro v he; cases he)

/-- Meets the hypotheses. -/
example : (inRun (inStart [7, 7]) [.put [1, 2], .look, .tick, .put [8, 8], .tick, .tick, .put [3, 4], .look, .tick]).got =
    [[1, 2]] ∧
    (inRun (inStart [7, 7]) [.put [1, 2], .look, .tick, .put [8, 8], .tick, .tick, .put [3, 4], .look, .tick]).put =
    [[1, 2], [3, 4]] := by decide

/-- A handler that does not look first, and a value of one word: the main program gets only values that were put, each at
most once and in order.  Missing: that it gets the last one, and larger values (`in_torn`). -/
theorem in_single_partial {β : Type} (m : β) (as : List (InAct β)) (h : ∀ a ∈ as, Spec.sized 1 a) :
    (inRun (inStart [m]) as).got.Sublist (inRun (inStart [m]) as).put := by
  have key : ∀ (as : List (InAct β)) (s : In β), (∀ a ∈ as, Spec.sized 1 a) → s.box.cells.length = 1 →
      s.got.Sublist s.put → (s.box.full = true → s.pc = .idle ∨ s.pc = .loading [] → (s.got ++ [s.box.cells]).Sublist s.put) →
      (∀ acc, s.pc = .loading acc → s.box.full = true ∧ acc.length ≤ 1 ∧ (acc.length = 1 → (s.got ++ [acc]).Sublist s.put)) →
      (inRun s as).got.Sublist (inRun s as).put := by
    intro as
    induction as with
    | nil => intro s _ _ h2 _ _; exact h2
    | cons a as ih =>
      intro s hp h1 h2 h3 h4
      have hpa := hp a (by simp)
      have hps : ∀ a ∈ as, Spec.sized 1 a := fun b hb => hp b (by simp [hb])
      rw [show inRun s (a :: as) = inRun (inStep s a) as from rfl]
      have hput : ∀ v : List β, v.length = 1 →
          (inRun { s with box := ⟨true, v⟩, put := s.put ++ [v] } as).got.Sublist
            (inRun { s with box := ⟨true, v⟩, put := s.put ++ [v] } as).put := by
        intro v hv
        refine ih _ hps hv (h2.trans (List.sublist_append_left _ _)) ?_ ?_
        · intro _ _; exact h2.append (List.Sublist.refl _)
        · intro acc he
          obtain ⟨_, g2, g3⟩ := h4 acc he
          exact ⟨rfl, g2, fun hl => (g3 hl).trans (List.sublist_append_left _ _)⟩
      cases a with
      | over v => exact hput v hpa
      | put v =>
        simp only [inStep]
        cases hf : s.box.full with
        | true => simp only [if_true]; exact ih s hps h1 h2 h3 h4
        | false => simp only [Bool.false_eq_true, if_false]; exact hput v hpa
      | look =>
        cases hpc : s.pc with
        | loading acc => simp only [inStep, hpc]; exact ih s hps h1 h2 h3 h4
        | idle =>
          simp only [inStep, hpc]
          cases hf : s.box.full with
          | false => simp only [Bool.false_eq_true, if_false]; exact ih s hps h1 h2 h3 h4
          | true =>
            simp only [if_true]
            refine ih _ hps h1 h2 (fun _ _ => h3 hf (.inl hpc)) ?_
            intro acc he
            cases he
            exact ⟨hf, by simp, by simp⟩
      | tick =>
        cases hpc : s.pc with
        | idle => simp only [inStep, hpc]; exact ih s hps h1 h2 h3 h4
        | loading acc =>
          obtain ⟨g1, g2, g3⟩ := h4 acc hpc
          simp only [inStep, hpc]
          cases hx : s.box.cells[acc.length]? with
          | some x =>
            simp only
            obtain ⟨hi, hxe⟩ := List.getElem?_eq_some_iff.mp hx
            have ha : acc = [] := List.length_eq_zero_iff.mp (by omega)
            subst ha
            have hc : s.box.cells = [x] := by
              obtain ⟨y, hy⟩ := List.length_eq_one_iff.mp h1
              rw [hy] at hx
              simp only [List.length_nil, List.getElem?_cons_zero, Option.some.injEq] at hx
              rw [hy, hx]
            refine ih _ hps h1 h2 ?_ ?_
            · intro _ he; rcases he with he | he <;> cases he
            · intro acc' he
              cases he
              refine ⟨g1, by simp, fun _ => ?_⟩
              have := h3 g1 (.inr hpc)
              rw [hc] at this
              exact this
          | none =>
            simp only
            have hl : acc.length = 1 := by have := List.getElem?_eq_none_iff.mp hx; omega
            refine ih _ hps h1 (g3 hl) (by intro hff; cases hff) (by intro acc' he; cases he)
  exact key as (inStart [m]) h rfl (by simp [inStart]) (by intro hf; cases hf) (by intro v he; cases he)

/-- Meets the hypotheses: the handler overwrites a value; the second one is lost. -/
example : (inRun (inStart [7]) [.over [1], .look, .tick, .over [2], .tick, .over [3], .look, .tick, .tick]).got =
    [[1], [3]] := by decide

/-- the main program has loaded some words -/
theorem in_words {β : Type} (u acc : List β) (f : Bool) (P G : List (List β)) : ∀ j, acc.length + j ≤ u.length →
    inRun ⟨⟨f, u⟩, .loading acc, P, G⟩ (List.replicate j .tick) =
      ⟨⟨f, u⟩, .loading (acc ++ (u.drop acc.length).take j), P, G⟩ := by
  intro j
  induction j with
  | zero => intro _; simp [inRun]
  | succ j ih =>
    intro hj
    have := ih (by omega)
    rw [List.replicate_succ', inRun, List.foldl_append]
    rw [inRun] at this
    rw [this]
    have hlen : (acc ++ (u.drop acc.length).take j).length = acc.length + j := by
      simp only [List.length_append, List.length_take, List.length_drop]; omega
    have hx : u[acc.length + j]? = some u[acc.length + j] := List.getElem?_eq_getElem (by omega)
    simp only [List.foldl_cons, List.foldl_nil, inStep, hlen, hx]
    have hd : j < (u.drop acc.length).length := by rw [List.length_drop]; omega
    rw [List.take_succ_eq_append_getElem hd, List.getElem_drop, List.append_assoc]

/-- **Violation.**  The handler overwrites the value while the main program reads it: the main program gets the first words of
the old value with the last words of the new one, and the new value is lost (after the last word: entirely). -/
theorem in_torn {β : Type} (u v : List β) (hl : u.length = v.length) (P G : List (List β)) (j : Nat) (hj : j ≤ u.length) :
    inRun ⟨⟨true, u⟩, .idle, P, G⟩
        (.look :: (List.replicate j .tick ++ .over v :: (List.replicate (u.length - j) .tick ++ [.tick]))) =
      ⟨⟨false, v⟩, .idle, P ++ [v], G ++ [u.take j ++ v.drop j]⟩ := by
  show inRun ⟨⟨true, u⟩, .loading [], P, G⟩ _ = _
  have h1 := in_words u [] true P G j (by simpa using hj)
  simp only [List.nil_append, List.length_nil, List.drop_zero] at h1
  have h2 := in_words v (u.take j) true (P ++ [v]) G (u.length - j) (by rw [List.length_take]; omega)
  rw [inRun] at h1 h2 ⊢
  rw [List.foldl_append, h1, List.foldl_cons, List.foldl_append]
  show List.foldl inStep (List.foldl inStep ⟨⟨true, v⟩, .loading (u.take j), P ++ [v], G⟩ _) _ = _
  rw [h2]
  have hlen : (u.take j).length = j := by rw [List.length_take]; omega
  rw [hlen, show (v.drop j).take (u.length - j) = v.drop j from List.take_of_length_le (by rw [List.length_drop]; omega)]
  have hn : v[(u.take j ++ v.drop j).length]? = none := by
    rw [List.getElem?_eq_none_iff]
    simp only [List.length_append, List.length_take, List.length_drop]; omega
  simp only [List.foldl_cons, List.foldl_nil, inStep, hn]

/-- Meets the hypotheses: a counter goes from 0x00FF to 0x0100 while it is read: 0x01FF. -/
example : (inRun ⟨⟨true, [0xFF, 0x00]⟩, .idle, [], []⟩ [.look, .tick, .over [0x00, 0x01], .tick, .tick]).got =
    [[0xFF, 0x01]] := by decide

/-! ## The flavour without a flag -/

/-- `layer1::optional`: the words, and where the main program is; internal/optional.h:262-307 -/
structure Flat (β : Type) where
  cells : List β
  pc : OutPc β
  put : List (List β)
  got : List (List β)
  deriving DecidableEq, Repr

/-- one action: `has_value()` compares with the null value (internal/optional.h:298), assignment stores the words only (167-171,
299-303), `reset()` stores the null value (304); the actions are those of `Out` -/
def flatStep {β : Type} [DecidableEq β] (null : List β) (s : Flat β) : OutAct β → Flat β
  | .put v =>
    match s.pc with
    | .idle => if s.cells ≠ null then s else { s with pc := .storing v 0 }
    | _ => s
  | .over v =>
    match s.pc with
    | .idle => { s with pc := .storing v 0 }
    | _ => s
  | .tick =>
    match s.pc with
    | .idle => s
    | .storing v i =>
      match v[i]? with
      | some x =>
        if i + 1 < v.length then { s with cells := s.cells.set i x, pc := .storing v (i + 1) }
        else { s with cells := s.cells.set i x, pc := .idle, put := s.put ++ [v] }
      | none => { s with pc := .idle, put := s.put ++ [v] }
  | .take => if s.cells ≠ null then { s with cells := null, got := s.got ++ [s.cells] } else s

/-- a sequence of actions, internal/optional.h:262-307 -/
def flatRun {β : Type} [DecidableEq β] (null : List β) (s : Flat β) (as : List (OutAct β)) : Flat β :=
  as.foldl (flatStep null) s

/-- Specification: the values put are of the type and are not the null value, into an empty optional -/
def Spec.politeFlat {β : Type} (null : List β) : OutAct β → Prop
  | .put v => v.length = null.length ∧ v ≠ null
  | .over _ => False
  | _ => True

/-- Specification: what is in the mailbox -/
def Spec.pendingFlat {β : Type} [DecidableEq β] (null cells : List β) : List (List β) :=
  if cells ≠ null then [cells] else []

/-- For values of one word that is as good as a flag.  Missing: larger values (`flat_torn`). -/
theorem flat_single_partial {β : Type} [DecidableEq β] (n : β) (as : List (OutAct β))
    (h : ∀ a ∈ as, Spec.politeFlat [n] a) :
    (flatRun [n] ⟨[n], .idle, [], []⟩ as).got ++
      Spec.pendingFlat [n] (flatRun [n] ⟨[n], .idle, [], []⟩ as).cells =
      (flatRun [n] ⟨[n], .idle, [], []⟩ as).put := by
  have key : ∀ (as : List (OutAct β)) (s : Flat β), (∀ a ∈ as, Spec.politeFlat [n] a) →
      s.got ++ Spec.pendingFlat [n] s.cells = s.put →
      (∀ v i, s.pc = .storing v i → s.cells = [n] ∧ i = 0 ∧ v.length = 1 ∧ v ≠ [n]) →
      (flatRun [n] s as).got ++ Spec.pendingFlat [n] (flatRun [n] s as).cells =
        (flatRun [n] s as).put := by
    intro as
    induction as with
    | nil => intro s _ h2 _; exact h2
    | cons a as ih =>
      intro s hp h2 h3
      have hpa := hp a (by simp)
      have hps : ∀ a ∈ as, Spec.politeFlat [n] a := fun b hb => hp b (by simp [hb])
      rw [show flatRun [n] s (a :: as) = flatRun [n] (flatStep [n] s a) as from rfl]
      cases a with
      | over v => exact hpa.elim
      | put v =>
        cases hpc : s.pc with
        | storing u i => simp only [flatStep, hpc]; exact ih s hps h2 h3
        | idle =>
          simp only [flatStep, hpc]
          by_cases hc : s.cells = [n]
          · rw [if_neg (by simpa using hc)]
            refine ih _ hps h2 ?_
            intro v' i' he
            cases he
            exact ⟨hc, rfl, hpa.1, hpa.2⟩
          · rw [if_pos hc]; exact ih s hps h2 h3
      | tick =>
        cases hpc : s.pc with
        | idle => simp only [flatStep, hpc]; exact ih s hps h2 h3
        | storing v i =>
          obtain ⟨g1, rfl, g3, g4⟩ := h3 v i hpc
          obtain ⟨x, rfl⟩ := List.length_eq_one_iff.mp g3
          simp only [flatStep, hpc, List.getElem?_cons_zero, List.length_singleton]
          rw [if_neg (by omega)]
          refine ih _ hps ?_ (by intro v' i' he; cases he)
          simp only [Spec.pendingFlat, g1, ne_eq, not_true, if_false, List.append_nil] at h2
          simp only [Spec.pendingFlat, g1, List.set_cons_zero]
          rw [if_pos g4, h2]
      | take =>
        simp only [flatStep]
        by_cases hc : s.cells = [n]
        · rw [if_neg (by simpa using hc)]; exact ih s hps h2 h3
        · rw [if_pos hc]
          rw [Spec.pendingFlat, if_pos hc] at h2
          refine ih _ hps (by simp [Spec.pendingFlat, h2]) ?_
          intro v' i' he
          exact absurd (h3 v' i' he).1 hc
  exact key as _ h (by simp [Spec.pendingFlat]) (by intro v i he; cases he)

/-- Meets the hypotheses. -/
example : (flatRun [0] ⟨[0], .idle, [], []⟩ [.put [5], .take, .tick, .take, .put [6], .tick]).put = [[5], [6]] ∧
    (flatRun [0] ⟨[0], .idle, [], []⟩ [.put [5], .take, .tick, .take, .put [6], .tick]).got = [[5]] := by decide

/-- the main program has stored `j` words, not the last -/
theorem flat_words {β : Type} [DecidableEq β] (null u v : List β) (hl : u.length = v.length) (P G : List (List β)) (i : Nat)
    (hu : u.take i = v.take i) : ∀ j, i + j < v.length →
    flatRun null ⟨u, .storing v i, P, G⟩ (List.replicate j .tick) =
      ⟨v.take (i + j) ++ u.drop (i + j), .storing v (i + j), P, G⟩ := by
  intro j
  induction j with
  | zero =>
    intro _
    have : v.take i ++ u.drop i = u := by rw [← hu, List.take_append_drop]
    simp [flatRun, this]
  | succ j ih =>
    intro hj
    have := ih (by omega)
    rw [List.replicate_succ', flatRun, List.foldl_append]
    rw [flatRun] at this
    rw [this]
    have hx : v[i + j]? = some v[i + j] := List.getElem?_eq_getElem (by omega)
    simp only [List.foldl_cons, List.foldl_nil, flatStep, hx]
    rw [if_pos (by omega), set_next hl hx]
    rfl

/-- **Violation.**  Without a flag, a value of several words put into an empty optional shows as soon as one of its words
differs from the null value: the handler gets the first words of the value with the last words of the null value, and what
it leaves there becomes the null value's first words with the last words of the value, though everyone looked first. -/
theorem flat_torn {β : Type} [DecidableEq β] (null v : List β) (hl : null.length = v.length) (P G : List (List β)) (j : Nat)
    (hj : j < v.length) (hne : v.take j ++ null.drop j ≠ null) :
    ∃ s, flatRun null ⟨null, .idle, P, G⟩ (.put v :: (List.replicate j .tick ++ [.take])) = s ∧
      s.got = G ++ [v.take j ++ null.drop j] ∧ s.cells = null ∧ s.pc = .storing v j ∧ s.put = P := by
  refine ⟨_, rfl, ?_⟩
  have h1 := flat_words null null v hl P G 0 rfl j (by omega)
  simp only [Nat.zero_add] at h1
  have : flatRun null ⟨null, .idle, P, G⟩ (.put v :: (List.replicate j .tick ++ [.take])) =
      ⟨null, .storing v j, P, G ++ [v.take j ++ null.drop j]⟩ := by
    rw [flatRun, List.foldl_cons]
    rw [show flatStep null ⟨null, .idle, P, G⟩ (.put v) = ⟨null, .storing v 0, P, G⟩ from by simp [flatStep]]
    rw [List.foldl_append]
    rw [flatRun] at h1
    rw [h1]
    simp only [List.foldl_cons, List.foldl_nil, flatStep]
    rw [if_pos hne]
  rw [this]
  exact ⟨rfl, rfl, rfl, rfl⟩

/-- Meets the hypotheses: 0x0102 with null value 0: the handler gets 0x0002, and later 0x0100. -/
example : (flatRun [0, 0] ⟨[0, 0], .idle, [], []⟩ [.put [0x02, 0x01], .tick, .take, .tick, .take]).got =
    [[0x02, 0x00], [0x00, 0x01]] := by decide

end Verif.Mailbox
