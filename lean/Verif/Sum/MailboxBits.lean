import Verif.Common.Mem

/-!
# A bit-field optional as a mailbox between the main program and an interrupt handler (C117)

Modelled from `src/estd/internal/optional.h:310-366` (the flavour `layer1::optional<bool>` has) with the assignment of
`src/estd/optional.h:43-61, 206-215` and the access of `303-309`.  The value and the flag are bit fields of one word: to store
either, the processor loads the word, changes the field and stores the whole word.  The main program is cut between any two
of these accesses, the handler runs to its end.  One core; accesses are not reordered.
-/
namespace Verif.MailboxBits

/-- the word both fields live in, `T value_ : bitsize_; bool has_value_ : 1;` internal/optional.h:314-318 -/
structure Word where
  full : Bool
  val : Nat
  deriving DecidableEq, Repr

/-- `value_ = v` in a word that has been loaded: a field of `b` bits keeps the low ones of an unsigned value,
internal/optional.h:321, 328-338.  Simplified: a `bool` has been made 0 or 1 by then, so it is kept as it is; signed types are
left out -/
def setVal (b : Nat) (w : Word) (v : Nat) : Word := { w with val := v % 2 ^ b }

/-- `has_value_ = f` in a word that has been loaded, internal/optional.h:322, 360 -/
def setFull (w : Word) (f : Bool) : Word := { w with full := f }

namespace Spec

/-- what a value of `b` bits keeps of a number -/
def kept (b : Nat) (vs : List Nat) : List Nat := vs.map (· % 2 ^ b)

/-- what is in the mailbox -/
def pending (w : Word) : List Nat := if w.full then [w.val] else []

end Spec

/-! ## The main program puts, the handler takes -/

/-- where the main program is in `o = v`: before the load for the value, before its store, before the load for the flag, before
its store -/
inductive OutPc where
  | idle
  | loadVal (v : Nat)
  | storeVal (v : Nat) (reg : Word)
  | loadFlag (v : Nat)
  | storeFlag (v : Nat) (reg : Word)
  deriving DecidableEq, Repr

/-- the word, the main program's place, the values it has put and those the handler has got; optional.h:43-53 -/
structure Out where
  word : Word
  pc : OutPc
  put : List Nat
  got : List Nat
  deriving DecidableEq, Repr

inductive OutAct where
  /-- `if(!o) o = v;` -/
  | put (v : Nat)
  /-- `o = v;` -/
  | over (v : Nat)
  /-- the next access of the main program -/
  | tick
  /-- the handler: `if(o) { use(*o); o.reset(); }` -/
  | take
  deriving DecidableEq, Repr

/-- one action: `operator=` optional.h:206-215 with `assign_value` 47-53 stores the value (internal/optional.h:328-338) and then
the flag (322); the handler reads `has_value()` (359), `value()` (363) and calls `reset()` (360) at one go -/
def outStep (b : Nat) (s : Out) : OutAct → Out
  | .put v =>
    match s.pc with
    | .idle => if s.word.full then s else { s with pc := .loadVal v }
    | _ => s
  | .over v =>
    match s.pc with
    | .idle => { s with pc := .loadVal v }
    | _ => s
  | .tick =>
    match s.pc with
    | .idle => s
    | .loadVal v => { s with pc := .storeVal v s.word }
    | .storeVal v reg => { s with word := setVal b reg v, pc := .loadFlag v }
    | .loadFlag v => { s with pc := .storeFlag v s.word }
    | .storeFlag v reg => { s with word := setFull reg true, pc := .idle, put := s.put ++ [v] }
  | .take => if s.word.full then { s with word := setFull s.word false, got := s.got ++ [s.word.val] } else s

/-- a sequence of actions, optional.h:303-309 -/
def outRun (b : Nat) (s : Out) (as : List OutAct) : Out := as.foldl (outStep b) s

/-- `layer1::optional<bool> o;` over a word that holds `m`, internal/optional.h:346-348 -/
def outStart (m : Nat) : Out := ⟨⟨false, m⟩, .idle, [], []⟩

/-- the main program looks before it puts -/
def Spec.polite : OutAct → Prop
  | .over _ => False
  | _ => True

/-- **Nothing is lost, repeated or invented** although value and flag share a word, when the main program looks first: at any
point of any schedule the handler has got exactly the values that were put, as the field keeps them and in order, except for
the one in the mailbox. -/
theorem out_bits_shared (b m : Nat) (as : List OutAct) (h : ∀ a ∈ as, Spec.polite a) :
    (outRun b (outStart m) as).got ++ Spec.pending (outRun b (outStart m) as).word =
      Spec.kept b (outRun b (outStart m) as).put := by
  have key : ∀ (as : List OutAct) (s : Out), (∀ a ∈ as, Spec.polite a) →
      s.got ++ Spec.pending s.word = Spec.kept b s.put →
      (match s.pc with
        | .idle => True
        | .loadVal _ => s.word.full = false
        | .storeVal _ reg => s.word.full = false ∧ reg.full = false
        | .loadFlag v => s.word.full = false ∧ s.word.val = v % 2 ^ b
        | .storeFlag v reg => s.word.full = false ∧ reg.val = v % 2 ^ b) →
      (outRun b s as).got ++ Spec.pending (outRun b s as).word = Spec.kept b (outRun b s as).put := by
    intro as
    induction as with
    | nil => intro s _ h2 _; exact h2
    | cons a as ih =>
      intro s hp h2 h3
      have hps : ∀ x ∈ as, Spec.polite x := fun x hx => hp x (List.mem_cons_of_mem _ hx)
      have hpa := hp a List.mem_cons_self
      show (outRun b (outStep b s a) as).got ++ _ = _
      apply ih _ hps
      · obtain ⟨⟨f, x⟩, pc, P, G⟩ := s
        cases a <;> cases pc <;> cases f <;>
          simp_all [outStep, Spec.polite, Spec.pending, Spec.kept, setFull, setVal]
      · obtain ⟨⟨f, x⟩, pc, P, G⟩ := s
        cases a <;> cases pc <;> cases f <;>
          simp_all [outStep, Spec.polite, Spec.pending, Spec.kept, setFull, setVal]
  exact key as (outStart m) h (by simp [outStart, Spec.pending, Spec.kept]) trivial

/-- Meets the hypotheses: a field of one bit, the handler interrupts between load and store. -/
example : (∀ a ∈ ([.put 1, .tick, .take, .tick, .take, .tick, .take, .tick, .take, .put 0, .tick, .tick, .tick, .tick] :
      List OutAct), Spec.polite a) ∧
    (outRun 1 (outStart 0) [.put 1, .tick, .take, .tick, .take, .tick, .take, .tick, .take, .put 0, .tick, .tick, .tick,
      .tick]) = ⟨⟨true, 0⟩, .idle, [1, 0], [1]⟩ := by
  refine ⟨?_, by decide⟩
  simp [Spec.polite]

/-- **What is put arrives**: from any quiet point, a value put in when there was none is what the handler gets next, whenever
the handler comes in between. -/
theorem out_bits_arrives (b v x : Nat) (P G : List Nat) (n1 n2 n3 n4 n5 : Nat) :
    outRun b ⟨⟨false, x⟩, .idle, P, G⟩ (.put v :: (List.replicate n1 .take ++ .tick :: (List.replicate n2 .take ++ .tick ::
        (List.replicate n3 .take ++ .tick :: (List.replicate n4 .take ++ .tick :: (List.replicate (n5 + 1) .take)))))) =
      ⟨⟨false, v % 2 ^ b⟩, .idle, P ++ [v], G ++ [v % 2 ^ b]⟩ := by
  have idle : ∀ (n : Nat) (s : Out) (as : List OutAct), s.word.full = false →
      outRun b s (List.replicate n .take ++ as) = outRun b s as := by
    intro n
    induction n with
    | zero => intro s as _; rfl
    | succ n ih =>
      intro s as hs
      show outRun b (outStep b s .take) (List.replicate n .take ++ as) = _
      have : outStep b s .take = s := by simp [outStep, hs]
      rw [this]
      exact ih s as hs
  show outRun b ⟨⟨false, x⟩, .loadVal v, P, G⟩ _ = _
  rw [idle _ _ _ rfl]
  show outRun b ⟨⟨false, x⟩, .storeVal v ⟨false, x⟩, P, G⟩ _ = _
  rw [idle _ _ _ rfl]
  show outRun b ⟨⟨false, v % 2 ^ b⟩, .loadFlag v, P, G⟩ _ = _
  rw [idle _ _ _ rfl]
  show outRun b ⟨⟨false, v % 2 ^ b⟩, .storeFlag v ⟨false, v % 2 ^ b⟩, P, G⟩ _ = _
  rw [idle _ _ _ rfl]
  show outRun b ⟨⟨false, v % 2 ^ b⟩, .idle, P ++ [v], G ++ [v % 2 ^ b]⟩ (List.replicate n5 .take) = _
  have := idle n5 ⟨⟨false, v % 2 ^ b⟩, .idle, P ++ [v], G ++ [v % 2 ^ b]⟩ [] rfl
  rw [List.append_nil] at this
  rw [this]
  rfl

/-- A case: one handler call at each place. -/
example : (outRun 1 ⟨⟨false, 0⟩, .idle, [], []⟩ [.put 1, .take, .tick, .take, .tick, .take, .tick, .take, .tick, .take]).got =
    [1] := by decide

/-- **A value that fits is kept as it is**, as a `bool` always does: `out_bits_shared` without the truncation. -/
theorem out_bits_exact (b m : Nat) (as : List OutAct) (h : ∀ a ∈ as, Spec.polite a)
    (hfit : ∀ v, .put v ∈ as → v < 2 ^ b) :
    (outRun b (outStart m) as).got ++ Spec.pending (outRun b (outStart m) as).word = (outRun b (outStart m) as).put := by
  rw [out_bits_shared b m as h]
  have key : ∀ (as : List OutAct) (s : Out), (∀ a ∈ as, Spec.polite a) → (∀ v, .put v ∈ as → v < 2 ^ b) →
      (∀ v ∈ s.put, v < 2 ^ b) →
      (match s.pc with
        | .idle => True
        | .loadVal v => v < 2 ^ b
        | .storeVal v _ => v < 2 ^ b
        | .loadFlag v => v < 2 ^ b
        | .storeFlag v _ => v < 2 ^ b) →
      ∀ v ∈ (outRun b s as).put, v < 2 ^ b := by
    intro as
    induction as with
    | nil => intro s _ _ h2 _; exact h2
    | cons a as ih =>
      intro s hp hf h2 h3
      have hpa := hp a List.mem_cons_self
      have hfa : ∀ v, a = .put v → v < 2 ^ b := fun v e => hf v (e ▸ List.mem_cons_self)
      show ∀ v ∈ (outRun b (outStep b s a) as).put, v < 2 ^ b
      apply ih _ (fun x hx => hp x (List.mem_cons_of_mem _ hx)) (fun v hv => hf v (List.mem_cons_of_mem _ hv))
      · obtain ⟨⟨f, x⟩, pc, P, G⟩ := s
        clear hp hf ih
        cases a <;> cases pc <;> cases f <;> simp_all [outStep, Spec.polite]
        all_goals
          intro w hw
          rcases hw with hw | hw
          · exact h2 w hw
          · exact hw ▸ h3
      · obtain ⟨⟨f, x⟩, pc, P, G⟩ := s
        clear hp hf ih
        cases a <;> cases pc <;> cases f <;> simp_all [outStep, Spec.polite]
  have hall := key as (outStart m) h hfit (by simp [outStart]) trivial
  rw [Spec.kept]
  refine (List.map_congr_left fun v hv => Nat.mod_eq_of_lt (hall v hv)).trans ?_
  simp

/-- Meets the hypotheses: numbers below four in two bits. -/
example : (outRun 2 (outStart 0) [.put 3, .tick, .take, .tick, .tick, .tick, .take, .put 2, .tick, .tick, .tick, .tick]) =
    ⟨⟨true, 2⟩, .idle, [3, 2], [3]⟩ := by decide

/-- **Violation.**  A value assigned over one that has not been taken, with the handler between the load and the store for the
value: the store puts back the flag the handler has just cleared.  The handler gets the new value before the assignment
is complete, and, when it comes once more at the flag, again after it. -/
theorem over_bits_undoes_reset (b u v : Nat) (P G : List Nat) :
    outRun b ⟨⟨true, u⟩, .idle, P, G⟩ [.over v, .tick, .take, .tick] =
      ⟨⟨true, v % 2 ^ b⟩, .loadFlag v, P, G ++ [u]⟩ ∧
    outRun b ⟨⟨true, u⟩, .idle, P, G⟩ [.over v, .tick, .take, .tick, .take, .tick, .tick, .take] =
      ⟨⟨false, v % 2 ^ b⟩, .idle, P ++ [v], G ++ [u, v % 2 ^ b, v % 2 ^ b]⟩ := by
  simp [outRun, outStep, setVal, setFull]

/-- A case: one true replaces a false, and the handler is told so twice. -/
example : (outRun 1 ⟨⟨true, 0⟩, .idle, [0], []⟩ [.over 1, .tick, .take, .tick, .take, .tick, .tick, .take]).got = [0, 1, 1] := by
  decide

/-! ## The handler puts, the main program takes -/

/-- where the main program is in `if(o) { x = *o; o.reset(); }`: before the load of the value, before the load for the flag,
before its store -/
inductive InPc where
  | idle
  | loadVal
  | loadFlag (x : Nat)
  | storeFlag (x : Nat) (reg : Word)
  deriving DecidableEq, Repr

/-- the word, the main program's place, the values the handler has put and those the main program has got; optional.h:303-309 -/
structure In where
  word : Word
  pc : InPc
  put : List Nat
  got : List Nat
  deriving DecidableEq, Repr

inductive InAct where
  /-- the main program: `if(o)` -/
  | look
  /-- its next access -/
  | tick
  /-- the handler: `if(!o) o = v;` -/
  | put (v : Nat)
  /-- the handler: `o = v;` -/
  | over (v : Nat)
  deriving DecidableEq, Repr

/-- one action: `operator bool` optional.h:306, `operator*` 308-309 with `value()` internal/optional.h:363, `reset()` 360; the
handler's assignment optional.h:206-215 at one go -/
def inStep (b : Nat) (s : In) : InAct → In
  | .look =>
    match s.pc with
    | .idle => if s.word.full then { s with pc := .loadVal } else s
    | _ => s
  | .tick =>
    match s.pc with
    | .idle => s
    | .loadVal => { s with pc := .loadFlag s.word.val }
    | .loadFlag x => { s with pc := .storeFlag x s.word }
    | .storeFlag x reg => { s with word := setFull reg false, pc := .idle, got := s.got ++ [x] }
  | .put v => if s.word.full then s else { s with word := setFull (setVal b s.word v) true, put := s.put ++ [v] }
  | .over v => { s with word := setFull (setVal b s.word v) true, put := s.put ++ [v] }

/-- a sequence of actions, optional.h:303-309 -/
def inRun (b : Nat) (s : In) (as : List InAct) : In := as.foldl (inStep b) s

/-- `layer1::optional<bool> o;` over a word that holds `m`, internal/optional.h:346-348 -/
def inStart (m : Nat) : In := ⟨⟨false, m⟩, .idle, [], []⟩

/-- the handler looks before it puts -/
def Spec.politeIn : InAct → Prop
  | .over _ => False
  | _ => True

/-- **Nothing is lost, repeated or invented** although value and flag share a word, when the handler looks first. -/
theorem in_bits_shared (b m : Nat) (as : List InAct) (h : ∀ a ∈ as, Spec.politeIn a) :
    (inRun b (inStart m) as).got ++ Spec.pending (inRun b (inStart m) as).word =
      Spec.kept b (inRun b (inStart m) as).put := by
  have key : ∀ (as : List InAct) (s : In), (∀ a ∈ as, Spec.politeIn a) →
      s.got ++ Spec.pending s.word = Spec.kept b s.put →
      (match s.pc with
        | .idle => True
        | .loadVal => s.word.full = true
        | .loadFlag x => s.word.full = true ∧ s.word.val = x
        | .storeFlag x _ => s.word.full = true ∧ s.word.val = x) →
      (inRun b s as).got ++ Spec.pending (inRun b s as).word = Spec.kept b (inRun b s as).put := by
    intro as
    induction as with
    | nil => intro s _ h2 _; exact h2
    | cons a as ih =>
      intro s hp h2 h3
      have hps : ∀ x ∈ as, Spec.politeIn x := fun x hx => hp x (List.mem_cons_of_mem _ hx)
      have hpa := hp a List.mem_cons_self
      show (inRun b (inStep b s a) as).got ++ _ = _
      apply ih _ hps
      · obtain ⟨⟨f, x⟩, pc, P, G⟩ := s
        cases a <;> cases pc <;> cases f <;>
          simp_all [inStep, Spec.politeIn, Spec.pending, Spec.kept, setFull, setVal]
      · obtain ⟨⟨f, x⟩, pc, P, G⟩ := s
        cases a <;> cases pc <;> cases f <;>
          simp_all [inStep, Spec.politeIn, Spec.pending, Spec.kept, setFull, setVal]
  exact key as (inStart m) h (by simp [inStart, Spec.pending, Spec.kept]) trivial

/-- Meets the hypotheses: the handler also comes between the load and the store of `reset()`. -/
example : (∀ a ∈ ([.look, .put 1, .look, .tick, .put 0, .tick, .put 0, .tick, .put 0] : List InAct), Spec.politeIn a) ∧
    (inRun 1 (inStart 0) [.look, .put 1, .look, .tick, .put 0, .tick, .put 0, .tick, .put 0]) =
      ⟨⟨true, 0⟩, .idle, [1, 0], [1]⟩ := by
  refine ⟨?_, by decide⟩
  simp [Spec.politeIn]

/-- A handler that does not look first: the main program gets only values that were put, each at most once and in order.
Missing: that it gets the last one (`in_bits_erased`). -/
theorem in_bits_single_partial (b m : Nat) (as : List InAct) :
    (inRun b (inStart m) as).got.Sublist (Spec.kept b (inRun b (inStart m) as).put) := by
  have key : ∀ (as : List InAct) (s : In),
      (match s.pc with
        | .idle => (s.got ++ Spec.pending s.word).Sublist (Spec.kept b s.put)
        | .loadVal => s.word.full = true ∧ (s.got ++ [s.word.val]).Sublist (Spec.kept b s.put)
        | .loadFlag x => (s.got ++ [x]).Sublist (Spec.kept b s.put)
        | .storeFlag x _ => (s.got ++ [x]).Sublist (Spec.kept b s.put)) →
      (inRun b s as).got.Sublist (Spec.kept b (inRun b s as).put) := by
    intro as
    induction as with
    | nil =>
      intro s h
      obtain ⟨w, pc, P, G⟩ := s
      cases pc
      · exact (List.sublist_append_left _ _).trans h
      · exact (List.sublist_append_left _ _).trans h.2
      · exact (List.sublist_append_left _ _).trans h
      · exact (List.sublist_append_left _ _).trans h
    | cons a as ih =>
      intro s h
      show (inRun b (inStep b s a) as).got.Sublist _
      apply ih
      obtain ⟨⟨f, x⟩, pc, P, G⟩ := s
      have more : ∀ (L : List Nat) (v : Nat), L.Sublist (Spec.kept b P) → L.Sublist (Spec.kept b (P ++ [v])) := by
        intro L v hL
        rw [Spec.kept, List.map_append]
        exact hL.trans (List.sublist_append_left _ _)
      have next : ∀ (L : List Nat) (v : Nat), (G ++ L).Sublist (Spec.kept b P) →
          (G ++ [v % 2 ^ b]).Sublist (Spec.kept b (P ++ [v])) := by
        intro L v hL
        rw [Spec.kept, List.map_append]
        exact ((List.sublist_append_left G L).trans hL).append (List.Sublist.refl _)
      cases a <;> cases pc <;> cases f <;>
        simp_all [inStep, Spec.pending, setFull, setVal]
      all_goals first | exact next [] _ (by simpa using h) | exact next _ _ h | exact next _ _ h.2 | exact more _ _ h
  exact key as (inStart m) (by simp [inStart, Spec.pending, Spec.kept])

/-- A case: of three values the main program gets the first and the last. -/
example : (inRun 2 (inStart 0) [.put 1, .look, .tick, .over 2, .tick, .tick, .over 3, .look, .tick, .tick, .tick]).got =
    [1, 3] := by decide

/-- **Violation.**  The handler assigns between the load and the store of the main program's `reset()`: not only is the new
value lost, the word is as if the handler had never run. -/
theorem in_bits_erased (b u v : Nat) (P G : List Nat) :
    inRun b ⟨⟨true, u⟩, .idle, P, G⟩ [.look, .tick, .tick, .over v, .tick] = ⟨⟨false, u⟩, .idle, P ++ [v], G ++ [u]⟩ ∧
    (inRun b ⟨⟨true, u⟩, .idle, P, G⟩ [.look, .tick, .tick, .over v, .tick]).word =
      (inRun b ⟨⟨true, u⟩, .idle, P, G⟩ [.look, .tick, .tick, .tick]).word := by
  simp [inRun, inStep, setVal, setFull]

/-- A case: the handler's true is gone. -/
example : (inRun 1 ⟨⟨true, 0⟩, .idle, [0], []⟩ [.look, .tick, .tick, .over 1, .tick, .look, .tick, .tick, .tick]).got = [0] := by
  decide

end Verif.MailboxBits
