import Verif.Streams.Ios

/-!
# The state of a stream shared with an interrupt handler (C125)

Modelled from `src/estd/internal/ios_base.h:74-102, 109-159`.  Format flags, error state and width are bit fields next to each
other: to change one, the processor loads the piece of memory it lies in, changes the field and stores the piece, and with it
the fields it shares the piece with.  The main program is cut between load and store, the handler runs to its end.  One core.
-/
namespace Verif.IosShared
open Verif.Streams

/-- the bit fields of `struct state`, ios_base.h:77-81, 90-92 -/
inductive Fld where
  | flags | state | width
  deriving DecidableEq, Repr

/-- which fields are stored along with a field -/
abbrev Links := Fld → Fld → Bool

/-- a processor that loads and stores all of `struct state` at once, ios_base.h:74-102 -/
def whole : Links := fun _ _ => true

/-- a processor that loads and stores single bytes: with four bits of state and of width (ios_base.h:79-81) these two share a
byte, otherwise (90-92) every field has bytes of its own -/
def bytes (c : IosCfg) : Links := fun a b => a == b || (c.aggressive && a != .flags && b != .flags)

/-- the calls that change one field by one load and one store, ios_base.h:109-159.  Simplified: `setf(flags, mask)` 133-139 is
`unsetf(mask)` and then `setf(flags)`; the values returned are left out. -/
inductive Op where
  | setstate (b : BitVec 8)
  | unsetstate (b : BitVec 8)
  | clear (b : BitVec 8)
  | setf (f : BitVec 8)
  | unsetf (f : BitVec 8)
  | flags (f : BitVec 8)
  | width (n : Int)
  deriving DecidableEq, Repr

/-- the field a call changes, ios_base.h:109-159 -/
def Op.field : Op → Fld
  | .setstate _ | .unsetstate _ | .clear _ => .state
  | .setf _ | .unsetf _ | .flags _ => .flags
  | .width _ => .width

/-- what a call does when nothing comes in between, ios_base.h:109-159 -/
def Op.apply (c : IosCfg) (s : Ios) : Op → Ios
  | .setstate b => s.setstate c b
  | .unsetstate b => s.unsetstate c b
  | .clear b => s.clear c b
  | .setf f => (s.setf f).1
  | .unsetf f => (s.unsetf f).1
  | .flags f => (s.setFlags f).1
  | .width n => (s.setWidth c n).1

/-- a store for field `a`: the fields that go with it are written, the others stay, ios_base.h:74-102 -/
def store (g : Links) (a : Fld) (mem reg : Ios) : Ios :=
  ⟨if g a .flags then reg.flags else mem.flags, if g a .state then reg.state else mem.state,
    if g a .width then reg.width else mem.width⟩

/-- where the main program is: between calls, before the load of one, before its store -/
inductive Pc where
  | idle
  | load (o : Op)
  | store (o : Op) (reg : Ios)
  deriving DecidableEq, Repr

/-- the stream, the main program's place, and the calls made so far by either side, in the order they were completed;
ios_base.h:74-102 -/
structure Shared where
  s : Ios
  pc : Pc
  done : List Op
  deriving DecidableEq, Repr

inductive Act where
  /-- the main program makes a call -/
  | call (o : Op)
  /-- its next access -/
  | tick
  /-- the handler makes a call -/
  | irq (o : Op)
  deriving DecidableEq, Repr

/-- one action, ios_base.h:109-159 -/
def step (c : IosCfg) (g : Links) (m : Shared) : Act → Shared
  | .call o =>
    match m.pc with
    | .idle => { m with pc := .load o }
    | _ => m
  | .tick =>
    match m.pc with
    | .idle => m
    | .load o => { m with pc := .store o m.s }
    | .store o reg => ⟨store g o.field m.s (o.apply c reg), .idle, m.done ++ [o]⟩
  | .irq o => { m with s := o.apply c m.s, done := m.done ++ [o] }

/-- a sequence of actions, ios_base.h:109-159 -/
def run (c : IosCfg) (g : Links) (m : Shared) (as : List Act) : Shared := as.foldl (step c g) m

namespace Spec

/-- the calls one after the other -/
def serial (c : IosCfg) (s : Ios) (os : List Op) : Ios := os.foldl (fun s o => o.apply c s) s

/-- the main program's stores leave the handler's fields alone -/
def Apart (g : Links) (as : List Act) : Prop :=
  ∀ a h, Act.call a ∈ as → Act.irq h ∈ as → g a.field h.field = false

/-- the error bits a call can set -/
def sets : Op → BitVec 8
  | .setstate b => b
  | .clear b => b
  | _ => 0

/-- the call takes no error bit away -/
def keeps : Op → Prop
  | .unsetstate _ | .clear _ => False
  | _ => True

/-- the call in an action -/
def op? : Act → Option Op
  | .call o => some o
  | .irq o => some o
  | .tick => none

end Spec

/-- the fields stored along with `a` are the same in both -/
def Agree (g : Links) (a : Fld) (s t : Ios) : Prop :=
  (g a .flags = true → s.flags = t.flags) ∧ (g a .state = true → s.state = t.state) ∧
    (g a .width = true → s.width = t.width)

theorem agree_other {c : IosCfg} {g : Links} {a : Fld} {s t : Ios} (h : Agree g a s t) (o : Op) (ho : g a o.field = false) :
    Agree g a s (o.apply c t) := by
  obtain ⟨h1, h2, h3⟩ := h
  cases o <;> simp only [Op.field] at ho <;>
    simp_all [Agree, Op.apply, Ios.setstate, Ios.unsetstate, Ios.clear, Ios.setf, Ios.unsetf, Ios.setFlags, Ios.setWidth]

theorem store_agree {c : IosCfg} {g : Links} (hg : ∀ f, g f f = true) {o : Op} {reg s : Ios} (h : Agree g o.field reg s) :
    store g o.field s (o.apply c reg) = o.apply c s := by
  obtain ⟨h1, h2, h3⟩ := h
  obtain ⟨sf, ss, sw⟩ := s
  obtain ⟨rf, rs, rw'⟩ := reg
  have hf := hg o.field
  cases o <;> simp only [Op.field] at * <;>
    simp only [store, Op.apply, Ios.setstate, Ios.unsetstate, Ios.clear, Ios.setf, Ios.unsetf, Ios.setFlags, Ios.setWidth,
      hf, if_true] <;>
    simp_all <;> (try constructor) <;> (try split) <;> simp_all

/-- **What either side sets holds until it is changed**, whenever the handler comes, if the main program's stores leave the
fields alone that the handler changes: the stream is as if all calls had been made one after the other. -/
theorem apart_serial_partial (c : IosCfg) (g : Links) (hg : ∀ f, g f f = true) (s : Ios) (as : List Act)
    (h : Spec.Apart g as) :
    (run c g ⟨s, .idle, []⟩ as).s = Spec.serial c s (run c g ⟨s, .idle, []⟩ as).done := by
  have key : ∀ (as : List Act) (m : Shared), Spec.Apart g as → m.s = Spec.serial c s m.done →
      (match m.pc with
        | .idle => True
        | .load a => ∀ o, Act.irq o ∈ as → g a.field o.field = false
        | .store a reg => Agree g a.field reg m.s ∧ ∀ o, Act.irq o ∈ as → g a.field o.field = false) →
      (run c g m as).s = Spec.serial c s (run c g m as).done := by
    intro as
    induction as with
    | nil => intro m _ h2 _; exact h2
    | cons x as ih =>
      intro m ha h2 h3
      have has : Spec.Apart g as := fun a o h1 h2 => ha a o (List.mem_cons_of_mem _ h1) (List.mem_cons_of_mem _ h2)
      show (run c g (step c g m x) as).s = Spec.serial c s (run c g (step c g m x) as).done
      obtain ⟨t, pc, D⟩ := m
      have snoc : ∀ o, Spec.serial c s (D ++ [o]) = o.apply c (Spec.serial c s D) := by
        intro o; simp [Spec.serial, List.foldl_append]
      simp only at h2
      apply ih _ has
      · cases x with
        | call o => cases pc <;> exact h2
        | irq o => show o.apply c t = Spec.serial c s (D ++ [o]); rw [snoc, ← h2]
        | tick =>
          cases pc with
          | idle => exact h2
          | load o => exact h2
          | store o reg =>
            show store g o.field t (o.apply c reg) = Spec.serial c s (D ++ [o])
            rw [snoc, ← h2]
            exact store_agree hg h3.1
      · cases x with
        | call o =>
          cases pc with
          | idle => exact fun p hp => ha o p List.mem_cons_self (List.mem_cons_of_mem _ hp)
          | load a => exact fun p hp => h3 p (List.mem_cons_of_mem _ hp)
          | store a reg => exact ⟨h3.1, fun p hp => h3.2 p (List.mem_cons_of_mem _ hp)⟩
        | irq o =>
          cases pc with
          | idle => trivial
          | load a => exact fun p hp => h3 p (List.mem_cons_of_mem _ hp)
          | store a reg =>
            exact ⟨agree_other h3.1 o (h3.2 o List.mem_cons_self), fun p hp => h3.2 p (List.mem_cons_of_mem _ hp)⟩
        | tick =>
          cases pc with
          | idle => trivial
          | load a => exact ⟨⟨fun _ => rfl, fun _ => rfl, fun _ => rfl⟩, fun p hp => h3 p (List.mem_cons_of_mem _ hp)⟩
          | store a reg => trivial
  exact key as ⟨s, .idle, []⟩ h rfl trivial

/-- Meets the hypotheses: byte by byte, the main program changes format flags while the handler reports the end of input. -/
example : (∀ f, bytes ⟨true⟩ f f = true) ∧
    Spec.Apart (bytes ⟨true⟩) [.call (.setf uppercase), .tick, .irq (.setstate eofbit), .tick] ∧
    (run ⟨true⟩ (bytes ⟨true⟩) ⟨Ios.init, .idle, []⟩
      [.call (.setf uppercase), .tick, .irq (.setstate eofbit), .tick]).s = ⟨dec ||| right ||| uppercase, eofbit, 0⟩ := by
  refine ⟨by intro f; cases f <;> decide, ?_, by decide⟩
  intro a h ha hh
  simp only [List.mem_cons, Act.call.injEq, Act.irq.injEq, List.not_mem_nil, reduceCtorEq, or_false, false_or] at ha hh
  subst ha hh
  decide

/-- **With bytes of their own, no field disturbs another**: without `FEATURE_ESTD_AGGRESSIVE_BITFIELD` and byte by byte, calls
of the main program and of the handler on different fields never get in each other's way. -/
theorem own_bytes (s : Ios) (as : List Act)
    (h : ∀ a o, Act.call a ∈ as → Act.irq o ∈ as → a.field ≠ o.field) :
    (run ⟨false⟩ (bytes ⟨false⟩) ⟨s, .idle, []⟩ as).s =
      Spec.serial ⟨false⟩ s (run ⟨false⟩ (bytes ⟨false⟩) ⟨s, .idle, []⟩ as).done :=
  apart_serial_partial _ _ (by intro f; simp [bytes]) s as (by intro a o ha ho; simpa [bytes] using h a o ha ho)

/-- Meets the hypothesis: the width is set while the handler reports the end of input. -/
example : (∀ a o, Act.call a ∈ [.call (.width 7), .tick, .irq (.setstate eofbit), .tick] →
      Act.irq o ∈ [Act.call (.width 7), .tick, .irq (.setstate eofbit), .tick] → a.field ≠ o.field) ∧
    (run ⟨false⟩ (bytes ⟨false⟩) ⟨Ios.init, .idle, []⟩ [.call (.width 7), .tick, .irq (.setstate eofbit), .tick]).s =
      ⟨dec ||| right, eofbit, 7⟩ := by
  refine ⟨?_, by decide⟩
  intro a h ha hh
  simp only [List.mem_cons, Act.call.injEq, Act.irq.injEq, List.not_mem_nil, reduceCtorEq, or_false, false_or] at ha hh
  subst ha hh
  decide

/-- **Errors known between two calls of the main program stay known**, on every processor and whatever the handler sets, as
long as neither side takes error bits away. -/
theorem known_errors_stay (c : IosCfg) (g : Links) (s : Ios) (D : List Op) (as : List Act) (b : BitVec 8)
    (hb : c.truncState b = b) (hs : s.rdstate &&& b = b) (h : ∀ x ∈ as, ∀ o, Spec.op? x = some o → Spec.keeps o) :
    (run c g ⟨s, .idle, D⟩ as).s.rdstate &&& b = b := by
  have mono : ∀ (o : Op) (t : Ios), Spec.keeps o → t.state &&& b = b → (o.apply c t).state &&& b = b := by
    intro o t ho ht
    cases o <;> simp only [Spec.keeps] at ho <;>
      simp only [Op.apply, Ios.setstate, Ios.setf, Ios.unsetf, Ios.setFlags, Ios.setWidth] <;> try exact ht
    rename_i x
    rw [IosCfg.truncState] at hb ⊢
    split
    · rename_i hc
      rw [if_pos hc] at hb
      apply BitVec.eq_of_getLsbD_eq
      intro i hi
      have e1 := congrArg (fun v => v.getLsbD i) ht
      have e2 := congrArg (fun v => v.getLsbD i) hb
      simp only [BitVec.getLsbD_and, BitVec.getLsbD_or] at e1 e2 ⊢
      revert e1 e2
      generalize BitVec.getLsbD b i = p
      generalize BitVec.getLsbD t.state i = q
      generalize BitVec.getLsbD x i = r
      generalize BitVec.getLsbD (0x0F : BitVec 8) i = u
      revert p q r u
      decide
    · apply BitVec.eq_of_getLsbD_eq
      intro i hi
      have e1 := congrArg (fun v => v.getLsbD i) ht
      simp only [BitVec.getLsbD_and, BitVec.getLsbD_or] at e1 ⊢
      revert e1
      generalize BitVec.getLsbD b i = p
      generalize BitVec.getLsbD t.state i = q
      generalize BitVec.getLsbD x i = r
      revert p q r
      decide
  have key : ∀ (as : List Act) (m : Shared), (∀ x ∈ as, ∀ o, Spec.op? x = some o → Spec.keeps o) → m.s.state &&& b = b →
      (match m.pc with
        | .idle => True
        | .load o => Spec.keeps o
        | .store o reg => Spec.keeps o ∧ reg.state &&& b = b) →
      (run c g m as).s.state &&& b = b := by
    intro as
    induction as with
    | nil => intro m _ h2 _; exact h2
    | cons x as ih =>
      intro m ha h2 h3
      have hx := ha x List.mem_cons_self
      show (run c g (step c g m x) as).s.state &&& b = b
      obtain ⟨t, pc, D⟩ := m
      simp only at h2
      apply ih _ (fun y hy => ha y (List.mem_cons_of_mem _ hy))
      · cases x with
        | call o => cases pc <;> exact h2
        | irq o => exact mono o t (hx o rfl) h2
        | tick =>
          cases pc with
          | idle => exact h2
          | load o => exact h2
          | store o reg =>
            show (store g o.field t (o.apply c reg)).state &&& b = b
            simp only [store]
            split
            · exact mono o reg h3.1 h3.2
            · exact h2
      · cases x with
        | call o =>
          cases pc with
          | idle => exact hx o rfl
          | load a => exact h3
          | store a reg => exact h3
        | irq o => cases pc <;> exact h3
        | tick =>
          cases pc with
          | idle => trivial
          | load a => exact ⟨h3, h2⟩
          | store a reg => trivial
  exact key as ⟨s, .idle, D⟩ h hs trivial

/-- Meets the hypotheses: a stream at its end, the main program and the handler both report more. -/
example : (⟨true⟩ : IosCfg).truncState eofbit = eofbit ∧ (⟨dec, eofbit, 0⟩ : Ios).rdstate &&& eofbit = eofbit ∧
    (∀ x ∈ ([.call (.setstate failbit), .tick, .irq (.setstate badbit), .tick, .call (.width 3), .tick, .tick] : List Act),
      ∀ o, Spec.op? x = some o → Spec.keeps o) ∧
    (run ⟨true⟩ whole ⟨⟨dec, eofbit, 0⟩, .idle, []⟩
      [.call (.setstate failbit), .tick, .irq (.setstate badbit), .tick, .call (.width 3), .tick, .tick]).s.rdstate =
      eofbit ||| failbit := by
  refine ⟨by decide, by decide, ?_, by decide⟩
  simp [Spec.op?, Spec.keeps]

/-- **No error is invented**: every error bit the stream shows was there at first or was given to a call of either side. -/
theorem no_error_invented (c : IosCfg) (g : Links) (s : Ios) (D : List Op) (as : List Act) (i : Nat)
    (h : (run c g ⟨s, .idle, D⟩ as).s.rdstate.getLsbD i = true) :
    s.rdstate.getLsbD i = true ∨ ∃ x ∈ as, ∃ o, Spec.op? x = some o ∧ (Spec.sets o).getLsbD i = true := by
  have grow : ∀ (o : Op) (t : Ios), (o.apply c t).state.getLsbD i = true →
      t.state.getLsbD i = true ∨ (Spec.sets o).getLsbD i = true := by
    intro o t ho
    have tr : ∀ v : BitVec 8, (c.truncState v).getLsbD i = true → v.getLsbD i = true := by
      intro v hv
      rw [IosCfg.truncState] at hv
      split at hv
      · rw [BitVec.getLsbD_and, Bool.and_eq_true] at hv; exact hv.1
      · exact hv
    cases o <;>
      simp only [Op.apply, Ios.setstate, Ios.unsetstate, Ios.clear, Ios.setf, Ios.unsetf, Ios.setFlags, Ios.setWidth] at ho
    · have := tr _ ho; rw [BitVec.getLsbD_or, Bool.or_eq_true] at this; exact this
    · have := tr _ ho; rw [BitVec.getLsbD_and, Bool.and_eq_true] at this; exact Or.inl this.1
    · exact Or.inr (tr _ ho)
    all_goals exact Or.inl ho
  have key : ∀ (as : List Act) (m : Shared) (Q : Prop), (m.s.state.getLsbD i = true → Q) →
      (∀ x ∈ as, ∀ o, Spec.op? x = some o → (Spec.sets o).getLsbD i = true → Q) →
      (match m.pc with
        | .idle => True
        | .load o => (Spec.sets o).getLsbD i = true → Q
        | .store o reg => ((Spec.sets o).getLsbD i = true → Q) ∧ (reg.state.getLsbD i = true → Q)) →
      (run c g m as).s.state.getLsbD i = true → Q := by
    intro as
    induction as with
    | nil => intro m Q h1 _ _ hr; exact h1 hr
    | cons x as ih =>
      intro m Q h1 h2 h3
      have hx := h2 x List.mem_cons_self
      show (run c g (step c g m x) as).s.state.getLsbD i = true → Q
      obtain ⟨t, pc, D⟩ := m
      simp only at h1
      apply ih _ Q _ (fun y hy => h2 y (List.mem_cons_of_mem _ hy))
      · cases x with
        | call o =>
          cases pc with
          | idle => exact hx o rfl
          | load a => exact h3
          | store a reg => exact h3
        | irq o => cases pc <;> exact h3
        | tick =>
          cases pc with
          | idle => trivial
          | load a => exact ⟨h3, h1⟩
          | store a reg => trivial
      · cases x with
        | call o => cases pc <;> exact h1
        | irq o => exact fun hr => (grow o t hr).elim h1 (hx o rfl)
        | tick =>
          cases pc with
          | idle => exact h1
          | load o => exact h1
          | store o reg =>
            show (store g o.field t (o.apply c reg)).state.getLsbD i = true → Q
            simp only [store]
            split
            · exact fun hr => (grow o reg hr).elim h3.2 h3.1
            · exact h1
  exact key as ⟨s, .idle, D⟩ _ Or.inl (fun x hx o ho hb => Or.inr ⟨x, hx, o, ho, hb⟩) trivial h

/-- Meets the hypothesis: a bit the handler has set. -/
example : (run ⟨true⟩ whole ⟨Ios.init, .idle, []⟩ [.irq (.setstate badbit), .call (.width 3), .tick, .tick]).s.rdstate.getLsbD 0 =
    true := by decide

/-- the handler's calls between load and store -/
theorem run_irqs (c : IosCfg) (g : Links) (pc : Pc) : ∀ (hs : List Op) (s : Ios) (D : List Op),
    run c g ⟨s, pc, D⟩ (hs.map .irq) = ⟨Spec.serial c s hs, pc, D ++ hs⟩ := by
  intro hs
  induction hs with
  | nil => intro s D; simp [run, Spec.serial]
  | cons o hs ih =>
    intro s D
    show run c g ⟨o.apply c s, pc, D ++ [o]⟩ (hs.map .irq) = _
    rw [ih]
    simp [Spec.serial]

/-- **What a handler between load and store loses**: in the fields stored along with the one the main program changes, all
the handler did is undone, the other fields are as the handler left them. -/
theorem between_load_and_store (c : IosCfg) (g : Links) (s : Ios) (D : List Op) (a : Op) (hs : List Op) :
    let t := (run c g ⟨s, .idle, D⟩ (.call a :: .tick :: (hs.map .irq ++ [.tick]))).s
    (t.flags = if g a.field .flags then (a.apply c s).flags else (Spec.serial c s hs).flags) ∧
    (t.state = if g a.field .state then (a.apply c s).state else (Spec.serial c s hs).state) ∧
    (t.width = if g a.field .width then (a.apply c s).width else (Spec.serial c s hs).width) := by
  have e : run c g ⟨s, .idle, D⟩ (.call a :: .tick :: (hs.map .irq ++ [.tick])) =
      step c g (run c g ⟨s, .store a s, D⟩ (hs.map .irq)) .tick := by
    show run c g ⟨s, .store a s, D⟩ (hs.map .irq ++ [.tick]) = _
    simp only [run, List.foldl_append, List.foldl_cons, List.foldl_nil]
  rw [e, run_irqs]
  exact ⟨rfl, rfl, rfl⟩

/-- A case: byte by byte, `width(3)` undoes the end of input but not the new format flags. -/
example : (run ⟨true⟩ (bytes ⟨true⟩) ⟨Ios.init, .idle, []⟩
    (.call (.width 3) :: .tick :: ([.setstate eofbit, .flags hex].map .irq ++ [.tick]))).s = ⟨hex, goodbit, 3⟩ := by decide

/-- **Violation.**  With four bits of state (the default) setting the width, which has nothing to do with errors, makes the
stream forget every error the handler has reported since the load, even byte by byte; so does any call that changes the
error state itself. -/
theorem width_forgets_errors (s : Ios) (D : List Op) (n : Int) (b : BitVec 8) :
    (run ⟨true⟩ (bytes ⟨true⟩) ⟨s, .idle, D⟩ [.call (.width n), .tick, .irq (.setstate b), .tick]).s.rdstate = s.rdstate ∧
    ∀ (c : IosCfg) (x : BitVec 8),
      (run c (bytes c) ⟨s, .idle, D⟩ [.call (.setstate x), .tick, .irq (.setstate b), .tick]).s.rdstate =
        c.truncState (s.rdstate ||| x) := by
  refine ⟨?_, ?_⟩
  · simp [run, step, store, bytes, Op.field, Op.apply, Ios.setWidth, Ios.rdstate]
  · intro c x
    simp [run, step, store, bytes, Op.field, Op.apply, Ios.setstate, Ios.rdstate]

/-- A case: the handler reports a bad stream, the stream stays good. -/
example : (run ⟨true⟩ (bytes ⟨true⟩) ⟨Ios.init, .idle, []⟩
    [.call (.width 3), .tick, .irq (.setstate badbit), .tick]).s.good = true := by decide

/-- **Violation.**  Where all of `struct state` is stored at once, every call of the main program makes the stream forget the
errors reported since the load, and the main program's settings never suffer. -/
theorem whole_forgets_errors (c : IosCfg) (s : Ios) (D : List Op) (a : Op) (hs : List Op) :
    (run c whole ⟨s, .idle, D⟩ (.call a :: .tick :: (hs.map .irq ++ [.tick]))).s = a.apply c s := by
  obtain ⟨h1, h2, h3⟩ := between_load_and_store c whole s D a hs
  simp only [whole, if_true] at h1 h2 h3
  generalize (run c whole ⟨s, .idle, D⟩ _).s = t at h1 h2 h3
  obtain ⟨f, st, w⟩ := t
  simp only at h1 h2 h3
  subst h1 h2 h3
  rfl

/-- A case: `hex` is set, the end of input is forgotten. -/
example : (run ⟨false⟩ whole ⟨Ios.init, .idle, []⟩ [.call (.setf hex), .tick, .irq (.setstate eofbit), .tick]).s.eof = false := by
  decide

end Verif.IosShared
