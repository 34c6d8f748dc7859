import Verif.Locks.Props

/-!
# C120: callbacks that are replaced while an interrupt handler calls them

The main program installs, replaces, takes away and calls callbacks; an interrupt handler, which runs to its end, calls
them and replaces them too.  Two kinds of function object: `detail::function` (`src/estd/internal/functional.h`), which
points at a callable somebody else owns, and `experimental::function` (`src/estd/functional.h`), which owns it.  The
implementation is the default one (`src/estd/internal/impl/functional/fnptr2.h`).  `none` is undefined behaviour.
Simplified: loads and stores of a pointer are indivisible and done in the order of the program; the heap is safe to use in
the handler; a callable does nothing but make itself known.
-/
namespace Verif.Func.Handler
open Verif.Locks (upd upd_same upd_other)

/-! ## A function object that owns its callable -/
namespace Own

/-- what has happened, in order -/
inductive Ev where
  /-- a callable is now installed -/
  | installed (x : Nat)
  /-- the installed callable has been destroyed -/
  | destroyed (x : Nat)
  /-- the installed callable has been moved to another function object -/
  | taken (x : Nat)
  | called (x : Nat)
  /-- `if(f) f();` did not call -/
  | skipped
  deriving DecidableEq, Repr

/-- where the main program is; each constructor names what it does next -/
inductive Pc where
  | idle
  /-- `f = callable`, functional.h:230-236: `reset()` tests `m`, functional.h:155 -/
  | reset (x : Nat)
  /-- `_deleter(base_type::m)`, functional.h:164, 141-147 -/
  | delete (p x : Nat)
  /-- the base constructor sets `m` to null: functional.h:234, internal/functional.h:190 -/
  | ctor (x : Nat)
  /-- `new model_type(std::move(t))`, functional.h:182 -/
  | new (x : Nat)
  /-- `base_type::m = m`, functional.h:183 -/
  | publish (q x : Nat)
  /-- `if(f)`, functional.h:244-247 -/
  | test
  /-- `f()` loads `m`, internal/functional.h:215 -/
  | load
  /-- `f()` calls through it, internal/functional.h:215, fnptr2.h:58-61, 99-104 -/
  | invoke (p : Nat)
  /-- `g(std::move(f))`: `other.getm()`, functional.h:220 -/
  | getm
  /-- `other.clear()`, functional.h:221, 133-136 -/
  | clear (p : Nat)
  deriving DecidableEq, Repr

/-- the heap (a model, fnptr2.h:64-105, by its callable; `none` once it is deleted), the pointer `m` of the function object
(internal/functional.h:184), the main program and what has happened -/
structure St where
  cells : List (Option Nat)
  m : Option Nat
  pc : Pc
  log : List Ev
  deriving DecidableEq, Repr

/-- `function f(callable)`, functional.h:173-184 -/
def start (x : Nat) : St := ⟨[some x], some 0, .idle, [.installed x]⟩

/-- what a handler does: call, guarded by `if(f)` or not, or assign another callable -/
inductive H where
  | call (guarded : Bool)
  | assign (x : Nat)
  deriving DecidableEq, Repr

/-- `_deleter(p)`, functional.h:141-147: the callable is destroyed and the memory freed; twice is undefined -/
def St.del (s : St) (p : Nat) : Option St :=
  match s.cells[p]? with
  | some (some x) => some { s with cells := s.cells.set p none, log := s.log ++ [.destroyed x] }
  | _ => none

/-- calling through a pointer, internal/functional.h:215, fnptr2.h:58-61, 99-104 -/
def St.invoke (s : St) (p : Nat) : Option St :=
  match s.cells[p]? with
  | some (some x) => some { s with log := s.log ++ [.called x] }
  | _ => none

/-- `new model_type(...)` and the store of the pointer, functional.h:182-183, in one go -/
def St.install (s : St) (x : Nat) : St :=
  { s with cells := s.cells ++ [some x], m := some s.cells.length, log := s.log ++ [.installed x] }

/-- a whole call or assignment in the handler, functional.h:152-165, 230-247, internal/functional.h:204-216 -/
def St.handle (s : St) : H → Option St
  | .call guarded =>
    match s.m with
    | some p => s.invoke p
    | none => if guarded then some { s with log := s.log ++ [.skipped] } else none
  | .assign x =>
    match s.m with
    | some p => (s.del p).map (·.install x)
    | none => some (s.install x)

def St.handles (s : St) : List H → Option St
  | [] => some s
  | h :: hs => (s.handle h).bind (·.handles hs)

/-- the next step of the main program; the lines are given at `Pc` -/
def St.tick (s : St) : Option St :=
  match s.pc with
  | .idle => some s
  | .reset x =>
    match s.m with
    | some p => some { s with pc := .delete p x }
    | none => some { s with pc := .ctor x }
  | .delete p x => (s.del p).map fun s' => { s' with pc := .ctor x }
  | .ctor x => some { s with m := none, pc := .new x }
  | .new x => some { s with cells := s.cells ++ [some x], pc := .publish s.cells.length x }
  | .publish q x => some { s with m := some q, pc := .idle, log := s.log ++ [.installed x] }
  | .test =>
    match s.m with
    | some _ => some { s with pc := .load }
    | none => some { s with pc := .idle, log := s.log ++ [.skipped] }
  | .load =>
    match s.m with
    | some p => some { s with pc := .invoke p }
    | none => none
  | .invoke p => (s.invoke p).map fun s' => { s' with pc := .idle }
  | .getm =>
    match s.m with
    | some p => some { s with pc := .clear p }
    | none => some { s with pc := .idle }
  | .clear p =>
    match s.cells[p]? with
    | some (some x) => some { s with m := none, pc := .idle, log := s.log ++ [.taken x] }
    | _ => none

/-- The main program begins something (when it is between calls), goes on, or is interrupted. -/
inductive Act where
  | assign (x : Nat)
  | call (guarded : Bool)
  | take
  | tick
  | irq (hs : List H)
  deriving DecidableEq, Repr

/-- functional.h:230-247, internal/functional.h:204-216, as split up in `Pc` -/
def St.act (s : St) : Act → Option St
  | .assign x => if s.pc = .idle then some { s with pc := .reset x } else some s
  | .call guarded => if s.pc = .idle then some { s with pc := if guarded then .test else .load } else some s
  | .take => if s.pc = .idle then some { s with pc := .getm } else some s
  | .tick => s.tick
  | .irq hs => s.handles hs

def St.run (s : St) : List Act → Option St
  | [] => some s
  | a :: as => (s.act a).bind (·.run as)

/-! ### The specification -/

/-- One callback or none: a new one comes only after the old one has gone; only the installed one is called, destroyed or
taken; a guarded call is skipped only when there is none. -/
inductive Spec.Leads : Option Nat → List Ev → Option Nat → Prop where
  | nil (c) : Spec.Leads c [] c
  | installed {x es c'} : Spec.Leads (some x) es c' → Spec.Leads none (.installed x :: es) c'
  | destroyed {x es c'} : Spec.Leads none es c' → Spec.Leads (some x) (.destroyed x :: es) c'
  | taken {x es c'} : Spec.Leads none es c' → Spec.Leads (some x) (.taken x :: es) c'
  | called {x es c'} : Spec.Leads (some x) es c' → Spec.Leads (some x) (.called x :: es) c'
  | skipped {es c'} : Spec.Leads none es c' → Spec.Leads none (.skipped :: es) c'

/-- the callbacks that came, and those that went, in order -/
def Spec.came : List Ev → List Nat := List.filterMap fun | .installed x => some x | _ => none
def Spec.went : List Ev → List Nat := List.filterMap fun | .destroyed x => some x | .taken x => some x | _ => none

/-- the callback that the log ends with -/
def Spec.last : List Ev → Option Nat :=
  List.foldl (fun c e => match e with | .installed x => some x | .destroyed _ => none | .taken _ => none | _ => c) none

/-- when a handler may call: not when the old callback is gone and the pointer to it still there -/
def Spec.mayCall : Pc → Prop
  | .ctor _ => False
  | _ => True

/-- when a handler may assign: not while the main program assigns or takes the callback, nor while it runs it -/
def Spec.mayAssign : Pc → Prop
  | .idle | .reset _ | .test | .load | .getm => True
  | _ => False

/-- what a handler may do when it finds the main program at `pc` and the callback `c`; a call without `if(f)` needs one -/
def Spec.mayAll (pc : Pc) : Option Nat → List H → Prop
  | _, [] => True
  | c, .call guarded :: hs => Spec.mayCall pc ∧ (guarded = false → c ≠ none) ∧ Spec.mayAll pc c hs
  | _, .assign x :: hs => Spec.mayAssign pc ∧ Spec.mayAll pc (some x) hs

def Spec.legal (s : St) : List Act → Prop
  | [] => True
  | a :: as =>
    (match a with
      | .irq hs => Spec.mayAll s.pc (Spec.last s.log) hs
      | .call guarded => s.pc = .idle → guarded = false → Spec.last s.log ≠ none
      | _ => True) ∧
    ∀ s', s.act a = some s' → Spec.legal s' as

/-- the function object has the callback `c` -/
def Spec.Has (s : St) : Option Nat → Prop
  | none => s.m = none
  | some x => ∃ p, s.m = some p ∧ s.cells[p]? = some (some x)

/-! ### Proofs -/

theorem Leads.snoc {e : Ev} : ∀ {c c' c'' : Option Nat} {es : List Ev}, Spec.Leads c es c' → Spec.Leads c' [e] c'' →
    Spec.Leads c (es ++ [e]) c'' := by
  intro c c' c'' es h h'
  induction h with
  | nil c => exact h'
  | installed _ ih => exact .installed (ih h')
  | destroyed _ ih => exact .destroyed (ih h')
  | taken _ ih => exact .taken (ih h')
  | called _ ih => exact .called (ih h')
  | skipped _ ih => exact .skipped (ih h')

theorem leads_last {c c' : Option Nat} {es : List Ev} (h : Spec.Leads c es c') :
    es.foldl (fun c e => match e with | .installed x => some x | .destroyed _ => none | .taken _ => none | _ => c) c = c' := by
  induction h with
  | nil c => rfl
  | installed _ ih => exact ih
  | destroyed _ ih => exact ih
  | taken _ ih => exact ih
  | called _ ih => exact ih
  | skipped _ ih => exact ih

/-- what holds at each point of a legal schedule, `c` being the callback -/
def Inv (s : St) (c : Option Nat) : Prop :=
  Spec.Leads none s.log c ∧
  match s.pc with
  | .idle | .reset _ | .test | .getm => Spec.Has s c
  | .delete p _ | .invoke p | .clear p => s.m = some p ∧ ∃ x, c = some x ∧ s.cells[p]? = some (some x)
  | .ctor _ => c = none
  | .new _ => c = none ∧ s.m = none
  | .publish q x => c = none ∧ s.m = none ∧ s.cells[q]? = some (some x)
  | .load => Spec.Has s c ∧ c ≠ none

theorem Inv.last {s : St} {c : Option Nat} (h : Inv s c) : Spec.last s.log = c := leads_last h.1

/-- wherever a handler may call, the pointer shows the callback -/
theorem Inv.has {s : St} {c : Option Nat} (h : Inv s c) (hc : Spec.mayCall s.pc) : Spec.Has s c := by
  obtain ⟨hl, h⟩ := h
  cases hp : s.pc <;> rw [hp] at h hc <;> simp only at h
  case idle => exact h
  case reset => exact h
  case test => exact h
  case getm => exact h
  case delete => obtain ⟨h1, x, rfl, h2⟩ := h; exact ⟨_, h1, h2⟩
  case invoke => obtain ⟨h1, x, rfl, h2⟩ := h; exact ⟨_, h1, h2⟩
  case clear => obtain ⟨h1, x, rfl, h2⟩ := h; exact ⟨_, h1, h2⟩
  case ctor => exact absurd hc (by simp [Spec.mayCall])
  case new => obtain ⟨rfl, h2⟩ := h; exact h2
  case publish => obtain ⟨rfl, h2, _⟩ := h; exact h2
  case load => exact h.1

theorem inv_log {s : St} {c : Option Nat} (h : Inv s c) (e : Ev) (he : Spec.Leads c [e] c) :
    Inv { s with log := s.log ++ [e] } c := by
  obtain ⟨hl, h⟩ := h
  refine ⟨Leads.snoc hl he, ?_⟩
  simp only
  cases hp : s.pc <;> rw [hp] at h <;> simp only at h ⊢ <;> first | exact h | (cases c <;> exact h)

theorem del_ok {s : St} {p x : Nat} (h : s.cells[p]? = some (some x)) :
    s.del p = some { s with cells := s.cells.set p none, log := s.log ++ [.destroyed x] } := by
  unfold St.del; rw [h]

theorem invoke_ok {s : St} {p x : Nat} (h : s.cells[p]? = some (some x)) :
    s.invoke p = some { s with log := s.log ++ [.called x] } := by
  unfold St.invoke; rw [h]

theorem handle_call {s : St} {p : Nat} (h : s.m = some p) (g : Bool) : s.handle (.call g) = s.invoke p := by
  simp only [St.handle, h]

theorem handle_assign {s : St} {p : Nat} (h : s.m = some p) (x : Nat) :
    s.handle (.assign x) = (s.del p).map (·.install x) := by
  simp only [St.handle, h]

theorem handle_ok {s : St} {c : Option Nat} (h : Inv s c) (x : H) (hs : List H) (hm : Spec.mayAll s.pc c (x :: hs)) :
    ∃ s' c', s.handle x = some s' ∧ Inv s' c' ∧ s'.pc = s.pc ∧ Spec.mayAll s.pc c' hs := by
  cases x with
  | call guarded =>
    obtain ⟨h1, h2, h3⟩ := hm
    have hh := h.has h1
    cases c with
    | none =>
      have hm : s.m = none := hh
      have hg : guarded = true := by cases guarded with
        | true => rfl
        | false => exact absurd rfl (h2 rfl)
      exact ⟨{ s with log := s.log ++ [.skipped] }, none, by simp [St.handle, hm, hg], inv_log h .skipped (.skipped (.nil _)), rfl, h3⟩
    | some y =>
      obtain ⟨p, hp, hy⟩ := hh
      exact ⟨{ s with log := s.log ++ [.called y] }, some y, by rw [handle_call hp, invoke_ok hy], inv_log h (.called y) (.called (.nil _)), rfl, h3⟩
  | assign y =>
    obtain ⟨h1, h3⟩ := hm
    have hc : Spec.mayCall s.pc := by
      cases hp : s.pc <;> rw [hp] at h1 <;> first | trivial | exact absurd h1 (by simp [Spec.mayAssign])
    have hh := h.has hc
    have key : ∀ s1 : St, s1.pc = s.pc → Spec.Leads none s1.log none → Inv (s1.install y) (some y) := by
      intro s1 e1 e2
      refine ⟨Leads.snoc e2 (.installed (.nil _)), ?_⟩
      have hx : Spec.Has (s1.install y) (some y) := ⟨_, rfl, by simp [St.install]⟩
      show match s1.pc with
        | .idle | .reset _ | .test | .getm => _
        | .delete p _ | .invoke p | .clear p => _
        | .ctor _ => _
        | .new _ => _
        | .publish q x => _
        | .load => _
      rw [e1]
      cases hp : s.pc <;> rw [hp] at h1 <;> simp only <;>
        first | exact hx | exact ⟨hx, by simp⟩ | exact absurd h1 (by simp [Spec.mayAssign])
    cases c with
    | none =>
      have hm : s.m = none := hh
      exact ⟨_, some y, by simp only [St.handle, hm], key s rfl h.1, rfl, h3⟩
    | some z =>
      obtain ⟨p, hp, hz⟩ := hh
      have hd := del_ok hz
      have h4 := key { s with cells := s.cells.set p none, log := s.log ++ [.destroyed z] } rfl
        (Leads.snoc h.1 (.destroyed (.nil _)))
      refine ⟨_, some y, ?_, h4, rfl, h3⟩
      rw [handle_assign hp, hd]; rfl

theorem handles_ok : ∀ (hs : List H) {s : St} {c : Option Nat}, Inv s c → Spec.mayAll s.pc c hs →
    ∃ s' c', s.handles hs = some s' ∧ Inv s' c' ∧ s'.pc = s.pc := by
  intro hs
  induction hs with
  | nil => intro s c h _; exact ⟨s, c, rfl, h, rfl⟩
  | cons x hs ih =>
    intro s c h hm
    obtain ⟨s1, c1, e1, h1, hp1, hm1⟩ := handle_ok h x hs hm
    obtain ⟨s2, c2, e2, h2, hp2⟩ := ih h1 (by rw [hp1]; exact hm1)
    exact ⟨s2, c2, by simp only [St.handles, e1, Option.bind_some]; exact e2, h2, by rw [hp2, hp1]⟩

theorem tick_ok {s : St} {c : Option Nat} (h : Inv s c) : ∃ s' c', s.tick = some s' ∧ Inv s' c' := by
  obtain ⟨hl, h⟩ := h
  obtain ⟨cells, m, pc, log⟩ := s
  cases pc with
  | idle => exact ⟨_, c, rfl, hl, h⟩
  | reset x =>
    cases c with
    | none => cases (show m = none from h); exact ⟨_, none, rfl, hl, rfl⟩
    | some y => obtain ⟨p, hp, hy⟩ := h; cases (show m = some p from hp); exact ⟨_, some y, rfl, hl, rfl, y, rfl, hy⟩
  | delete p x =>
    obtain ⟨_, y, rfl, hy⟩ := h
    exact ⟨_, none, by simp only [St.tick, del_ok hy]; rfl, Leads.snoc hl (.destroyed (.nil _)), rfl⟩
  | ctor x => cases (show c = none from h); exact ⟨_, none, rfl, hl, rfl, rfl⟩
  | new x => obtain ⟨rfl, hm⟩ := h; exact ⟨_, none, rfl, hl, rfl, hm, by simp⟩
  | publish q x =>
    obtain ⟨rfl, _, hq⟩ := h
    exact ⟨_, some x, rfl, Leads.snoc hl (.installed (.nil _)), q, rfl, hq⟩
  | test =>
    cases c with
    | none => cases (show m = none from h); exact ⟨_, none, rfl, Leads.snoc hl (.skipped (.nil _)), rfl⟩
    | some y => obtain ⟨p, hp, hy⟩ := h; cases (show m = some p from hp); exact ⟨_, some y, rfl, hl, ⟨p, rfl, hy⟩, by simp⟩
  | load =>
    obtain ⟨h, hc⟩ := h
    cases c with
    | none => exact absurd rfl hc
    | some y => obtain ⟨p, hp, hy⟩ := h; cases (show m = some p from hp); exact ⟨_, some y, rfl, hl, rfl, y, rfl, hy⟩
  | invoke p =>
    obtain ⟨hm, y, rfl, hy⟩ := h
    exact ⟨⟨cells, m, .idle, log ++ [.called y]⟩, some y, by simp only [St.tick, invoke_ok hy]; rfl, Leads.snoc hl (.called (.nil _)), p, hm, hy⟩
  | getm =>
    cases c with
    | none => cases (show m = none from h); exact ⟨_, none, rfl, hl, rfl⟩
    | some y => obtain ⟨p, hp, hy⟩ := h; cases (show m = some p from hp); exact ⟨_, some y, rfl, hl, rfl, y, rfl, hy⟩
  | clear p =>
    obtain ⟨_, y, rfl, hy⟩ := h
    have hy : cells[p]? = some (some y) := hy
    exact ⟨⟨cells, none, .idle, log ++ [.taken y]⟩, none, by simp only [St.tick, hy], Leads.snoc hl (.taken (.nil _)), rfl⟩

theorem run_ok : ∀ (as : List Act) {s : St} {c : Option Nat}, Inv s c → Spec.legal s as →
    ∃ s' c', s.run as = some s' ∧ Inv s' c' := by
  intro as
  induction as with
  | nil => intro s c h _; exact ⟨s, c, rfl, h⟩
  | cons a as ih =>
    intro s c h hl
    obtain ⟨h1, h2⟩ := hl
    have key : ∃ s' c', s.act a = some s' ∧ Inv s' c' := by
      cases a with
      | tick => exact tick_ok h
      | irq hs =>
        rw [h.last] at h1
        obtain ⟨s', c', e, hi, _⟩ := handles_ok hs h h1
        exact ⟨s', c', e, hi⟩
      | assign x =>
        by_cases hp : s.pc = .idle
        · obtain ⟨hl, h⟩ := h
          rw [hp] at h
          exact ⟨{ s with pc := .reset x }, c, by simp only [St.act, hp, if_true], hl, by cases c <;> exact h⟩
        · exact ⟨s, c, by simp [St.act, hp], h⟩
      | take =>
        by_cases hp : s.pc = .idle
        · obtain ⟨hl, h⟩ := h
          rw [hp] at h
          exact ⟨{ s with pc := .getm }, c, by simp only [St.act, hp, if_true], hl, by cases c <;> exact h⟩
        · exact ⟨s, c, by simp [St.act, hp], h⟩
      | call guarded =>
        by_cases hp : s.pc = .idle
        · have hlast := h.last
          obtain ⟨hl, h⟩ := h
          rw [hp] at h
          cases guarded with
          | true => exact ⟨{ s with pc := .test }, c, by simp only [St.act, hp, if_true], hl, by cases c <;> exact h⟩
          | false =>
            have hc := h1 hp rfl
            rw [hlast] at hc
            exact ⟨{ s with pc := .load }, c, by simp [St.act, hp], hl, by cases c <;> exact h, hc⟩
        · exact ⟨s, c, by simp [St.act, hp], h⟩
    obtain ⟨s', c', e, hi⟩ := key
    obtain ⟨s'', c'', e', hi'⟩ := ih hi (h2 s' e)
    exact ⟨s'', c'', by simp only [St.run, e, Option.bind_some]; exact e', hi'⟩

/-- **Every schedule** in which handlers do what they may, where they may: nothing is undefined, what happens is what happens
to a program that does one thing at a time with one callback, and between calls the function object has that callback.
Missing: handlers anywhere (`replaced_calls_dead`, `running_dies`, `replaced_twice`, `replaced_leaks`). -/
theorem owner_history_partial (x : Nat) (as : List Act) (hl : Spec.legal (start x) as) :
    ∃ s c, (start x).run as = some s ∧ Spec.Leads none s.log c ∧ (s.pc = .idle → Spec.Has s c) := by
  obtain ⟨s, c, e, hi⟩ := run_ok as (c := some x) (s := start x) ⟨.installed (.nil _), 0, rfl, rfl⟩ hl
  exact ⟨s, c, e, hi.1, fun hp => hi.has (by rw [hp]; trivial)⟩

/-- **Each callback is destroyed or handed on exactly once**, in the order they came; the last one may still be there. -/
theorem went_once {c c' : Option Nat} {es : List Ev} (h : Spec.Leads c es c') :
    c.toList ++ Spec.came es = Spec.went es ++ c'.toList := by
  induction h with
  | nil c => simp [Spec.came, Spec.went]
  | installed _ ih => simpa [Spec.came, Spec.went] using ih
  | destroyed _ ih => simpa [Spec.came, Spec.went] using ih
  | taken _ ih => simpa [Spec.came, Spec.went] using ih
  | called _ ih => simpa [Spec.came, Spec.went] using ih
  | skipped _ ih => simpa [Spec.came, Spec.went] using ih

/-- a schedule with handlers in the middle of an assignment and of a call -/
example : let as : List Act := [.assign 2, .tick, .irq [.call true], .tick, .tick, .irq [.call true], .tick, .tick, .irq [.call false],
      .call true, .tick, .irq [.assign 3, .call true], .tick, .tick, .take, .tick, .irq [.call false], .tick]
    Spec.legal (start 1) as ∧
    ((start 1).run as).map (·.log) = some [.installed 1, .called 1, .destroyed 1, .skipped, .installed 2, .called 2, .destroyed 2,
      .installed 3, .called 3, .called 3, .called 3, .taken 3] := by
  refine ⟨?_, by decide +kernel⟩
  simp [Spec.legal, St.act, start, St.tick, St.handles, St.handle, Spec.mayAll, St.del, St.invoke, Spec.mayCall, Spec.last,
    St.install, Spec.mayAssign]

/-- **Violation.**  A handler that runs, in an assignment, after the old callback has been destroyed and before the pointer
is cleared calls the destroyed callback, although it asks `if(f)` first: for every function object with a callback. -/
theorem replaced_calls_dead (cells : List (Option Nat)) (p x y : Nat) (log : List Ev) (hp : cells[p]? = some (some x))
    (guarded : Bool) (more : List Act) :
    (⟨cells, some p, .idle, log⟩ : St).run (.assign y :: .tick :: .tick :: .irq [.call guarded] :: more) = none := by
  obtain ⟨hlt, _⟩ := List.getElem?_eq_some_iff.mp hp
  have hd : (cells.set p none)[p]? = some none := by simp [hlt]
  simp [St.run, St.act, St.tick, St.handles, St.handle, St.del, St.invoke, hp, hd]

/-- **Violation.**  A handler that assigns another callback while the main program is about to run the one it has looked up
takes it away: the call goes to the destroyed callback. -/
theorem running_dies (cells : List (Option Nat)) (p x y : Nat) (log : List Ev) (hp : cells[p]? = some (some x)) (more : List Act) :
    (⟨cells, some p, .idle, log⟩ : St).run (.call true :: .tick :: .tick :: .irq [.assign y] :: .tick :: more) = none := by
  obtain ⟨hlt, _⟩ := List.getElem?_eq_some_iff.mp hp
  have hd : (cells.set p none ++ [some y])[p]? = some none := by
    rw [List.getElem?_append_left (by simpa using hlt)]; simp [hlt]
  simp [St.run, St.act, St.tick, St.handles, St.handle, St.del, St.invoke, St.install, hp, hd]

/-- **Violation.**  A handler that assigns between the test and the delete of an assignment in the main program makes it
destroy the old callback a second time. -/
theorem replaced_twice (cells : List (Option Nat)) (p x y z : Nat) (log : List Ev) (hp : cells[p]? = some (some x)) (more : List Act) :
    (⟨cells, some p, .idle, log⟩ : St).run (.assign y :: .tick :: .irq [.assign z] :: .tick :: more) = none := by
  obtain ⟨hlt, _⟩ := List.getElem?_eq_some_iff.mp hp
  have hd : (cells.set p none ++ [some z])[p]? = some none := by
    rw [List.getElem?_append_left (by simpa using hlt)]; simp [hlt]
  simp [St.run, St.act, St.tick, St.handles, St.handle, St.del, St.install, hp, hd]

/-- **Violation.**  A callback that a handler assigns after the main program has cleared the pointer, and before it stores
its own, is lost: it is never destroyed, although nothing refers to it. -/
theorem replaced_leaks (cells : List (Option Nat)) (p x y z : Nat) (log : List Ev) (hp : cells[p]? = some (some x)) :
    ∃ s, (⟨cells, some p, .idle, log⟩ : St).run [.assign y, .tick, .tick, .tick, .irq [.assign z], .tick, .tick] = some s ∧
      s.pc = .idle ∧ s.log = log ++ [.destroyed x, .installed z, .installed y] ∧
      s.cells[cells.length]? = some (some z) ∧ s.m = some (cells.length + 1) ∧ s.cells[cells.length + 1]? = some (some y) ∧
      ∀ c c', ¬ Spec.Leads c s.log c' := by
  refine ⟨⟨cells.set p none ++ [some z] ++ [some y], some (cells.length + 1), .idle,
    log ++ [.destroyed x, .installed z, .installed y]⟩, ?_, rfl, rfl, ?_, rfl, ?_, ?_⟩
  · simp [St.run, St.act, St.tick, St.handles, St.handle, St.del, St.install, hp]
  · simp
  · simp
  · intro c c' h
    have : ∀ (l : List Ev) (c : Option Nat), ¬ Spec.Leads c (l ++ [.destroyed x, .installed z, .installed y]) c' := by
      intro l
      induction l with
      | nil => intro c h; cases h with | destroyed h => cases h with | installed h => cases h
      | cons e l ih =>
        intro c h
        cases h with
        | installed h => exact ih _ h
        | destroyed h => exact ih _ h
        | taken h => exact ih _ h
        | called h => exact ih _ h
        | skipped h => exact ih _ h
    exact this log c h

end Own

/-! ## Function objects that point at a callable -/
namespace Point

/-- what has happened, in order.  What the main program loads it stores elsewhere (copying) or calls. -/
inductive Ev where
  /-- a function object points at a callable, or nothing -/
  | set (v : Nat) (c : Option Nat)
  /-- the handler copies one function object to another -/
  | copied (v w : Nat)
  /-- the handler calls -/
  | called (v x : Nat)
  /-- `if(f) f();` did not call -/
  | skipped (v : Nat)
  /-- the main program looks up what `v` points at -/
  | load (v : Nat)
  /-- the main program makes `v` point at what it looked up -/
  | stored (v : Nat)
  /-- the main program calls what it looked up -/
  | invoked (x : Nat)
  deriving DecidableEq, Repr

/-- where the main program is; each constructor names what it does next -/
inductive Pc where
  | idle
  /-- `v = w`, internal/functional.h:199: loads `w.m` -/
  | copy (v w : Nat)
  /-- and stores it -/
  | store (v : Nat) (r : Option Nat)
  /-- `if(v)`, internal/functional.h:218 -/
  | test (v : Nat)
  /-- `v()` loads `m`, internal/functional.h:215 -/
  | load (v : Nat)
  /-- `v()` calls through it, internal/functional.h:215, fnptr2.h:58-61, 99-104 -/
  | invoke (r : Option Nat)
  deriving DecidableEq, Repr

/-- the models (fnptr2.h:64-105) in memory, by their callable, `none` once they are gone; the pointers `m` of the function
objects (internal/functional.h:184), the main program and what has happened -/
structure St where
  cells : List (Option Nat)
  m : Nat → Option Nat
  pc : Pc
  log : List Ev

/-- no models yet; `function(nullptr)`, internal/functional.h:190 -/
def start : St := ⟨[], fun _ => none, .idle, []⟩

/-- what a handler does: `v = function(&model)` or `v = nullptr`, `v = w`, `v()` with or without `if(v)` -/
inductive H where
  | set (v : Nat) (r : Option Nat)
  | copy (v w : Nat)
  | call (v : Nat) (guarded : Bool)
  deriving DecidableEq, Repr

/-- the callable behind a pointer -/
def St.at (s : St) (r : Option Nat) : Option Nat := r.bind fun p => (s.cells[p]?).bind id

/-- A whole operation, internal/functional.h:190-218. -/
def St.handle (s : St) : H → Option St
  | .set v r => some { s with m := upd s.m v r, log := s.log ++ [.set v (s.at r)] }
  | .copy v w => some { s with m := upd s.m v (s.m w), log := s.log ++ [.copied v w] }
  | .call v guarded =>
    if guarded = true ∧ s.m v = none then some { s with log := s.log ++ [.skipped v] }
    else (s.at (s.m v)).map fun x => { s with log := s.log ++ [.called v x] }

def St.handles (s : St) : List H → Option St
  | [] => some s
  | h :: hs => (s.handle h).bind (·.handles hs)

/-- the next step of the main program; the lines are given at `Pc` -/
def St.tick (s : St) : Option St :=
  match s.pc with
  | .idle => some s
  | .copy v w => some { s with pc := .store v (s.m w), log := s.log ++ [.load w] }
  | .store v r => some { s with m := upd s.m v r, pc := .idle, log := s.log ++ [.stored v] }
  | .test v =>
    match s.m v with
    | some _ => some { s with pc := .load v }
    | none => some { s with pc := .idle, log := s.log ++ [.skipped v] }
  | .load v => some { s with pc := .invoke (s.m v), log := s.log ++ [.load v] }
  | .invoke r => (s.at r).map fun x => { s with pc := .idle, log := s.log ++ [.invoked x] }

/-- The main program makes a model or lets one go, begins an operation on function objects (when it is between calls; setting
one is a single store), goes on, or is interrupted. -/
inductive Act where
  | make (x : Nat)
  | drop (p : Nat)
  | set (v : Nat) (r : Option Nat)
  | copy (v w : Nat)
  | call (v : Nat) (guarded : Bool)
  | tick
  | irq (hs : List H)
  deriving DecidableEq, Repr

/-- the end of a model's life; the callable it holds is not told apart from it, fnptr2.h:64-86 -/
def St.drop (s : St) (p : Nat) : St := { s with cells := s.cells.set p none }

/-- internal/functional.h:190-223, as split up in `Pc` -/
def St.act (s : St) : Act → Option St
  | .make x => if s.pc = .idle then some { s with cells := s.cells ++ [some x] } else some s
  | .drop p => if s.pc = .idle then some (s.drop p) else some s
  | .set v r => if s.pc = .idle then s.handle (.set v r) else some s
  | .copy v w => if s.pc = .idle then some { s with pc := .copy v w } else some s
  | .call v guarded => if s.pc = .idle then some { s with pc := if guarded then .test v else .load v } else some s
  | .tick => s.tick
  | .irq hs => s.handles hs

def St.run (s : St) : List Act → Option St
  | [] => some s
  | a :: as => (s.act a).bind (·.run as)

/-! ### The specification -/

/-- `c v` is the callable that function object `v` stands for, `r` what the main program looked up last.  Assigning gives a
function object the callable that the other one has at that moment; a call reaches the callable the function object has;
a guarded call is skipped only when it has none. -/
inductive Spec.Leads : (Nat → Option Nat) → Option Nat → List Ev → (Nat → Option Nat) → Option Nat → Prop where
  | nil (c r) : Spec.Leads c r [] c r
  | set {c r v x es c' r'} : Spec.Leads (upd c v x) r es c' r' → Spec.Leads c r (.set v x :: es) c' r'
  | copied {c r v w es c' r'} : Spec.Leads (upd c v (c w)) r es c' r' → Spec.Leads c r (.copied v w :: es) c' r'
  | called {c r v x es c' r'} : c v = some x → Spec.Leads c r es c' r' → Spec.Leads c r (.called v x :: es) c' r'
  | skipped {c r v es c' r'} : c v = none → Spec.Leads c r es c' r' → Spec.Leads c r (.skipped v :: es) c' r'
  | load {c r v es c' r'} : Spec.Leads c (c v) es c' r' → Spec.Leads c r (.load v :: es) c' r'
  | stored {c r v es c' r'} : Spec.Leads (upd c v r) r es c' r' → Spec.Leads c r (.stored v :: es) c' r'
  | invoked {c x es c' r'} : Spec.Leads c (some x) es c' r' → Spec.Leads c (some x) (.invoked x :: es) c' r'

/-- pointing at a model that is there, or at nothing -/
def Spec.Good (cells : List (Option Nat)) (r : Option Nat) : Prop := ∀ p, r = some p → ∃ x, cells[p]? = some (some x)

/-- What a handler may do when the main program is at `pc` and the pointers are `m`: point at models that are there; call
without `if` only what points at something; and, while the main program has tested a function object that it is about to
call, not take the callable away from it. -/
def Spec.mayAll (cells : List (Option Nat)) (pc : Pc) : (Nat → Option Nat) → List H → Prop
  | _, [] => True
  | m, .set v r :: hs => Spec.Good cells r ∧ (pc = .load v → r ≠ none) ∧ Spec.mayAll cells pc (upd m v r) hs
  | m, .copy v w :: hs => (pc = .load v → m w ≠ none) ∧ Spec.mayAll cells pc (upd m v (m w)) hs
  | m, .call v guarded :: hs => (guarded = false → m v ≠ none) ∧ Spec.mayAll cells pc m hs

/-- The main program, too, points only at models that are there, lets a model go only when nothing points at it, and calls
without `if` only what points at something. -/
def Spec.legal (s : St) : List Act → Prop
  | [] => True
  | a :: as =>
    (match a with
      | .irq hs => Spec.mayAll s.cells s.pc s.m hs
      | .set _ r => Spec.Good s.cells r
      | .drop p => ∀ v, s.m v ≠ some p
      | .call v guarded => s.pc = .idle → guarded = false → s.m v ≠ none
      | _ => True) ∧
    ∀ s', s.act a = some s' → Spec.legal s' as

/-! ### Proofs -/

theorem Leads.snoc {e : Ev} {c'' : Nat → Option Nat} {r'' : Option Nat} :
    ∀ {c c' : Nat → Option Nat} {r r' : Option Nat} {es : List Ev}, Spec.Leads c r es c' r' → Spec.Leads c' r' [e] c'' r'' →
    Spec.Leads c r (es ++ [e]) c'' r'' := by
  intro c c' r r' es h h'
  induction h with
  | nil c => exact h'
  | set _ ih => exact .set (ih h')
  | copied _ ih => exact .copied (ih h')
  | called e _ ih => exact .called e (ih h')
  | skipped e _ ih => exact .skipped e (ih h')
  | load _ ih => exact .load (ih h')
  | stored _ ih => exact .stored (ih h')
  | invoked _ ih => exact .invoked (ih h')

theorem good_at {s : St} {r : Option Nat} (h : Spec.Good s.cells r) : s.at r = none ↔ r = none := by
  cases r with
  | none => simp [St.at]
  | some p => obtain ⟨x, hx⟩ := h p rfl; simp [St.at, hx]

/-- what holds at each point of a legal schedule; `c` is what the function objects stand for, `r` what was looked up -/
structure Inv (s : St) (c : Nat → Option Nat) (r : Option Nat) : Prop where
  leads : Spec.Leads (fun _ => none) none s.log c r
  good : ∀ v, Spec.Good s.cells (s.m v)
  shows : ∀ v, c v = s.at (s.m v)
  point : match s.pc with
    | .store _ q => Spec.Good s.cells q ∧ r = s.at q
    | .load v => s.m v ≠ none
    | .invoke q => Spec.Good s.cells q ∧ q ≠ none ∧ r = s.at q
    | _ => True

theorem handle_ok {s : St} {c : Nat → Option Nat} {r : Option Nat} (h : Inv s c r) (x : H) (hs : List H)
    (hm : Spec.mayAll s.cells s.pc s.m (x :: hs)) :
    ∃ s' c', s.handle x = some s' ∧ Inv s' c' r ∧ s'.pc = s.pc ∧ s'.cells = s.cells ∧ Spec.mayAll s.cells s.pc s'.m hs := by
  obtain ⟨h1, h2, h3, h4⟩ := h
  obtain ⟨cells, m, pc, log⟩ := s
  have upd_ok : ∀ (v : Nat) (q : Option Nat) (e : Ev), Spec.Good cells q → (pc = .load v → q ≠ none) →
      Spec.Leads c r [e] (upd c v ((⟨cells, m, pc, log⟩ : St).at q)) r →
      Inv ⟨cells, upd m v q, pc, log ++ [e]⟩ (upd c v ((⟨cells, m, pc, log⟩ : St).at q)) r := by
    intro v q e hq hl he
    refine ⟨Leads.snoc h1 he, ?_, ?_, ?_⟩
    · intro w
      by_cases hw : w = v
      · subst hw; simp only [upd_same]; exact hq
      · simp only [upd_other _ _ hw]; exact h2 w
    · intro w
      by_cases hw : w = v
      · subst hw; simp only [upd_same]; rfl
      · simp only [upd_other _ _ hw]; exact h3 w
    · cases pc with
      | load w =>
        simp only at h4 ⊢
        by_cases hw : w = v
        · subst hw; rw [upd_same]; exact hl rfl
        · rw [upd_other _ _ hw]; exact h4
      | _ => exact h4
  cases x with
  | set v q =>
    obtain ⟨a, b, d⟩ := hm
    exact ⟨_, _, rfl, upd_ok v q _ a b (.set (.nil _ _)), rfl, rfl, d⟩
  | copy v w =>
    obtain ⟨b, d⟩ := hm
    refine ⟨_, _, rfl, upd_ok v (m w) (.copied v w) (h2 w) b ?_, rfl, rfl, d⟩
    have := h3 w
    refine .copied ?_
    rw [this]
    exact .nil _ _
  | call v guarded =>
    obtain ⟨b, d⟩ := hm
    have hc := h3 v
    have hg := good_at (h2 v)
    by_cases hv : m v = none
    · have hgt : guarded = true := by cases guarded with
        | true => rfl
        | false => exact absurd hv (b rfl)
      refine ⟨⟨cells, m, pc, log ++ [.skipped v]⟩, c, by simp [St.handle, hgt, hv],
        ⟨Leads.snoc h1 (.skipped ?_ (.nil _ _)), h2, h3, h4⟩, rfl, rfl, d⟩
      rw [hc]; exact hg.2 hv
    · obtain ⟨p, hp⟩ := Option.ne_none_iff_exists'.mp hv
      obtain ⟨x, hx⟩ := h2 v p hp
      have hx' : (⟨cells, m, pc, log⟩ : St).at (m v) = some x := by
        have : cells[p]? = some (some x) := hx
        simp [St.at, hp, this]
      refine ⟨⟨cells, m, pc, log ++ [.called v x]⟩, c, by simp [St.handle, hv, hx'],
        ⟨Leads.snoc h1 (.called ?_ (.nil _ _)), h2, h3, h4⟩, rfl, rfl, d⟩
      rw [hc]; exact hx'

theorem handles_ok : ∀ (hs : List H) {s : St} {c : Nat → Option Nat} {r : Option Nat}, Inv s c r →
    Spec.mayAll s.cells s.pc s.m hs → ∃ s' c', s.handles hs = some s' ∧ Inv s' c' r := by
  intro hs
  induction hs with
  | nil => intro s c r h _; exact ⟨s, c, rfl, h⟩
  | cons x hs ih =>
    intro s c r h hm
    obtain ⟨s1, c1, e1, h1, hp1, hc1, hm1⟩ := handle_ok h x hs hm
    obtain ⟨s2, c2, e2, h2⟩ := ih h1 (by rw [hp1, hc1]; exact hm1)
    exact ⟨s2, c2, by simp only [St.handles, e1, Option.bind_some]; exact e2, h2⟩

theorem tick_ok {s : St} {c : Nat → Option Nat} {r : Option Nat} (h : Inv s c r) :
    ∃ s' c' r', s.tick = some s' ∧ Inv s' c' r' := by
  obtain ⟨h1, h2, h3, h4⟩ := h
  obtain ⟨cells, m, pc, log⟩ := s
  cases pc with
  | idle => exact ⟨_, c, r, rfl, h1, h2, h3, h4⟩
  | copy v w => exact ⟨_, c, c w, rfl, Leads.snoc h1 (.load (.nil _ _)), h2, h3, h2 w, h3 w⟩
  | store v q =>
    obtain ⟨hq, rfl⟩ := h4
    refine ⟨_, _, _, rfl, Leads.snoc h1 (.stored (.nil _ _)), ?_, ?_, trivial⟩
    · intro w
      by_cases hw : w = v
      · subst hw; simp only [upd_same]; exact hq
      · simp only [upd_other _ _ hw]; exact h2 w
    · intro w
      by_cases hw : w = v
      · subst hw; simp only [upd_same]; rfl
      · simp only [upd_other _ _ hw]; exact h3 w
  | test v =>
    have hg := good_at (h2 v)
    by_cases hv : m v = none
    · refine ⟨⟨cells, m, .idle, log ++ [.skipped v]⟩, c, r, by simp [St.tick, hv],
        Leads.snoc h1 (.skipped ?_ (.nil _ _)), h2, h3, trivial⟩
      rw [h3]; exact hg.2 hv
    · obtain ⟨p, hp⟩ := Option.ne_none_iff_exists'.mp hv
      exact ⟨⟨cells, m, .load v, log⟩, c, r, by simp [St.tick, hp], h1, h2, h3, hv⟩
  | load v => exact ⟨_, c, c v, rfl, Leads.snoc h1 (.load (.nil _ _)), h2, h3, h2 v, h4, h3 v⟩
  | invoke q =>
    obtain ⟨hq, hn, rfl⟩ := h4
    obtain ⟨p, rfl⟩ := Option.ne_none_iff_exists'.mp hn
    obtain ⟨x, hx⟩ := hq p rfl
    have hx' : (⟨cells, m, .invoke (some p), log⟩ : St).at (some p) = some x := by
      have : cells[p]? = some (some x) := hx
      simp [St.at, this]
    rw [hx'] at h1
    exact ⟨⟨cells, m, .idle, log ++ [.invoked x]⟩, c, some x, by simp [St.tick, hx'],
      Leads.snoc h1 (.invoked (.nil _ _)), h2, h3, trivial⟩

/-- making or dropping models between calls -/
theorem cells_ok {s : St} {c : Nat → Option Nat} {r : Option Nat} (h : Inv s c r) (hp : s.pc = .idle)
    (cells' : List (Option Nat)) (hc : ∀ v p x, s.m v = some p → s.cells[p]? = some (some x) → cells'[p]? = some (some x)) :
    Inv { s with cells := cells' } c r := by
  obtain ⟨h1, h2, h3, h4⟩ := h
  refine ⟨h1, ?_, ?_, by simp only [hp]⟩
  · intro v p e
    obtain ⟨x, hx⟩ := h2 v p e
    exact ⟨x, hc v p x e hx⟩
  · intro v
    rw [h3 v]
    cases e : s.m v with
    | none => simp [St.at]
    | some p =>
      obtain ⟨x, hx⟩ := h2 v p e
      have := hc v p x e hx
      simp [St.at, hx, this]

theorem pc_ok {s : St} {c : Nat → Option Nat} {r : Option Nat} (h : Inv s c r) (pc' : Pc)
    (hp : match pc' with
      | .store _ q => Spec.Good s.cells q ∧ r = s.at q
      | .load v => s.m v ≠ none
      | .invoke q => Spec.Good s.cells q ∧ q ≠ none ∧ r = s.at q
      | _ => True) : Inv { s with pc := pc' } c r :=
  ⟨h.leads, h.good, h.shows, hp⟩

theorem act_ok {s : St} {c : Nat → Option Nat} {r : Option Nat} (h : Inv s c r) (a : Act) (as : List Act)
    (hl : Spec.legal s (a :: as)) : ∃ s' c' r', s.act a = some s' ∧ Inv s' c' r' := by
  obtain ⟨h1, _⟩ := hl
  cases a with
  | tick => exact tick_ok h
  | irq hs => obtain ⟨s', c', e, hi⟩ := handles_ok hs h h1; exact ⟨s', c', r, e, hi⟩
  | make x =>
    by_cases hp : s.pc = .idle
    · refine ⟨{ s with cells := s.cells ++ [some x] }, c, r, by simp [St.act, hp], cells_ok h hp _ ?_⟩
      intro v p y _ hy
      obtain ⟨hlt, _⟩ := List.getElem?_eq_some_iff.mp hy
      rw [List.getElem?_append_left hlt]; exact hy
    · exact ⟨s, c, r, by simp [St.act, hp], h⟩
  | drop p =>
    by_cases hp : s.pc = .idle
    · refine ⟨s.drop p, c, r, by simp [St.act, hp], cells_ok h hp _ ?_⟩
      intro v q y hq hy
      have hne : p ≠ q := by rintro rfl; exact h1 v hq
      rw [List.getElem?_set_ne hne]; exact hy
    · exact ⟨s, c, r, by simp [St.act, hp], h⟩
  | set v q =>
    by_cases hp : s.pc = .idle
    · obtain ⟨s', c', e, hi, _⟩ := handle_ok h (.set v q) [] ⟨h1, by rw [hp]; simp, trivial⟩
      exact ⟨s', c', r, by simpa only [St.act, hp, if_true] using e, hi⟩
    · exact ⟨s, c, r, by simp [St.act, hp], h⟩
  | copy v w =>
    by_cases hp : s.pc = .idle
    · exact ⟨{ s with pc := .copy v w }, c, r, by simp [St.act, hp], pc_ok h _ trivial⟩
    · exact ⟨s, c, r, by simp [St.act, hp], h⟩
  | call v guarded =>
    by_cases hp : s.pc = .idle
    · cases guarded with
      | true => exact ⟨{ s with pc := .test v }, c, r, by simp [St.act, hp], pc_ok h _ trivial⟩
      | false => exact ⟨{ s with pc := .load v }, c, r, by simp [St.act, hp], pc_ok h _ (h1 hp rfl)⟩
    · exact ⟨s, c, r, by simp [St.act, hp], h⟩

/-- **Every schedule** in which only models that are there are pointed at, and no callable is taken away from a function
object between the main program's `if(v)` and its `v()`: nothing is undefined, every call, in the handler or the main
program, reaches the callable the function object was given last, and between calls the function objects show what they
were given.  Missing: handlers that set a function object to null anywhere (`tested_then_null`). -/
theorem pointer_history_partial (as : List Act) (hl : Spec.legal start as) :
    ∃ s c r, start.run as = some s ∧ Spec.Leads (fun _ => none) none s.log c r ∧ ∀ v, c v = s.at (s.m v) := by
  have key : ∀ (as : List Act) (s : St) (c : Nat → Option Nat) (r : Option Nat), Inv s c r → Spec.legal s as →
      ∃ s' c' r', s.run as = some s' ∧ Inv s' c' r' := by
    intro as
    induction as with
    | nil => intro s c r h _; exact ⟨s, c, r, rfl, h⟩
    | cons a as ih =>
      intro s c r h hl
      obtain ⟨s1, c1, r1, e1, i1⟩ := act_ok h a as hl
      obtain ⟨s2, c2, r2, e2, i2⟩ := ih s1 c1 r1 i1 (hl.2 s1 e1)
      exact ⟨s2, c2, r2, by simp only [St.run, e1, Option.bind_some]; exact e2, i2⟩
  obtain ⟨s, c, r, e, hi⟩ := key as start (fun _ => none) none
    ⟨.nil _ _, fun _ _ e => (by cases e), fun _ => rfl, trivial⟩ hl
  exact ⟨s, c, r, e, hi.leads, hi.shows⟩

/-- two models, two function objects, a handler in the middle of a copy and of a call -/
example : let as : List Act := [.make 7, .make 8, .set 0 (some 0), .copy 1 0, .tick, .irq [.set 0 (some 1), .call 1 true], .tick,
      .irq [.call 0 false, .call 1 false], .call 1 true, .tick, .irq [.copy 1 0], .tick, .irq [.set 1 none], .tick, .drop 0]
    Spec.legal start as ∧
    (start.run as).map (·.log) = some [.set 0 (some 7), .load 0, .set 0 (some 8), .skipped 1, .stored 1, .called 0 8, .called 1 7,
      .copied 1 0, .load 1, .set 1 none, .invoked 8] := by
  refine ⟨?_, by decide +kernel⟩
  simp [Spec.legal, St.act, start, St.tick, St.handles, St.handle, Spec.mayAll, St.at, Spec.Good, upd]
  intro v h
  by_cases h0 : v = 0 <;> simp [h, h0]

/-- **Violation.**  `if(v) v();` in the main program is no guard against a handler that sets `v` to null: the pointer is
loaded a second time, and the call goes through null. -/
theorem tested_then_null (s : St) (v p : Nat) (hp : s.pc = .idle) (hv : s.m v = some p) (more : List Act) :
    s.run (.call v true :: .tick :: .irq [.set v none] :: .tick :: .tick :: more) = none := by
  simp [St.run, St.act, hp, St.tick, hv, St.handles, St.handle, St.at, upd]

end Point
end Verif.Func.Handler
