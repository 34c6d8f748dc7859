import Verif.Func.Props

/-!
# C75: function objects that refer to a callable kept elsewhere

`detail::function` is a pointer to a model, an object that holds the callable; `inline_function` and `thisify_function` are a
`detail::function` and the model it points at in one object, `static_function` keeps the model in a static variable.
Modelled from `src/estd/internal/functional.h`, `src/estd/functional.h`, `src/estd/exp/functional.h` and
`src/estd/internal/impl/functional/fnptr1.h`, `fnptr2.h`.  `none` is undefined behaviour.
-/
namespace Verif.Func.Refs
open Verif.Locks (upd upd_same upd_other)

/-! ## The model -/

/-- A model object (fnptr2.h:64-105, fnptr1.h:72-105): its callable, by number; whether it is one of the kind that destroys
the callable after the call (fnptr2.h:151-198); whether the callable is alive.  The method and object of a
`thisify_function` (impl/functional.h:47-82) count as a callable. -/
structure Place where
  callable : Nat
  once : Bool
  alive : Bool
  deriving DecidableEq, Repr

/-- A function object: the pointer `m` (internal/functional.h:184), and the model object inside the object, if there is one
(functional.h:280, internal/functional.h:298). -/
structure Var where
  ptr : Option Nat
  own : Option Nat
  deriving DecidableEq, Repr

/-- All model objects there have been, the function objects by number, the static models by the type of callable, and the
callables destroyed so far. -/
structure State where
  places : List Place
  vars : Nat → Option Var
  statics : Nat → Option Nat
  deaths : List Nat

def State.init : State := ⟨[], fun _ => none, fun _ => none, []⟩

inductive Op where
  /-- `inline_function v(callable)`, `thisify_function v(model)`, or a model `v` and a pointer to it -/
  | make (v c : Nat) (once : Bool)
  /-- `static_function v(callable)` where the callable is of type `ty` -/
  | makeStatic (v ty c : Nat)
  /-- `detail::function v` -/
  | null (v : Nat)
  /-- `detail::function v(w)` -/
  | refer (v w : Nat)
  /-- a copy `v` of `w` of the same class -/
  | copy (v w : Nat)
  /-- `v = w` for `detail::function`s -/
  | assign (v w : Nat)
  | call (v arg : Nat)
  | test (v : Nat)
  | destroy (v : Nat)
  /-- the memory of `v` is given up without destroying it -/
  | drop (v : Nat)
  deriving DecidableEq, Repr

inductive Val where
  | unit
  | called (c arg : Nat)
  | bool (b : Bool)
  deriving DecidableEq, Repr

/-- The destructor of the model at `p`: that of the callable, which has to be alive. -/
def State.kill (s : State) (p : Nat) : Option State :=
  match s.places[p]? with
  | some pl => if pl.alive then some { s with places := s.places.set p { pl with alive := false }, deaths := s.deaths ++ [pl.callable] } else none
  | none => none

/-- One operation.
* `make`: functional.h:283-288, internal/functional.h:308-313 with 269-274: the model is inside the object, and `m` points
  at it.
* `makeStatic`: exp/functional.h:24-30: the model is a static variable of the constructor, initialized by the first call for
  a type of callable.
* `null`: internal/functional.h:190.
* `refer`: internal/functional.h:191, or 193 with `w` taken as its base class.
* `copy`: internal/functional.h:193 and the implicit copy constructors of the classes: the pointer is copied, and the model.
* `assign`: internal/functional.h:199.
* `call`: internal/functional.h:204-216, fnptr2.h:58-61, 99-104 (fnptr1.h:65-68, impl/functional.h:71-76 for a
  `thisify_function`); fnptr2.h:144-147, 167-172, 191-197 for the kind that destroys its callable.
* `test`: internal/functional.h:218.
* `destroy`: implicit destructors. -/
def State.step (s : State) : Op → Option (State × Val)
  | .make v c once =>
    some ({ s with places := s.places ++ [⟨c, once, true⟩], vars := upd s.vars v (some ⟨some s.places.length, some s.places.length⟩) }, .unit)
  | .makeStatic v ty c =>
    match s.statics ty with
    | some p => some ({ s with vars := upd s.vars v (some ⟨some p, none⟩) }, .unit)
    | none =>
      some ({ s with places := s.places ++ [⟨c, false, true⟩], statics := upd s.statics ty (some s.places.length),
                     vars := upd s.vars v (some ⟨some s.places.length, none⟩) }, .unit)
  | .null v => some ({ s with vars := upd s.vars v (some ⟨none, none⟩) }, .unit)
  | .refer v w => (s.vars w).map fun x => ({ s with vars := upd s.vars v (some ⟨x.ptr, none⟩) }, .unit)
  | .copy v w =>
    match s.vars w with
    | none => none
    | some ⟨q, none⟩ => some ({ s with vars := upd s.vars v (some ⟨q, none⟩) }, .unit)
    | some ⟨q, some p⟩ =>
      match s.places[p]? with
      | some pl =>
        if pl.alive then some ({ s with places := s.places ++ [pl], vars := upd s.vars v (some ⟨q, some s.places.length⟩) }, .unit) else none
      | none => none
  | .assign v w =>
    match s.vars v, s.vars w with
    | some x, some y => some ({ s with vars := upd s.vars v (some { x with ptr := y.ptr }) }, .unit)
    | _, _ => none
  | .call v arg =>
    match s.vars v with
    | some ⟨some q, _⟩ =>
      match s.places[q]? with
      | some pl =>
        if pl.alive then
          if pl.once then (s.kill q).map fun s' => (s', .called pl.callable arg) else some (s, .called pl.callable arg)
        else none
      | none => none
    | _ => none
  | .test v => (s.vars v).map fun x => (s, .bool x.ptr.isSome)
  | .destroy v =>
    match s.vars v with
    | none => none
    | some ⟨_, none⟩ => some ({ s with vars := upd s.vars v none }, .unit)
    | some ⟨_, some p⟩ => (s.kill p).map fun s' => ({ s' with vars := upd s'.vars v none }, .unit)
  | .drop v =>
    match s.vars v with
    | none => none
    | some ⟨_, none⟩ => some ({ s with vars := upd s.vars v none }, .unit)
    | some ⟨_, some p⟩ =>
      match s.places[p]? with
      | some pl => some ({ s with places := s.places.set p { pl with alive := false }, vars := upd s.vars v none }, .unit)
      | none => none

def State.run (s : State) : List Op → Option (State × List Val)
  | [] => some (s, [])
  | o :: os => (s.step o).bind fun r => (State.run r.1 os).map fun q => (q.1, r.2 :: q.2)

/-! ## The specification -/

/-- where a function object's callable is kept: in an object, or for good -/
inductive Spec.Home where
  | inVar (u : Nat)
  | static (ty : Nat)
  deriving DecidableEq, Repr

/-- The callable kept in an object, whether it is for one call only, and whether that call has been made. -/
structure Spec.Kept where
  callable : Nat
  once : Bool
  spent : Bool
  deriving DecidableEq, Repr

/-- Function objects as a user sees them: what each object keeps (`some none`: nothing, `none`: no such object), whose
callable it calls, the callables kept for good, and those destroyed. -/
structure Spec.World where
  keeps : Nat → Option (Option Spec.Kept)
  target : Nat → Option Spec.Home
  forGood : Nat → Option Nat
  deaths : List Nat

def Spec.World.init : Spec.World := ⟨fun _ => none, fun _ => none, fun _ => none, []⟩

/-- the callable at a home, if it can be called -/
def Spec.World.callee (a : Spec.World) : Spec.Home → Option Spec.Kept
  | .static ty => (a.forGood ty).map fun c => ⟨c, false, false⟩
  | .inVar u => ((a.keeps u).getD none).bind fun k => if k.spent then none else some k

/-- Whether an operation is allowed: objects are constructed once, an object that others refer to outlives them, callables
for one call are called once and then dropped, and of each type of callable at most one is made static. -/
def Spec.legal (a : Spec.World) : Op → Prop
  | .make v _ _ | .null v => a.keeps v = none
  | .makeStatic v ty c => a.keeps v = none ∧ ∀ c', a.forGood ty = some c' → c' = c
  | .refer v w => a.keeps v = none ∧ a.keeps w ≠ none
  | .copy v w => a.keeps v = none ∧ a.keeps w ≠ none ∧ ∀ k, a.keeps w = some (some k) → k.spent = false
  | .assign v w => a.keeps v ≠ none ∧ a.keeps w ≠ none
  | .call v _ => a.keeps v ≠ none ∧ ∃ h k, a.target v = some h ∧ a.callee h = some k
  | .test v => a.keeps v ≠ none
  | .destroy v => a.keeps v ≠ none ∧ (∀ w, w ≠ v → a.keeps w ≠ none → a.target w ≠ some (.inVar v)) ∧
      ∀ k, a.keeps v = some (some k) → k.spent = false
  | .drop v => (∀ w, w ≠ v → a.keeps w ≠ none → a.target w ≠ some (.inVar v)) ∧ ∃ k, a.keeps v = some (some k) ∧ k.spent = true

/-- the effect of an operation -/
def Spec.step (a : Spec.World) : Op → Spec.World
  | .make v c once => { a with keeps := upd a.keeps v (some (some ⟨c, once, false⟩)), target := upd a.target v (some (.inVar v)) }
  | .makeStatic v ty c =>
    { a with keeps := upd a.keeps v (some none), target := upd a.target v (some (.static ty)), forGood := upd a.forGood ty (some c) }
  | .null v => { a with keeps := upd a.keeps v (some none), target := upd a.target v none }
  | .refer v w => { a with keeps := upd a.keeps v (some none), target := upd a.target v (a.target w) }
  | .copy v w => { a with keeps := upd a.keeps v (a.keeps w), target := upd a.target v (a.target w) }
  | .assign v w => { a with target := upd a.target v (a.target w) }
  | .call v _ =>
    match a.target v with
    | some (.inVar u) =>
      match a.keeps u with
      | some (some k) =>
        if k.once then { a with keeps := upd a.keeps u (some (some { k with spent := true })), deaths := a.deaths ++ [k.callable] } else a
      | _ => a
    | _ => a
  | .test _ => a
  | .destroy v =>
    match a.keeps v with
    | some (some k) => { a with keeps := upd a.keeps v none, deaths := a.deaths ++ [k.callable] }
    | _ => { a with keeps := upd a.keeps v none }
  | .drop v => { a with keeps := upd a.keeps v none }

/-- the result of an operation -/
def Spec.val (a : Spec.World) : Op → Val
  | .call v arg =>
    match (a.target v).bind a.callee with
    | some k => .called k.callable arg
    | none => .unit
  | .test v => .bool (a.target v).isSome
  | _ => .unit

def Spec.legalRun (a : Spec.World) : List Op → Prop
  | [] => True
  | o :: os => Spec.legal a o ∧ Spec.legalRun (Spec.step a o) os

def Spec.run (a : Spec.World) : List Op → Spec.World
  | [] => a
  | o :: os => Spec.run (Spec.step a o) os

def Spec.vals (a : Spec.World) : List Op → List Val
  | [] => []
  | o :: os => Spec.val a o :: Spec.vals (Spec.step a o) os

/-! ## The code meets it -/

/-- the place of a home -/
def State.placeOf (s : State) : Spec.Home → Option Nat
  | .inVar u => (s.vars u).bind (·.own)
  | .static ty => s.statics ty

/-- the correspondence -/
structure Rep (s : State) (a : Spec.World) : Prop where
  dead : ∀ v, a.keeps v = none ↔ s.vars v = none
  own : ∀ v x, s.vars v = some x →
    match a.keeps v with
    | some (some k) => ∃ p, x.own = some p ∧ s.places[p]? = some ⟨k.callable, k.once, !k.spent⟩
    | _ => x.own = none
  ptr : ∀ v x, s.vars v = some x → x.ptr.isSome = (a.target v).isSome ∧ ∀ h, a.target v = some h → x.ptr = s.placeOf h
  stat : ∀ ty, match a.forGood ty with
    | some c => ∃ p, s.statics ty = some p ∧ s.places[p]? = some ⟨c, false, true⟩
    | none => s.statics ty = none
  inj : ∀ v w x y p, s.vars v = some x → s.vars w = some y → x.own = some p → y.own = some p → v = w
  sep : ∀ v x p ty, s.vars v = some x → x.own = some p → s.statics ty ≠ some p
  home : ∀ v u, a.keeps v ≠ none → a.target v = some (.inVar u) → ∃ k, a.keeps u = some (some k)
  homeS : ∀ v ty, a.keeps v ≠ none → a.target v = some (.static ty) → a.forGood ty ≠ none
  deaths : s.deaths = a.deaths

theorem rep_init : Rep State.init Spec.World.init :=
  ⟨by simp [State.init, Spec.World.init], by simp [State.init], by simp [State.init], by simp [State.init, Spec.World.init],
   by simp [State.init], by simp [State.init], by simp [Spec.World.init], by simp [Spec.World.init], rfl⟩

theorem Rep.alive {s : State} {a : Spec.World} (h : Rep s a) {v : Nat} (hv : a.keeps v ≠ none) : ∃ x, s.vars v = some x := by
  cases e : s.vars v with
  | none => exact absurd ((h.dead v).mpr e) hv
  | some x => exact ⟨x, rfl⟩

theorem upd_self {α : Type} (f : Nat → α) (i : Nat) (v : α) : upd f i v i = v := by simp [upd]

theorem upd_ne {α : Type} (f : Nat → α) {i j : Nat} (v : α) (h : j ≠ i) : upd f i v j = f j := by simp [upd, h]

/-- a new object -/
theorem Rep.add {s : State} {a : Spec.World} (h : Rep s a) {v : Nat} (hv : a.keeps v = none) (ps : List Place)
    (hps : ∀ (p : Nat) pl, s.places[p]? = some pl → ps[p]? = some pl) (x : Var) (ko : Option Spec.Kept) (t : Option Spec.Home)
    (hown : match ko with
      | some k => ∃ p, x.own = some p ∧ ps[p]? = some ⟨k.callable, k.once, !k.spent⟩ ∧ s.places[p]? = none
      | none => x.own = none)
    (hptr : x.ptr.isSome = t.isSome ∧ ∀ g, t = some g → x.ptr = ({ s with places := ps, vars := upd s.vars v (some x) } : State).placeOf g)
    (hhome : ∀ u, t = some (.inVar u) → (u = v ∧ ko.isSome) ∨ ∃ k, a.keeps u = some (some k))
    (hhomeS : ∀ ty, t = some (.static ty) → a.forGood ty ≠ none) :
    Rep { s with places := ps, vars := upd s.vars v (some x) }
      { a with keeps := upd a.keeps v (some ko), target := upd a.target v t } := by
  have hsv : s.vars v = none := (h.dead v).mp hv
  have hno : ∀ w u, a.keeps w ≠ none → a.target w = some (.inVar u) → u ≠ v := by
    intro w u h1 h2 e
    subst e
    obtain ⟨k, hk⟩ := h.home w u h1 h2
    rw [hv] at hk; cases hk
  -- a place of an old object or a static model is not the new one
  have hold : ∀ w y p, s.vars w = some y → y.own = some p → ∃ pl, s.places[p]? = some pl := by
    intro w y p hy hp
    have := h.own w y hy
    split at this
    · obtain ⟨q, hq1, hq2⟩ := this
      rw [hp] at hq1; cases hq1; exact ⟨_, hq2⟩
    · rw [this] at hp; cases hp
  have holdS : ∀ ty p, s.statics ty = some p → ∃ pl, s.places[p]? = some pl := by
    intro ty p hp
    have := h.stat ty
    split at this
    · obtain ⟨q, hq1, hq2⟩ := this
      rw [hp] at hq1; cases hq1; exact ⟨_, hq2⟩
    · rw [this] at hp; cases hp
  have hnew : ∀ p, x.own = some p → s.places[p]? = none := by
    intro p hp
    cases ko with
    | none => simp only at hown; rw [hown] at hp; cases hp
    | some k => obtain ⟨q, h1, -, h3⟩ := hown; rw [hp] at h1; cases h1; exact h3
  constructor
  · intro w
    by_cases e : w = v
    · subst e; simp [upd]
    · simp only [upd_ne _ _ e]; exact h.dead w
  · intro w y hy
    by_cases e : w = v
    · subst e
      simp only [upd_self] at hy ⊢
      cases hy
      cases ko with
      | none => exact hown
      | some k => obtain ⟨p, h1, h2, -⟩ := hown; exact ⟨p, h1, h2⟩
    · simp only [upd_ne _ _ e] at hy ⊢
      have := h.own w y hy
      split
      · rename_i k hk
        rw [hk] at this
        obtain ⟨p, h1, h2⟩ := this
        exact ⟨p, h1, hps _ _ h2⟩
      · rename_i hk
        split at this
        · rename_i k hk'; exact absurd hk' (hk k)
        · exact this
  · intro w y hy
    by_cases e : w = v
    · subst e
      simp only [upd_self] at hy ⊢
      cases hy
      exact hptr
    · simp only [upd_ne _ _ e] at hy ⊢
      obtain ⟨h1, h2⟩ := h.ptr w y hy
      refine ⟨h1, fun g hg => ?_⟩
      rw [h2 g hg]
      cases g with
      | inVar u =>
        have hu := hno w u (by rw [Ne, h.dead w, hy]; simp) hg
        simp [State.placeOf, upd_ne _ _ hu]
      | static ty => rfl
  · intro ty
    have := h.stat ty
    simp only
    split
    · rename_i c hc
      rw [hc] at this
      obtain ⟨p, h1, h2⟩ := this
      exact ⟨p, h1, hps _ _ h2⟩
    · rename_i hc
      rw [hc] at this
      exact this
  · intro w u y z p hy hz h1 h2
    by_cases e : w = v
    · by_cases e' : u = v
      · rw [e, e']
      · subst e
        simp only [upd_self, upd_ne _ _ e'] at hy hz
        cases hy
        obtain ⟨pl, hpl⟩ := hold u z p hz h2
        rw [hnew p h1] at hpl; cases hpl
    · by_cases e' : u = v
      · subst e'
        simp only [upd_self, upd_ne _ _ e] at hy hz
        cases hz
        obtain ⟨pl, hpl⟩ := hold w y p hy h1
        rw [hnew p h2] at hpl; cases hpl
      · simp only [upd_ne _ _ e, upd_ne _ _ e'] at hy hz
        exact h.inj w u y z p hy hz h1 h2
  · intro w y p ty hy hp
    by_cases e : w = v
    · subst e
      simp only [upd_self] at hy
      cases hy
      intro hs
      obtain ⟨pl, hpl⟩ := holdS ty p hs
      rw [hnew p hp] at hpl; cases hpl
    · simp only [upd_ne _ _ e] at hy
      exact h.sep w y p ty hy hp
  · intro w u hw hu
    by_cases e : w = v
    · subst e
      simp only [upd_self] at hu
      rcases hhome u hu with ⟨rfl, hk⟩ | ⟨k, hk⟩
      · cases ko with
        | none => cases hk
        | some k => exact ⟨k, upd_self _ _ _⟩
      · have : u ≠ w := by intro e; rw [e, hv] at hk; cases hk
        exact ⟨k, by simp only [upd_ne _ _ this]; exact hk⟩
    · simp only [upd_ne _ _ e] at hw hu
      obtain ⟨k, hk⟩ := h.home w u hw hu
      exact ⟨k, by simp only [upd_ne _ _ (hno w u hw hu)]; exact hk⟩
  · intro w ty hw hu
    by_cases e : w = v
    · subst e
      simp only [upd_self] at hu
      exact hhomeS ty hu
    · simp only [upd_ne _ _ e] at hw hu
      exact h.homeS w ty hw hu
  · exact h.deaths

theorem append_keeps {ps : List Place} {x : Place} (p : Nat) (pl : Place)
    (h : ps[p]? = some pl) : (ps ++ [x])[p]? = some pl := by
  rw [List.getElem?_append_left (List.getElem?_eq_some_iff.mp h).1]; exact h

/-- a new static model -/
theorem Rep.addStatic {s : State} {a : Spec.World} (h : Rep s a) {ty : Nat} (hty : a.forGood ty = none) (c : Nat) :
    Rep { s with places := s.places ++ [⟨c, false, true⟩], statics := upd s.statics ty (some s.places.length) }
      { a with forGood := upd a.forGood ty (some c) } := by
  have hst : s.statics ty = none := by have := h.stat ty; rw [hty] at this; exact this
  have hnt : ∀ w, a.keeps w ≠ none → a.target w ≠ some (.static ty) := fun w hw e => h.homeS w ty hw e hty
  constructor
  · exact h.dead
  · intro w y hy
    have := h.own w y hy
    simp only
    split
    · rename_i k hk
      rw [hk] at this
      obtain ⟨p, h1, h2⟩ := this
      exact ⟨p, h1, append_keeps _ _ h2⟩
    · rename_i hk
      split at this
      · rename_i k hk'; exact absurd hk' (hk k)
      · exact this
  · intro w y hy
    obtain ⟨h1, h2⟩ := h.ptr w y hy
    refine ⟨h1, fun g hg => ?_⟩
    rw [h2 g hg]
    cases g with
    | inVar u => rfl
    | static ty' =>
      have : ty' ≠ ty := by
        intro e; subst e; exact hnt w (by rw [Ne, h.dead w, hy]; simp) hg
      simp [State.placeOf, upd_ne _ _ this]
  · intro ty'
    by_cases e : ty' = ty
    · subst e; simp [upd]
    · simp only [upd_ne _ _ e]
      have := h.stat ty'
      split
      · rename_i c' hc
        rw [hc] at this
        obtain ⟨p, h1, h2⟩ := this
        exact ⟨p, h1, append_keeps _ _ h2⟩
      · rename_i hc
        rw [hc] at this
        exact this
  · exact h.inj
  · intro w y p ty' hy hp
    by_cases e : ty' = ty
    · subst e
      simp only [upd_self]
      intro e
      have := h.own w y hy
      split at this
      · obtain ⟨q, hq1, hq2⟩ := this
        rw [hp] at hq1; cases hq1
        cases e
        simp at hq2
      · rw [this] at hp; cases hp
    · simp only [upd_ne _ _ e]; exact h.sep w y p ty' hy hp
  · exact h.home
  · intro w ty' hw ht
    by_cases e : ty' = ty
    · subst e; simp [upd]
    · simp only [upd_ne _ _ e]; exact h.homeS w ty' hw ht
  · exact h.deaths

/-- an object goes that no other refers to, and with it the callable it keeps; `ds` are the callables destroyed -/
theorem Rep.remove {s : State} {a : Spec.World} (h : Rep s a) {v : Nat}
    (href : ∀ w, w ≠ v → a.keeps w ≠ none → a.target w ≠ some (.inVar v)) (ps : List Place) (ds : List Nat)
    (hps : ∀ q : Nat, (∀ x, s.vars v = some x → x.own ≠ some q) → ps[q]? = s.places[q]?) :
    Rep { s with places := ps, vars := upd s.vars v none, deaths := s.deaths ++ ds }
      { a with keeps := upd a.keeps v none, deaths := a.deaths ++ ds } := by
  have hoth : ∀ w y p, w ≠ v → s.vars w = some y → y.own = some p → ps[p]? = s.places[p]? := by
    intro w y p hw hy hp
    apply hps
    intro x hx hxo
    exact hw (h.inj w v y x p hy hx hp hxo)
  constructor
  · intro w
    by_cases e : w = v
    · subst e; simp [upd]
    · simp only [upd_ne _ _ e]; exact h.dead w
  · intro w y hy
    by_cases e : w = v
    · subst e; simp only [upd_self] at hy; cases hy
    · simp only [upd_ne _ _ e] at hy ⊢
      have := h.own w y hy
      split
      · rename_i k hk
        rw [hk] at this
        obtain ⟨p, h1, h2⟩ := this
        exact ⟨p, h1, by rw [hoth w y p e hy h1]; exact h2⟩
      · rename_i hk
        split at this
        · rename_i k hk'; exact absurd hk' (hk k)
        · exact this
  · intro w y hy
    by_cases e : w = v
    · subst e; simp only [upd_self] at hy; cases hy
    · simp only [upd_ne _ _ e] at hy ⊢
      obtain ⟨h1, h2⟩ := h.ptr w y hy
      refine ⟨h1, fun g hg => ?_⟩
      rw [h2 g hg]
      cases g with
      | inVar u =>
        have : u ≠ v := by
          intro e'; subst e'; exact href w e (by rw [Ne, h.dead w, hy]; simp) hg
        simp [State.placeOf, upd_ne _ _ this]
      | static ty => rfl
  · intro ty
    have := h.stat ty
    simp only
    split
    · rename_i c hc
      rw [hc] at this
      obtain ⟨p, h1, h2⟩ := this
      refine ⟨p, h1, ?_⟩
      rw [hps p]
      · exact h2
      · intro x hx hxo; exact h.sep v x p ty hx hxo h1
    · rename_i hc
      rw [hc] at this
      exact this
  · intro w u y z p hy hz h1 h2
    by_cases e : w = v
    · subst e; simp only [upd_self] at hy; cases hy
    · by_cases e' : u = v
      · subst e'; simp only [upd_self] at hz; cases hz
      · simp only [upd_ne _ _ e, upd_ne _ _ e'] at hy hz
        exact h.inj w u y z p hy hz h1 h2
  · intro w y p ty hy hp
    by_cases e : w = v
    · subst e; simp only [upd_self] at hy; cases hy
    · simp only [upd_ne _ _ e] at hy
      exact h.sep w y p ty hy hp
  · intro w u hw hu
    by_cases e : w = v
    · subst e; simp only [upd_self] at hw; exact absurd rfl hw
    · simp only [upd_ne _ _ e] at hw
      obtain ⟨k, hk⟩ := h.home w u hw hu
      have : u ≠ v := by intro e'; subst e'; exact href w e hw hu
      exact ⟨k, by simp only [upd_ne _ _ this]; exact hk⟩
  · intro w ty hw hu
    by_cases e : w = v
    · subst e; simp only [upd_self] at hw; exact absurd rfl hw
    · simp only [upd_ne _ _ e] at hw
      exact h.homeS w ty hw hu
  · simp only [h.deaths]

/-- the callable an object keeps is destroyed, the object stays -/
theorem Rep.spend {s : State} {a : Spec.World} (h : Rep s a) {u p : Nat} {y : Var} {k : Spec.Kept} (hy : s.vars u = some y)
    (hp : y.own = some p) (hk : a.keeps u = some (some k)) :
    Rep { s with places := s.places.set p ⟨k.callable, k.once, false⟩, deaths := s.deaths ++ [k.callable] }
      { a with keeps := upd a.keeps u (some (some { k with spent := true })), deaths := a.deaths ++ [k.callable] } := by
  have hpl : p < s.places.length := by
    have := h.own u y hy
    rw [hk] at this
    obtain ⟨q, hq1, hq2⟩ := this
    rw [hp] at hq1; cases hq1
    exact (List.getElem?_eq_some_iff.mp hq2).1
  constructor
  · intro w
    by_cases e : w = u
    · subst e; simp [upd, hy]
    · simp only [upd_ne _ _ e]; exact h.dead w
  · intro w z hz
    simp only at hz
    by_cases e : w = u
    · subst e
      simp only [upd_self]
      rw [hy] at hz; cases hz
      exact ⟨p, hp, by simp [hpl]⟩
    · simp only [upd_ne _ _ e]
      have := h.own w z hz
      split
      · rename_i k' hk'
        rw [hk'] at this
        obtain ⟨q, h1, h2⟩ := this
        have : p ≠ q := by
          intro e'; subst e'; exact e (h.inj w u z y p hz hy h1 hp)
        exact ⟨q, h1, by rw [List.getElem?_set, if_neg this]; exact h2⟩
      · rename_i hk'
        split at this
        · rename_i k' hk2; exact absurd hk2 (hk' k')
        · exact this
  · intro w z hz
    obtain ⟨h1, h2⟩ := h.ptr w z hz
    exact ⟨h1, h2⟩
  · intro ty
    have := h.stat ty
    simp only
    split
    · rename_i c hc
      rw [hc] at this
      obtain ⟨q, h1, h2⟩ := this
      have : p ≠ q := by intro e; subst e; exact h.sep u y p ty hy hp h1
      exact ⟨q, h1, by rw [List.getElem?_set, if_neg this]; exact h2⟩
    · rename_i hc
      rw [hc] at this
      exact this
  · exact h.inj
  · exact h.sep
  · intro w u' hw hu
    have hw' : a.keeps w ≠ none := by
      by_cases e : w = u
      · subst e; rw [hk]; simp
      · simp only [upd_ne _ _ e] at hw; exact hw
    obtain ⟨k', hk'⟩ := h.home w u' hw' hu
    by_cases e : u' = u
    · subst e; exact ⟨_, upd_self _ _ _⟩
    · exact ⟨k', by simp only [upd_ne _ _ e]; exact hk'⟩
  · intro w ty hw hu
    have hw' : a.keeps w ≠ none := by
      by_cases e : w = u
      · subst e; rw [hk]; simp
      · simp only [upd_ne _ _ e] at hw; exact hw
    exact h.homeS w ty hw' hu
  · simp only [h.deaths]

theorem Rep.homeOk {s : State} {a : Spec.World} (h : Rep s a) {w : Nat} (hw : a.keeps w ≠ none) :
    (∀ u, a.target w = some (.inVar u) → ∃ k, a.keeps u = some (some k)) ∧
    (∀ ty, a.target w = some (.static ty) → a.forGood ty ≠ none) :=
  ⟨fun u hu => h.home w u hw hu, fun ty ht => h.homeS w ty hw ht⟩

/-- what a live object's pointer leads to -/
theorem Rep.placeOf {s : State} {a : Spec.World} (h : Rep s a) {g : Spec.Home} {k : Spec.Kept} (hk : a.callee g = some k) :
    ∃ p, s.placeOf g = some p ∧ s.places[p]? = some ⟨k.callable, k.once, true⟩ ∧
      (∀ u, g = .inVar u → a.keeps u = some (some k) ∧ k.spent = false ∧ ∃ y, s.vars u = some y ∧ y.own = some p) ∧
      (∀ ty, g = .static ty → k.once = false) := by
  cases g with
  | static ty =>
    have h1 := h.stat ty
    simp only [Spec.World.callee] at hk
    cases hf : a.forGood ty with
    | none => rw [hf] at hk; cases hk
    | some c =>
      rw [hf] at hk h1
      obtain ⟨p, h2, h3⟩ := h1
      cases hk
      exact ⟨p, h2, h3, fun u e => (by cases e), fun _ _ => rfl⟩
  | inVar u =>
    simp only [Spec.World.callee] at hk
    cases hku : a.keeps u with
    | none => rw [hku] at hk; cases hk
    | some ko =>
      cases ko with
      | none => rw [hku] at hk; cases hk
      | some k' =>
        rw [hku] at hk
        simp only [Option.getD_some, Option.bind_some] at hk
        cases hs : k'.spent with
        | true => rw [hs] at hk; cases hk
        | false =>
          rw [hs] at hk
          cases hk
          obtain ⟨y, hy⟩ := h.alive (v := u) (by rw [hku]; simp)
          have h1 := h.own u y hy
          rw [hku] at h1
          obtain ⟨p, h2, h3⟩ := h1
          rw [hs] at h3
          refine ⟨p, by simp [State.placeOf, hy, h2], h3, ?_, fun ty e => by cases e⟩
          intro u' e
          cases e
          exact ⟨hku, hs, y, hy, h2⟩

/-- Every legal operation is defined, has the result the specification gives, and keeps the correspondence. -/
theorem rep_step {s : State} {a : Spec.World} (h : Rep s a) (o : Op) (hl : Spec.legal a o) :
    ∃ s', s.step o = some (s', Spec.val a o) ∧ Rep s' (Spec.step a o) := by
  have hfresh : ∀ x : Place, (s.places ++ [x])[s.places.length]? = some x := by intro x; simp
  have hnofresh : s.places[s.places.length]? = none := by simp
  cases o with
  | make v c once =>
    refine ⟨_, rfl, h.add hl (s.places ++ [⟨c, once, true⟩]) append_keeps _ (some ⟨c, once, false⟩) (some (.inVar v)) ?_ ?_ ?_ ?_⟩
    · exact ⟨_, rfl, hfresh _, hnofresh⟩
    · refine ⟨rfl, fun g hg => ?_⟩
      cases hg
      simp [State.placeOf, upd]
    · intro u hu; cases hu; exact .inl ⟨rfl, rfl⟩
    · intro ty hty; cases hty
  | null v =>
    refine ⟨_, rfl, h.add hl s.places (fun _ _ h => h) ⟨none, none⟩ none none rfl ⟨rfl, fun g hg => by cases hg⟩ (fun u hu => by cases hu) (fun u hu => by cases hu)⟩
  | makeStatic v ty c =>
    obtain ⟨hv, hc⟩ := hl
    simp only [State.step, Spec.val, Spec.step]
    cases hf : a.forGood ty with
    | some c' =>
      have h1 := h.stat ty
      rw [hf] at h1
      obtain ⟨p, hp, -⟩ := h1
      have hcc := hc c' hf
      subst hcc
      have hsame : upd a.forGood ty (some c') = a.forGood := by
        funext t
        by_cases e : t = ty
        · subst e; rw [upd_self, hf]
        · rw [upd_ne _ _ e]
      rw [hp, hsame]
      refine ⟨_, rfl, h.add hv s.places (fun _ _ h => h) ⟨some p, none⟩ none (some (.static ty)) rfl ⟨rfl, fun g hg => ?_⟩ (fun u hu => by cases hu) ?_⟩
      · cases hg; exact hp.symm
      · intro t ht; cases ht; rw [hf]; simp
    | none =>
      have h1 := h.stat ty
      rw [hf] at h1
      simp only at h1
      rw [h1]
      refine ⟨_, rfl, (h.addStatic hf c).add (v := v) hv (s.places ++ [⟨c, false, true⟩]) (fun _ _ h => h) ⟨some s.places.length, none⟩ none (some (.static ty)) rfl ⟨rfl, fun g hg => ?_⟩ (fun u hu => by cases hu) ?_⟩
      · cases hg; simp [State.placeOf, upd]
      · intro t ht; cases ht; simp [upd]
  | refer v w =>
    obtain ⟨hv, hw⟩ := hl
    obtain ⟨x, hx⟩ := h.alive hw
    obtain ⟨h1, h2⟩ := h.ptr w x hx
    obtain ⟨ho1, ho2⟩ := h.homeOk hw
    refine ⟨_, by simp only [State.step, hx, Option.map_some]; rfl, h.add hv s.places (fun _ _ h => h) ⟨x.ptr, none⟩ none (a.target w) rfl ⟨h1, fun g hg => ?_⟩ (fun u hu => .inr (ho1 u hu)) ho2⟩
    rw [h2 g hg]
    cases g with
    | static ty => rfl
    | inVar u =>
      obtain ⟨k, hk⟩ := ho1 u hg
      have : u ≠ v := by intro e; subst e; rw [hv] at hk; cases hk
      simp [State.placeOf, upd_ne _ _ this]
  | copy v w =>
    obtain ⟨hv, hw, hsp⟩ := hl
    obtain ⟨x, hx⟩ := h.alive hw
    obtain ⟨h1, h2⟩ := h.ptr w x hx
    obtain ⟨ho1, ho2⟩ := h.homeOk hw
    have h3 := h.own w x hx
    have hpl : ∀ g z, a.target w = some g → x.ptr = ({ s with vars := upd s.vars v z } : State).placeOf g := by
      intro g z hg
      rw [h2 g hg]
      cases g with
      | static ty => rfl
      | inVar u =>
        obtain ⟨k, hk⟩ := ho1 u hg
        have : u ≠ v := by intro e; subst e; rw [hv] at hk; cases hk
        simp [State.placeOf, upd_ne _ _ this]
    obtain ⟨q, op⟩ := x
    cases hk : a.keeps w with
    | none => exact absurd hk hw
    | some ko =>
      cases ko with
      | none =>
        rw [hk] at h3
        simp only at h3
        subst h3
        refine ⟨_, by simp only [State.step, hx]; rfl, ?_⟩
        simp only [Spec.step, hk]
        exact h.add hv s.places (fun _ _ h => h) ⟨q, none⟩ none (a.target w) rfl ⟨h1, fun g hg => hpl g _ hg⟩ (fun u hu => .inr (ho1 u hu)) ho2
      | some k =>
        rw [hk] at h3
        obtain ⟨p, h4, h5⟩ := h3
        simp only at h4
        subst h4
        have hs := hsp k hk
        rw [hs] at h5
        refine ⟨_, by simp only [State.step, hx, h5, Bool.not_false, if_true]; rfl, ?_⟩
        simp only [Spec.step, hk]
        exact h.add hv (s.places ++ [⟨k.callable, k.once, true⟩]) append_keeps ⟨q, some s.places.length⟩ (some k) (a.target w)
          ⟨_, rfl, by rw [hs]; exact hfresh _, hnofresh⟩ ⟨h1, fun g hg => hpl g _ hg⟩ (fun u hu => .inr (ho1 u hu)) ho2
  | assign v w =>
    obtain ⟨hv, hw⟩ := hl
    obtain ⟨x, hx⟩ := h.alive hv
    obtain ⟨y, hy⟩ := h.alive hw
    refine ⟨_, by simp only [State.step, hx, hy]; rfl, ?_⟩
    have hpo : ∀ g, ({ s with vars := upd s.vars v (some { x with ptr := y.ptr }) } : State).placeOf g = s.placeOf g := by
      intro g
      cases g with
      | static ty => rfl
      | inVar u =>
        by_cases e : u = v
        · subst e; simp [State.placeOf, upd, hx]
        · simp [State.placeOf, upd_ne _ _ e]
    have hown : ∀ u z, upd s.vars v (some { x with ptr := y.ptr }) u = some z → ∃ z', s.vars u = some z' ∧ z'.own = z.own := by
      intro u z hz
      by_cases e : u = v
      · subst e; rw [upd_self] at hz; cases hz; exact ⟨x, hx, rfl⟩
      · rw [upd_ne _ _ e] at hz; exact ⟨z, hz, rfl⟩
    constructor
    · intro u
      by_cases e : u = v
      · subst e; simp only [Spec.step, upd_self]
        constructor
        · intro e; exact absurd e hv
        · intro e; cases e
      · simp only [Spec.step, upd_ne _ _ e]; exact h.dead u
    · intro u z hz
      obtain ⟨z', h1, h2⟩ := hown u z hz
      have := h.own u z' h1
      rw [h2] at this
      exact this
    · intro u z hz
      by_cases e : u = v
      · subst e
        simp only [upd_self] at hz
        cases hz
        obtain ⟨h1, h2⟩ := h.ptr w y hy
        simp only [Spec.step, upd_self]
        exact ⟨h1, fun g hg => by rw [hpo]; exact h2 g hg⟩
      · simp only [upd_ne _ _ e] at hz
        simp only [Spec.step, upd_ne _ _ e]
        obtain ⟨h1, h2⟩ := h.ptr u z hz
        exact ⟨h1, fun g hg => by rw [hpo]; exact h2 g hg⟩
    · exact h.stat
    · intro u u' z z' p hz hz' h1 h2
      obtain ⟨y1, g1, g2⟩ := hown u z hz
      obtain ⟨y2, g3, g4⟩ := hown u' z' hz'
      exact h.inj u u' y1 y2 p g1 g3 (by rw [g2, h1]) (by rw [g4, h2])
    · intro u z p ty hz hp
      obtain ⟨y1, g1, g2⟩ := hown u z hz
      exact h.sep u y1 p ty g1 (by rw [g2, hp])
    · intro u u' hu ht
      by_cases e : u = v
      · subst e; simp only [Spec.step, upd_self] at ht; exact h.home w u' hw ht
      · simp only [Spec.step, upd_ne _ _ e] at ht; exact h.home u u' hu ht
    · intro u ty hu ht
      by_cases e : u = v
      · subst e; simp only [Spec.step, upd_self] at ht; exact h.homeS w ty hw ht
      · simp only [Spec.step, upd_ne _ _ e] at ht; exact h.homeS u ty hu ht
    · exact h.deaths
  | call v arg =>
    obtain ⟨hv, g, k, hg, hk⟩ := hl
    obtain ⟨x, hx⟩ := h.alive hv
    obtain ⟨-, h2⟩ := h.ptr v x hx
    obtain ⟨p, hp1, hp2, hp3, hp4⟩ := h.placeOf hk
    have hxp : x.ptr = some p := by rw [h2 g hg, hp1]
    obtain ⟨q, op⟩ := x
    simp only at hxp
    subst hxp
    have hval : Spec.val a (.call v arg) = .called k.callable arg := by simp [Spec.val, hg, hk]
    rw [hval]
    cases ho : k.once with
    | false =>
      rw [ho] at hp2
      refine ⟨s, by simp [State.step, hx, hp2], ?_⟩
      cases g with
      | static ty => simp only [Spec.step, hg]; exact h
      | inVar u =>
        obtain ⟨h3, -, -⟩ := hp3 u rfl
        simp only [Spec.step, hg, h3, ho]
        exact h
    | true =>
      cases g with
      | static ty => rw [hp4 ty rfl] at ho; cases ho
      | inVar u =>
        obtain ⟨h3, h4, y, h5, h6⟩ := hp3 u rfl
        rw [ho] at hp2
        refine ⟨_, by simp only [State.step, hx, hp2, State.kill, if_true, Option.map_some]; rfl, ?_⟩
        simp only [Spec.step, hg, h3, ho, if_true]
        have := h.spend h5 h6 h3
        rw [ho] at this
        exact this
  | test v =>
    obtain ⟨x, hx⟩ := h.alive hl
    obtain ⟨h1, -⟩ := h.ptr v x hx
    exact ⟨s, by simp [State.step, hx, Spec.val, h1], h⟩
  | destroy v =>
    obtain ⟨hv, href, hsp⟩ := hl
    obtain ⟨x, hx⟩ := h.alive hv
    have h3 := h.own v x hx
    obtain ⟨q, op⟩ := x
    cases hk : a.keeps v with
    | none => exact absurd hk hv
    | some ko =>
      cases ko with
      | none =>
        rw [hk] at h3
        simp only at h3
        subst h3
        refine ⟨_, by simp only [State.step, hx]; rfl, ?_⟩
        simp only [Spec.step, hk]
        have := h.remove href s.places [] (fun _ _ => rfl)
        simpa using this
      | some k =>
        rw [hk] at h3
        obtain ⟨p, h4, h5⟩ := h3
        simp only at h4
        subst h4
        have hs := hsp k hk
        rw [hs] at h5
        refine ⟨_, by simp only [State.step, hx, State.kill, h5, Bool.not_false, if_true, Option.map_some]; rfl, ?_⟩
        simp only [Spec.step, hk]
        refine h.remove href _ [k.callable] (fun r hr => ?_)
        have : p ≠ r := by intro e; subst e; exact hr _ hx rfl
        rw [List.getElem?_set, if_neg this]
  | drop v =>
    obtain ⟨href, k, hk, hs⟩ := hl
    obtain ⟨x, hx⟩ := h.alive (v := v) (by rw [hk]; simp)
    have h3 := h.own v x hx
    obtain ⟨q, op⟩ := x
    rw [hk] at h3
    obtain ⟨p, h4, h5⟩ := h3
    simp only at h4
    subst h4
    refine ⟨_, by simp only [State.step, hx, h5]; rfl, ?_⟩
    simp only [Spec.step]
    have := h.remove href (s.places.set p ⟨k.callable, k.once, false⟩) [] (fun r hr => by
      have : p ≠ r := by intro e; subst e; exact hr _ hx rfl
      rw [List.getElem?_set, if_neg this])
    simpa using this

theorem rep_run {s : State} {a : Spec.World} (h : Rep s a) (os : List Op) (hl : Spec.legalRun a os) :
    ∃ s', s.run os = some (s', Spec.vals a os) ∧ Rep s' (Spec.run a os) := by
  induction os generalizing s a with
  | nil => exact ⟨s, rfl, h⟩
  | cons o os ih =>
    obtain ⟨s1, h1, h2⟩ := rep_step h o hl.1
    obtain ⟨s2, h3, h4⟩ := ih h2 hl.2
    exact ⟨s2, by simp [State.run, h1, h3, Spec.vals], h4⟩

/-! ## The properties -/

/-- **C75.** From nothing, over every history in which an object outlives those that refer to it, one-call callables are
called at most once and then dropped rather than destroyed, and at most one callable of each type is made static: every
operation is defined, every call reaches the callable the function object was last given, by construction, copy or
assignment, with the argument passed, `operator bool` tells whether there is one, and the callables destroyed are those of
the destroyed objects and of the one-call objects called, each once and in that order. -/
theorem refs_history_partial (os : List Op) (hl : Spec.legalRun Spec.World.init os) :
    ∃ s, State.init.run os = some (s, Spec.vals Spec.World.init os) ∧ s.deaths = (Spec.run Spec.World.init os).deaths := by
  obtain ⟨s, h1, h2⟩ := rep_run rep_init os hl
  exact ⟨s, h1, h2.deaths⟩

theorem run_append (s : State) (xs ys : List Op) :
    s.run (xs ++ ys) = (s.run xs).bind fun r => (r.1.run ys).map fun q => (q.1, r.2 ++ q.2) := by
  induction xs generalizing s with
  | nil => simp [State.run]
  | cons o xs ih =>
    simp only [List.cons_append, State.run]
    cases hs : s.step o with
    | none => rfl
    | some r =>
      simp only [Option.bind_some, ih]
      cases hr : r.1.run xs with
      | none => rfl
      | some q => cases hq : q.1.run ys <;> simp [hq]

/-- Copying a function object that keeps its callable makes one that goes on calling the original's: while the original
lives, calls to the copy reach the same callable. -/
theorem refs_copy_calls_original (os : List Op) (v w c arg : Nat)
    (hl : Spec.legalRun Spec.World.init os) (hv : (Spec.run Spec.World.init os).keeps v = none)
    (hw : (Spec.run Spec.World.init os).keeps w = none) (hvw : v ≠ w) :
    ∃ s, State.init.run (os ++ [.make w c false, .copy v w, .call v arg]) =
      some (s, Spec.vals Spec.World.init os ++ [.unit, .unit, .called c arg]) := by
  obtain ⟨s, h1, h2⟩ := rep_run rep_init os hl
  rw [run_append, h1]
  refine ⟨_, by simp [State.run, State.step, upd, hvw, Ne.symm hvw]; rfl⟩

/-- **Violation.** After any legal history: copy a function object that keeps its callable, let the original go, and call
the copy: the callable called is the dead one. -/
theorem refs_copy_dangles (os : List Op) (v w c arg : Nat)
    (hl : Spec.legalRun Spec.World.init os) (hv : (Spec.run Spec.World.init os).keeps v = none)
    (hw : (Spec.run Spec.World.init os).keeps w = none) (hvw : v ≠ w) :
    (State.init.run (os ++ [.make w c false, .copy v w, .destroy w])).isSome ∧
    State.init.run (os ++ [.make w c false, .copy v w, .destroy w, .call v arg]) = none := by
  obtain ⟨s, h1, h2⟩ := rep_run rep_init os hl
  rw [run_append, run_append, h1]
  constructor <;> simp [State.run, State.step, State.kill, upd, hvw, Ne.symm hvw]

/-- **Violation.** After any legal history in which a callable of a type has been made static: a second `static_function`
of that type, from another callable (another function pointer of the same signature, say), calls the first. -/
theorem refs_second_static_calls_first (os : List Op) (v ty c c' arg : Nat)
    (hl : Spec.legalRun Spec.World.init os) (hv : (Spec.run Spec.World.init os).keeps v = none)
    (hty : (Spec.run Spec.World.init os).forGood ty = some c) :
    ∃ s, State.init.run (os ++ [.makeStatic v ty c', .call v arg]) =
      some (s, Spec.vals Spec.World.init os ++ [.unit, .called c arg]) := by
  obtain ⟨s, h1, h2⟩ := rep_run rep_init os hl
  have h3 := h2.stat ty
  rw [hty] at h3
  obtain ⟨p, h4, h5⟩ := h3
  rw [run_append, h1]
  refine ⟨_, by simp [State.run, State.step, upd, h4, h5]; rfl⟩

/-- **Violation.** After any legal history, a one-call function object whose call has been made is undefined to call again,
and undefined to destroy. -/
theorem refs_once_spent (os : List Op) (v c arg arg' : Nat)
    (hl : Spec.legalRun Spec.World.init os) (hv : (Spec.run Spec.World.init os).keeps v = none) :
    (∃ s, State.init.run (os ++ [.make v c true, .call v arg]) =
      some (s, Spec.vals Spec.World.init os ++ [.unit, .called c arg])) ∧
    State.init.run (os ++ [.make v c true, .call v arg, .call v arg']) = none ∧
    State.init.run (os ++ [.make v c true, .call v arg, .destroy v]) = none := by
  obtain ⟨s, h1, h2⟩ := rep_run rep_init os hl
  rw [run_append, run_append, run_append, h1]
  refine ⟨⟨_, by simp [State.run, State.step, State.kill, upd]; rfl⟩, ?_, ?_⟩ <;>
    simp [State.run, State.step, State.kill, upd]

/-- After any legal history, an object without a callable says so, and calling it is undefined. -/
theorem refs_null_undefined (os : List Op) (v arg : Nat)
    (hl : Spec.legalRun Spec.World.init os) (hv : (Spec.run Spec.World.init os).keeps v ≠ none)
    (ht : (Spec.run Spec.World.init os).target v = none) :
    (∃ s, State.init.run (os ++ [.test v]) = some (s, Spec.vals Spec.World.init os ++ [.bool false])) ∧
    State.init.run (os ++ [.call v arg]) = none := by
  obtain ⟨s, h1, h2⟩ := rep_run rep_init os hl
  obtain ⟨x, hx⟩ := h2.alive hv
  obtain ⟨h3, -⟩ := h2.ptr v x hx
  rw [ht] at h3
  obtain ⟨q, op⟩ := x
  cases q with
  | some q => cases h3
  | none =>
    rw [run_append, run_append, h1]
    refine ⟨⟨_, by simp [State.run, State.step, hx]; rfl⟩, ?_⟩
    simp [State.run, State.step, hx]

/-- a history that meets the hypotheses: an object, a function that refers to it, a copy, a static one, a one-call one -/
example : Spec.legalRun Spec.World.init
    [.make 0 10 false, .null 1, .test 1, .assign 1 0, .call 1 7, .copy 2 0, .call 2 8, .destroy 2, .makeStatic 3 5 11,
     .makeStatic 4 5 11, .refer 6 3, .call 6 9, .make 5 12 true, .call 5 1, .drop 5, .destroy 1, .destroy 0] := by
  simp [Spec.legalRun, Spec.legal, Spec.step, Spec.World.init, Spec.World.callee, upd]
  grind

/-- and what the specification says its operations return, and what it destroys -/
example : (Spec.vals Spec.World.init [.make 0 10 false, .null 1, .test 1, .assign 1 0, .call 1 7, .copy 2 0, .call 2 8, .destroy 2, .makeStatic 3 5 11,
     .makeStatic 4 5 11, .refer 6 3, .call 6 9, .make 5 12 true, .call 5 1, .drop 5, .destroy 1, .destroy 0] =
    [.unit, .unit, .bool false, .unit, .called 10 7, .unit, .called 10 8, .unit, .unit, .unit, .unit, .called 11 9, .unit, .called 12 1,
     .unit, .unit, .unit]) ∧
    (Spec.run Spec.World.init [.make 0 10 false, .null 1, .test 1, .assign 1 0, .call 1 7, .copy 2 0, .call 2 8, .destroy 2, .makeStatic 3 5 11,
     .makeStatic 4 5 11, .refer 6 3, .call 6 9, .make 5 12 true, .call 5 1, .drop 5, .destroy 1, .destroy 0]).deaths = [10, 12, 10] := by
  decide

end Verif.Func.Refs
