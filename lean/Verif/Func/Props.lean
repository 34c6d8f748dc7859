import Verif.Locks.Props

/-!
# C61: `function` owns its callable

Modelled from `src/estd/functional.h` (`experimental::function`), `src/estd/internal/functional.h` (`detail::function`)
and `src/estd/internal/impl/functional/fnptr2.h` (the default implementation).  `none` is undefined behaviour.
-/
namespace Verif.Func
open Verif.Locks (upd upd_same upd_other)

/-! ## The model -/

/-- a function object: its `m`, internal/functional.h:184; null or the number of a heap cell.  (`_deleter` is the
function for the type of what `m` points at: both are set together, functional.h:173-184, 216-222.) -/
abbrev Fn := Option Nat

/-- what was allocated, fnptr2.h:64-105: a model holding a callable (which owns a resource, by number), or a model
holding another function object -/
inductive Cell where
  | user (x : Nat)
  | fn (f : Fn)
  deriving DecidableEq, Repr

/-- the heap; a cell is `none` once it is deleted.  `log` records the resources destroyed. -/
structure Heap where
  cells : List (Option Cell)
  log : List Nat
  deriving DecidableEq, Repr

/-- `new model_type(...)`, functional.h:182, 193 -/
def Heap.new (h : Heap) (c : Cell) : Heap × Nat := ({ h with cells := h.cells ++ [some c] }, h.cells.length)

/-- `delete (model_type*) c`, functional.h:141-147: destroys what the model holds, then frees it; `k` bounds the nesting -/
def Heap.del : Nat → Heap → Nat → Option Heap
  | 0, _, _ => none
  | k + 1, h, p =>
    match h.cells[p]? with
    | some (some (.user x)) => some ⟨h.cells.set p none, h.log ++ [x]⟩
    | some (some (.fn none)) => some { h with cells := h.cells.set p none }
    | some (some (.fn (some q))) => (Heap.del k h q).map fun h' => { h' with cells := h'.cells.set p none }
    | _ => none

/-- `reset()`, functional.h:152-165; deleting null (when `nullable` is false) does nothing -/
def Heap.reset (h : Heap) : Fn → Option Heap
  | none => some h
  | some p => h.del (h.cells.length + 1) p

/-- `operator()`, internal/functional.h:204-216, fnptr2.h:58-61, 99-104: the callable that is invoked, by its resource -/
def Heap.call : Nat → Heap → Fn → Option Nat
  | 0, _, _ => none
  | _, _, none => none
  | k + 1, h, some p =>
    match h.cells[p]? with
    | some (some (.user x)) => some x
    | some (some (.fn f)) => Heap.call k h f
    | _ => none

/-- the heap and the function objects, by number; `none`: not constructed -/
structure State where
  heap : Heap
  vars : Nat → Option Fn

def State.init : State := ⟨⟨[], []⟩, fun _ => none⟩

/-- the operations on function objects `v`, `w` -/
inductive Op where
  /-- `function v(callable)`, the callable owning resource `x` -/
  | construct (v x : Nat)
  /-- `function v(std::move(w))` -/
  | move (v w : Nat)
  /-- `function v(w)` for a `w` that is not const -/
  | copy (v w : Nat)
  /-- `function v(w)` for a const `w` -/
  | copyConst (v w : Nat)
  /-- `v = callable` -/
  | assign (v x : Nat)
  /-- `v = w` or `v = std::move(w)` -/
  | assignFn (v w : Nat)
  | destroy (v : Nat)
  | call (v : Nat)
  /-- `bool(v)`; `nullable` is the template parameter -/
  | test (v : Nat) (nullable : Bool)
  deriving DecidableEq, Repr

inductive Val where
  | unit
  | called (x : Nat)
  | bool (b : Bool)
  deriving DecidableEq, Repr

/-- One operation.  The alternatives for `v(w)`: the template constructor functional.h:173-184 is the better match for
a non-const `w`, and moves from it; the defaulted copy constructor (functional.h:212) is chosen for a const one; the
move constructor is functional.h:216-222.  Assignment is functional.h:230-236: `reset()`, then construction in place
from `std::move(f)`; when `f` is the object itself, the base constructor has already set `m` to null
(internal/functional.h:190) when it is read. -/
def State.step (s : State) : Op → Option (State × Val)
  | .construct v x =>
    let r := s.heap.new (.user x)
    some (⟨r.1, upd s.vars v (some (some r.2))⟩, .unit)
  | .move v w => (s.vars w).map fun f => (⟨s.heap, upd (upd s.vars w (some none)) v (some f)⟩, .unit)
  | .copy v w => (s.vars w).map fun f =>
    let r := s.heap.new (.fn f)
    (⟨r.1, upd (upd s.vars w (some none)) v (some (some r.2))⟩, .unit)
  | .copyConst v w => (s.vars w).map fun f => (⟨s.heap, upd s.vars v (some f)⟩, .unit)
  | .assign v x => (s.vars v).bind fun f => (s.heap.reset f).map fun h =>
    let r := h.new (.user x)
    (⟨r.1, upd s.vars v (some (some r.2))⟩, .unit)
  | .assignFn v w => (s.vars v).bind fun f => (s.heap.reset f).bind fun h =>
    if v = w then some (⟨h, upd s.vars v (some none)⟩, .unit)
    else (s.vars w).map fun g => (⟨h, upd (upd s.vars w (some none)) v (some g)⟩, .unit)
  | .destroy v => (s.vars v).bind fun f => (s.heap.reset f).map fun h => (⟨h, upd s.vars v none⟩, .unit)
  | .call v => (s.vars v).bind fun f => (Heap.call (s.heap.cells.length + 1) s.heap f).map fun x => (s, .called x)
  | .test v nullable => (s.vars v).map fun f => (s, .bool (if nullable then f.isSome else true))

def State.run (s : State) : List Op → Option (State × List Val)
  | [] => some (s, [])
  | o :: os => (s.step o).bind fun r => (State.run r.1 os).map fun q => (q.1, r.2 :: q.2)

/-! ## The specification -/

/-- what each function object holds (`some none`: nothing), and the resources destroyed so far -/
structure Spec.Owners where
  vars : Nat → Option (Option Nat)
  log : List Nat

def Spec.Owners.init : Spec.Owners := ⟨fun _ => none, []⟩

/-- operations a program can perform on objects below `N`: construct what is not there, use what is; call what holds
something; and, because the code departs there, no const copies and no self-assignment -/
def Spec.legal (N : Nat) (a : Spec.Owners) : Op → Prop
  | .construct v _ => v < N ∧ a.vars v = none
  | .move v w => v < N ∧ a.vars v = none ∧ w < N ∧ a.vars w ≠ none
  | .copy v w => v < N ∧ a.vars v = none ∧ w < N ∧ a.vars w ≠ none
  | .copyConst _ _ => False
  | .assign v _ => v < N ∧ a.vars v ≠ none
  | .assignFn v w => v < N ∧ a.vars v ≠ none ∧ w < N ∧ a.vars w ≠ none ∧ v ≠ w
  | .destroy v => v < N ∧ a.vars v ≠ none
  | .call v => v < N ∧ ∃ x, a.vars v = some (some x)
  | .test v _ => v < N ∧ a.vars v ≠ none

def Spec.held (a : Spec.Owners) (v : Nat) : List Nat := ((a.vars v).getD none).toList

/-- a callable has one owner; it is destroyed when the owner goes or takes another -/
def Spec.step (a : Spec.Owners) : Op → Spec.Owners
  | .construct v x => { a with vars := upd a.vars v (some (some x)) }
  | .move v w => { a with vars := upd (upd a.vars w (some none)) v (a.vars w) }
  | .copy v w => { a with vars := upd (upd a.vars w (some none)) v (a.vars w) }
  | .copyConst v w => { a with vars := upd a.vars v (a.vars w) }
  | .assign v x => ⟨upd a.vars v (some (some x)), a.log ++ Spec.held a v⟩
  | .assignFn v w => ⟨upd (upd a.vars w (some none)) v (a.vars w), a.log ++ Spec.held a v⟩
  | .destroy v => ⟨upd a.vars v none, a.log ++ Spec.held a v⟩
  | .call _ => a
  | .test _ _ => a

/-- the value an operation gives; `true` exactly when something is held, except where the code departs: a function made
from an empty named one is not null, and a function that is not `nullable` always claims to hold something -/
def Spec.val (a : Spec.Owners) (o : Op) (r : Val) : Prop :=
  match o with
  | .call v => ∃ x, a.vars v = some (some x) ∧ r = .called x
  | .test v nullable => ∃ b, r = .bool b ∧ (a.vars v ≠ some none → b = true) ∧ (nullable = false → b = true)
  | _ => r = .unit

def Spec.run (a : Spec.Owners) : List Op → Spec.Owners
  | [] => a
  | o :: os => Spec.run (Spec.step a o) os

def Spec.legalRun (N : Nat) (a : Spec.Owners) : List Op → Prop
  | [] => True
  | o :: os => Spec.legal N a o ∧ Spec.legalRun N (Spec.step a o) os

def Spec.vals (a : Spec.Owners) : List Op → List Val → Prop
  | [], vs => vs = []
  | o :: os, vs => ∃ r vs', vs = r :: vs' ∧ Spec.val a o r ∧ Spec.vals (Spec.step a o) os vs'

/-- the resource a callable brought into being by `o` owns -/
def Spec.born : Op → List Nat
  | .construct _ x => [x]
  | .assign _ x => [x]
  | _ => []

/-- how many of the first `N` function objects hold `x` -/
def Spec.holders (vars : Nat → Option (Option Nat)) (x : Nat) : Nat → Nat
  | 0 => 0
  | n + 1 => Spec.holders vars x n + (if vars n = some (some x) then 1 else 0)

/-! ## Proofs -/

/-- the cells a function object owns, outermost first, and what it holds -/
inductive Chain (cs : List (Option Cell)) : Fn → List Nat → Option Nat → Prop where
  | null : Chain cs none [] none
  | user (p x) : cs[p]? = some (some (.user x)) → Chain cs (some p) [p] (some x)
  | wrap (p f ps v) : cs[p]? = some (some (.fn f)) → Chain cs f ps v → (∀ q ∈ ps, q < p) → Chain cs (some p) (p :: ps) v

theorem Chain.frame {cs cs' : List (Option Cell)} {f : Fn} {ps : List Nat} {v : Option Nat} (h : Chain cs f ps v)
    (hs : ∀ p ∈ ps, cs'[p]? = cs[p]?) : Chain cs' f ps v := by
  induction h with
  | null => exact .null
  | user p x hp => exact .user p x (by rw [hs p (by simp)]; exact hp)
  | wrap p f ps v hp _ hq ih =>
    exact .wrap p f ps v (by rw [hs p (by simp)]; exact hp) (ih fun q hq => hs q (List.mem_cons_of_mem _ hq)) hq

theorem Chain.live {cs : List (Option Cell)} {f : Fn} {ps : List Nat} {v : Option Nat} (h : Chain cs f ps v) :
    ∀ p ∈ ps, p < cs.length ∧ ∃ c, cs[p]? = some (some c) := by
  induction h with
  | null => intro p hp; cases hp
  | user p x hp =>
    intro q hq
    rw [List.mem_singleton.mp hq]
    exact ⟨(List.getElem?_eq_some_iff.mp hp).1, _, hp⟩
  | wrap p f ps v hp _ _ ih =>
    intro q hq
    rcases List.mem_cons.mp hq with rfl | hq
    · exact ⟨(List.getElem?_eq_some_iff.mp hp).1, _, hp⟩
    · exact ih q hq

/-- the cells with those of `ps` deleted -/
def wipe (cs : List (Option Cell)) : List Nat → List (Option Cell)
  | [] => cs
  | p :: ps => (wipe cs ps).set p none

theorem wipe_length (cs : List (Option Cell)) (ps : List Nat) : (wipe cs ps).length = cs.length := by
  induction ps with
  | nil => rfl
  | cons p ps ih => simp [wipe, ih]

theorem wipe_other (cs : List (Option Cell)) (ps : List Nat) (q : Nat) (h : q ∉ ps) : (wipe cs ps)[q]? = cs[q]? := by
  induction ps with
  | nil => rfl
  | cons p ps ih =>
    simp only [List.mem_cons, not_or] at h
    rw [wipe, List.getElem?_set_ne (Ne.symm h.1), ih h.2]

theorem wipe_dead (cs : List (Option Cell)) (ps : List Nat) (q : Nat) (h : q ∈ ps) (c : Cell) :
    (wipe cs ps)[q]? ≠ some (some c) := by
  induction ps with
  | nil => cases h
  | cons p ps ih =>
    rw [wipe]
    by_cases hp : q = p
    · subst hp
      rw [List.getElem?_set]
      split
      · split <;> simp
      · contradiction
    · rw [List.getElem?_set_ne (Ne.symm hp)]
      exact ih ((List.mem_cons.mp h).resolve_left hp)

theorem del_chain {cs : List (Option Cell)} {f : Fn} {ps : List Nat} {v : Option Nat} (h : Chain cs f ps v) :
    ∀ p, f = some p → ∀ (log : List Nat) (k : Nat), p < k → Heap.del k ⟨cs, log⟩ p = some ⟨wipe cs ps, log ++ v.toList⟩ := by
  induction h with
  | null => intro p e; cases e
  | user p x hp =>
    intro p' e log k hk
    cases e
    obtain ⟨k, rfl⟩ := Nat.exists_eq_succ_of_ne_zero (by omega : k ≠ 0)
    simp [Heap.del, hp, wipe]
  | wrap p f ps v hp hc hq ih =>
    intro p' e log k hk
    cases e
    obtain ⟨k, rfl⟩ := Nat.exists_eq_succ_of_ne_zero (by omega : k ≠ 0)
    cases hf : f with
    | none => subst hf; cases hc; simp [Heap.del, hp, wipe]
    | some q =>
      subst hf
      have hqp : q < p := by
        cases hc with
        | user _ _ _ => exact hq q (by simp)
        | wrap _ _ _ _ _ _ _ => exact hq q (by simp)
      have := ih q rfl log k (by omega)
      simp [Heap.del, hp, this, wipe]

theorem reset_chain {h : Heap} {f : Fn} {ps : List Nat} {v : Option Nat} (hc : Chain h.cells f ps v) :
    h.reset f = some ⟨wipe h.cells ps, h.log ++ v.toList⟩ := by
  cases f with
  | none => cases hc; simp [Heap.reset, wipe]
  | some p =>
    have hp : p < h.cells.length := by
      cases hc with
      | user _ _ hp => exact (List.getElem?_eq_some_iff.mp hp).1
      | wrap _ _ _ _ hp _ _ => exact (List.getElem?_eq_some_iff.mp hp).1
    exact del_chain hc p rfl h.log _ (by omega)

theorem call_chain {cs : List (Option Cell)} {f : Fn} {ps : List Nat} {v : Option Nat} (h : Chain cs f ps v) (x : Nat)
    (hv : v = some x) : ∀ (log : List Nat) (k : Nat), (∀ p ∈ ps, p < k) → 0 < k → Heap.call (k + 1) ⟨cs, log⟩ f = some x := by
  induction h with
  | null => cases hv
  | user p y hp => intro log k _ _; cases hv; simp [Heap.call, hp]
  | wrap p f ps v hp hc hq ih =>
    intro log k hk h0
    obtain ⟨k, rfl⟩ := Nat.exists_eq_succ_of_ne_zero (by omega : k ≠ 0)
    have h1 := hk p (by simp)
    have hne : ps ≠ [] := by
      intro e; subst e; cases hc; cases hv
    have h2 : ∀ q ∈ ps, q < k := fun q hq' => by have := hq q hq'; omega
    obtain ⟨q, qs, hqs⟩ := List.exists_cons_of_ne_nil hne
    have h3 := h2 q (by rw [hqs]; simp)
    have := ih hv log k h2 (by omega)
    simp only [Heap.call, hp]
    exact this

theorem Chain.some_inv {cs : List (Option Cell)} {f : Fn} {ps : List Nat} {v : Option Nat} (h : Chain cs f ps v)
    (hv : v ≠ none) : ∃ p, f = some p ∧ p ∈ ps := by
  cases h with
  | null => exact absurd rfl hv
  | user p y hp => exact ⟨p, rfl, by simp⟩
  | wrap p f ps v hp _ _ => exact ⟨p, rfl, by simp⟩

theorem Chain.null_inv {cs : List (Option Cell)} {f : Fn} {ps : List Nat} {v : Option Nat} (h : Chain cs f ps v)
    (hf : f = none) : v = none := by
  cases h with
  | null => rfl
  | user p y hp => cases hf
  | wrap p f ps v hp _ _ => cases hf

/-- every function object owns the cells of its chain, no two own the same one, and every live cell has an owner -/
structure Rep (N : Nat) (s : State) (a : Spec.Owners) (own : Nat → List Nat) : Prop where
  alive : ∀ v, (s.vars v).isSome = (a.vars v).isSome
  chain : ∀ v f, s.vars v = some f → Chain s.heap.cells f (own v) ((a.vars v).getD none)
  dead : ∀ v, s.vars v = none → own v = []
  apart : ∀ v w, v ≠ w → ∀ p, p ∈ own v → p ∉ own w
  owned : ∀ p c, s.heap.cells[p]? = some (some c) → ∃ v, v < N ∧ p ∈ own v
  log : s.heap.log = a.log

theorem rep_init (N : Nat) : Rep N State.init Spec.Owners.init (fun _ => []) :=
  ⟨fun _ => rfl, fun v f h => (by cases h), fun _ _ => rfl, fun _ _ _ _ h => (by cases h), fun p c h => (by cases h), rfl⟩

section
variable {N : Nat} {s : State} {a : Spec.Owners} {own : Nat → List Nat}

theorem Rep.some_of (h : Rep N s a own) {v : Nat} (hv : a.vars v ≠ none) : ∃ f, s.vars v = some f := by
  have := h.alive v
  cases hs : s.vars v with
  | some f => exact ⟨f, rfl⟩
  | none =>
    rw [hs] at this
    cases ha : a.vars v with
    | none => exact absurd ha hv
    | some x => rw [ha] at this; cases this

theorem Rep.none_of (h : Rep N s a own) {v : Nat} (hv : a.vars v = none) : s.vars v = none := by
  have := h.alive v
  rw [hv] at this
  cases hs : s.vars v with
  | none => rfl
  | some f => rw [hs] at this; cases this

theorem Rep.bound (h : Rep N s a own) (v p : Nat) (hp : p ∈ own v) : p < s.heap.cells.length := by
  cases hs : s.vars v with
  | none => rw [h.dead v hs] at hp; cases hp
  | some f => exact ((h.chain v f hs).live p hp).1

/-- a new object holding a new callable -/
theorem Rep.construct (h : Rep N s a own) (v x : Nat) (hv : v < N) (hn : own v = []) :
    Rep N ⟨(s.heap.new (.user x)).1, upd s.vars v (some (some s.heap.cells.length))⟩
      { a with vars := upd a.vars v (some (some x)) } (upd own v [s.heap.cells.length]) := by
  refine ⟨fun w => ?_, fun w f hw => ?_, fun w hw => ?_, fun w z hwz p hp => ?_, fun p c hp => ?_, h.log⟩
  · by_cases e : w = v
    · subst e; simp [upd_same]
    · simp only [upd_other _ _ e]; exact h.alive w
  · by_cases e : w = v
    · subst e
      simp only [upd_same, Option.some.injEq] at hw
      subst hw
      simp only [upd_same]
      exact .user _ _ (by simp [Heap.new])
    · simp only [upd_other _ _ e] at hw ⊢
      refine (h.chain w f hw).frame fun p hp => ?_
      simp only [Heap.new]
      rw [List.getElem?_append_left (h.bound w p hp)]
  · by_cases e : w = v
    · subst e; simp [upd_same] at hw
    · simp only [upd_other _ _ e] at hw ⊢; exact h.dead w hw
  · by_cases e : w = v
    · subst e
      rw [upd_same] at hp
      rw [upd_other _ _ (Ne.symm hwz), List.mem_singleton.mp hp]
      intro hm
      have := h.bound z _ hm
      omega
    · rw [upd_other _ _ e] at hp
      by_cases e' : z = v
      · subst e'
        rw [upd_same, List.mem_singleton]
        have := h.bound w p hp
        omega
      · rw [upd_other _ _ e']; exact h.apart w z hwz p hp
  · simp only [Heap.new] at hp
    by_cases hl : p < s.heap.cells.length
    · rw [List.getElem?_append_left hl] at hp
      obtain ⟨w, w1, w2⟩ := h.owned p c hp
      refine ⟨w, w1, ?_⟩
      by_cases e : w = v
      · subst e; rw [hn] at w2; cases w2
      · rw [upd_other _ _ e]; exact w2
    · refine ⟨v, hv, ?_⟩
      rw [upd_same]
      have hb := (List.getElem?_eq_some_iff.mp hp).1
      simp at hb
      exact List.mem_singleton.mpr (by omega)

/-- what `v` owns is deleted -/
theorem Rep.reset (h : Rep N s a own) (v : Nat) (f : Fn) (hv : s.vars v = some f) (ob : Option Fn) (ab : Option (Option Nat))
    (hob : ob = some none ∧ ab = some none ∨ ob = none ∧ ab = none) :
    s.heap.reset f = some ⟨wipe s.heap.cells (own v), a.log ++ Spec.held a v⟩ ∧
    Rep N ⟨⟨wipe s.heap.cells (own v), a.log ++ Spec.held a v⟩, upd s.vars v ob⟩
      ⟨upd a.vars v ab, a.log ++ Spec.held a v⟩ (upd own v []) := by
  refine ⟨by rw [reset_chain (h.chain v f hv), h.log]; rfl, ?_⟩
  refine ⟨fun w => ?_, fun w g hw => ?_, fun w hw => ?_, fun w z hwz p hp => ?_, fun p c hp => ?_, rfl⟩
  · by_cases e : w = v
    · subst e; simp only [upd_same]; rcases hob with ⟨rfl, rfl⟩ | ⟨rfl, rfl⟩ <;> rfl
    · simp only [upd_other _ _ e]; exact h.alive w
  · by_cases e : w = v
    · subst e
      simp only [upd_same] at hw ⊢
      rcases hob with ⟨rfl, rfl⟩ | ⟨rfl, rfl⟩
      · cases hw; exact .null
      · cases hw
    · simp only [upd_other _ _ e] at hw ⊢
      exact (h.chain w g hw).frame fun p hp => wipe_other _ _ _ fun hp' => h.apart w v e p hp hp'
  · by_cases e : w = v
    · subst e; rw [upd_same]
    · simp only [upd_other _ _ e] at hw ⊢; exact h.dead w hw
  · by_cases e : w = v
    · subst e; rw [upd_same] at hp; cases hp
    · rw [upd_other _ _ e] at hp
      by_cases e' : z = v
      · subst e'; rw [upd_same]; exact List.not_mem_nil
      · rw [upd_other _ _ e']; exact h.apart w z hwz p hp
  · simp only at hp
    have hpv : p ∉ own v := fun hm => wipe_dead _ _ _ hm c hp
    rw [wipe_other _ _ _ hpv] at hp
    obtain ⟨w, w1, w2⟩ := h.owned p c hp
    refine ⟨w, w1, ?_⟩
    by_cases e : w = v
    · subst e; exact absurd w2 hpv
    · rw [upd_other _ _ e]; exact w2

/-- what `w` owns passes to `v`, possibly inside a new cell -/
theorem Rep.pass (h : Rep N s a own) (v w : Nat) (hvw : v ≠ w) (hv : v < N) (hn : own v = []) (g : Fn)
    (hw : s.vars w = some g) :
    Rep N ⟨s.heap, upd (upd s.vars w (some none)) v (some g)⟩
      { a with vars := upd (upd a.vars w (some none)) v (a.vars w) } (upd (upd own w []) v (own w)) := by
  have haw : ∃ x, a.vars w = some x := by
    have := h.alive w
    rw [hw] at this
    exact Option.isSome_iff_exists.mp this.symm
  obtain ⟨x, hx⟩ := haw
  refine ⟨fun z => ?_, fun z f hz => ?_, fun z hz => ?_, fun z y hzy p hp => ?_, fun p c hp => ?_, h.log⟩
  · by_cases e : z = v
    · subst e; simp [upd_same, hx]
    · simp only [upd_other _ _ e]
      by_cases e' : z = w
      · subst e'; simp [upd_same]
      · simp only [upd_other _ _ e']; exact h.alive z
  · by_cases e : z = v
    · subst e
      simp only [upd_same, Option.some.injEq] at hz ⊢
      subst hz
      exact h.chain w g hw
    · simp only [upd_other _ _ e] at hz ⊢
      by_cases e' : z = w
      · subst e'
        simp only [upd_same, Option.some.injEq] at hz ⊢
        subst hz; exact .null
      · simp only [upd_other _ _ e'] at hz ⊢; exact h.chain z f hz
  · by_cases e : z = v
    · subst e; simp [upd_same] at hz
    · simp only [upd_other _ _ e] at hz ⊢
      by_cases e' : z = w
      · subst e'; simp [upd_same] at hz
      · simp only [upd_other _ _ e'] at hz ⊢; exact h.dead z hz
  · by_cases e : z = v
    · subst e
      rw [upd_same] at hp
      rw [upd_other _ _ (Ne.symm hzy)]
      by_cases e' : y = w
      · subst e'; rw [upd_same]; exact List.not_mem_nil
      · rw [upd_other _ _ e']; exact h.apart w y (Ne.symm e') p hp
    · rw [upd_other _ _ e] at hp
      by_cases e1 : z = w
      · subst e1; rw [upd_same] at hp; cases hp
      · rw [upd_other _ _ e1] at hp
        by_cases e2 : y = v
        · subst e2; rw [upd_same]; exact h.apart z w e1 p hp
        · rw [upd_other _ _ e2]
          by_cases e3 : y = w
          · subst e3; rw [upd_same]; exact List.not_mem_nil
          · rw [upd_other _ _ e3]; exact h.apart z y hzy p hp
  · obtain ⟨z, z1, z2⟩ := h.owned p c hp
    by_cases e : z = w
    · subst e; exact ⟨v, hv, by rw [upd_same]; exact z2⟩
    · refine ⟨z, z1, ?_⟩
      have : z ≠ v := by intro e'; subst e'; rw [hn] at z2; cases z2
      rw [upd_other _ _ this, upd_other _ _ e]; exact z2

/-- `v`'s pointer is put into a new cell -/
theorem Rep.rewrap (h : Rep N s a own) (v : Nat) (hv : v < N) (g : Fn) (hg : s.vars v = some g) :
    Rep N ⟨(s.heap.new (.fn g)).1, upd s.vars v (some (some s.heap.cells.length))⟩ a
      (upd own v (s.heap.cells.length :: own v)) := by
  refine ⟨fun w => ?_, fun w f hw => ?_, fun w hw => ?_, fun w z hwz p hp => ?_, fun p c hp => ?_, h.log⟩
  · by_cases e : w = v
    · subst e
      have := h.alive w
      rw [hg] at this
      simp only [upd_same]; exact this
    · simp only [upd_other _ _ e]; exact h.alive w
  · have fr : ∀ w p, p ∈ own w → (s.heap.cells ++ [some (Cell.fn g)])[p]? = s.heap.cells[p]? := fun w p hp =>
      List.getElem?_append_left (h.bound w p hp)
    by_cases e : w = v
    · subst e
      simp only [upd_same, Option.some.injEq] at hw ⊢
      subst hw
      exact .wrap _ g _ _ (by simp [Heap.new]) ((h.chain w g hg).frame (fr w)) (h.bound w)
    · simp only [upd_other _ _ e] at hw ⊢
      exact (h.chain w f hw).frame (fr w)
  · by_cases e : w = v
    · subst e; simp [upd_same] at hw
    · simp only [upd_other _ _ e] at hw ⊢; exact h.dead w hw
  · by_cases e : w = v
    · subst e
      rw [upd_same] at hp
      rw [upd_other _ _ (Ne.symm hwz)]
      rcases List.mem_cons.mp hp with rfl | hp
      · intro hm; have := h.bound z _ hm; omega
      · exact h.apart w z hwz p hp
    · rw [upd_other _ _ e] at hp
      by_cases e' : z = v
      · subst e'
        rw [upd_same, List.mem_cons, not_or]
        refine ⟨?_, h.apart w z hwz p hp⟩
        have := h.bound w p hp
        omega
      · rw [upd_other _ _ e']; exact h.apart w z hwz p hp
  · simp only [Heap.new] at hp
    by_cases hl : p < s.heap.cells.length
    · rw [List.getElem?_append_left hl] at hp
      obtain ⟨w, w1, w2⟩ := h.owned p c hp
      refine ⟨w, w1, ?_⟩
      by_cases e : w = v
      · subst e; rw [upd_same]; exact List.mem_cons_of_mem _ w2
      · rw [upd_other _ _ e]; exact w2
    · refine ⟨v, hv, ?_⟩
      rw [upd_same]
      have hb := (List.getElem?_eq_some_iff.mp hp).1
      simp at hb
      exact List.mem_cons.mpr (Or.inl (by omega))

end

theorem upd_upd {α : Type} (f : Nat → α) (i : Nat) (u v : α) : upd (upd f i u) i v = upd f i v := by
  funext j; by_cases e : j = i <;> simp [upd, e]

theorem upd_comm {α : Type} (f : Nat → α) (i j : Nat) (u v : α) (h : i ≠ j) :
    upd (upd f i u) j v = upd (upd f j v) i u := by
  funext k
  by_cases e : k = i
  · subst e; simp [upd, h]
  · by_cases e' : k = j
    · subst e'; simp [upd, e]
    · simp [upd, e, e']

theorem rep_step {N : Nat} {s : State} {a : Spec.Owners} {own : Nat → List Nat} (h : Rep N s a own) (o : Op)
    (hl : Spec.legal N a o) :
    ∃ s' r own', s.step o = some (s', r) ∧ Rep N s' (Spec.step a o) own' ∧ Spec.val a o r := by
  cases o with
  | construct v x =>
    have hd := h.none_of hl.2
    exact ⟨_, _, _, rfl, h.construct v x hl.1 (h.dead v hd), rfl⟩
  | move v w =>
    obtain ⟨l1, l2, l3, l4⟩ := hl
    obtain ⟨g, hg⟩ := h.some_of l4
    have hd := h.none_of l2
    have hvw : v ≠ w := by intro e; subst e; exact l4 l2
    exact ⟨_, _, _, by simp [State.step, hg], h.pass v w hvw l1 (h.dead v hd) g hg, rfl⟩
  | copy v w =>
    obtain ⟨l1, l2, l3, l4⟩ := hl
    obtain ⟨g, hg⟩ := h.some_of l4
    have hd := h.none_of l2
    have hvw : v ≠ w := by intro e; subst e; exact l4 l2
    have h1 := h.pass v w hvw l1 (h.dead v hd) g hg
    have h2 := h1.rewrap v l1 g (by simp only [upd_same])
    simp only [upd_upd] at h2
    exact ⟨_, _, _, by simp only [State.step, hg, Option.map_some]; rfl, h2, rfl⟩
  | copyConst v w => exact hl.elim
  | assign v x =>
    obtain ⟨l1, l2⟩ := hl
    obtain ⟨f, hf⟩ := h.some_of l2
    obtain ⟨r1, r2⟩ := h.reset v f hf (some none) (some none) (Or.inl ⟨rfl, rfl⟩)
    have h2 := r2.construct v x l1 (by rw [upd_same])
    simp only [upd_upd] at h2
    exact ⟨_, _, _, by simp only [State.step, hf, r1, Option.map_some, Option.bind_some]; rfl, h2, rfl⟩
  | assignFn v w =>
    obtain ⟨l1, l2, l3, l4, l5⟩ := hl
    obtain ⟨f, hf⟩ := h.some_of l2
    obtain ⟨g, hg⟩ := h.some_of l4
    obtain ⟨r1, r2⟩ := h.reset v f hf (some none) (some none) (Or.inl ⟨rfl, rfl⟩)
    have h2 := r2.pass v w l5 l1 (by rw [upd_same]) g (by simp only; rw [upd_other _ _ (Ne.symm l5)]; exact hg)
    simp only [upd_comm _ v w _ _ l5, upd_upd, upd_other _ _ (Ne.symm l5)] at h2
    exact ⟨_, _, _, by simp only [State.step, hf, r1, if_neg l5, hg, Option.map_some, Option.bind_some], h2, rfl⟩
  | destroy v =>
    obtain ⟨l1, l2⟩ := hl
    obtain ⟨f, hf⟩ := h.some_of l2
    obtain ⟨r1, r2⟩ := h.reset v f hf none none (Or.inr ⟨rfl, rfl⟩)
    exact ⟨_, _, _, by simp only [State.step, hf, r1, Option.map_some, Option.bind_some], r2, rfl⟩
  | call v =>
    obtain ⟨l1, x, l2⟩ := hl
    obtain ⟨f, hf⟩ := h.some_of (by rw [l2]; simp)
    have hc := h.chain v f hf
    rw [l2] at hc
    have hb : 0 < s.heap.cells.length := by
      obtain ⟨p, -, hp⟩ := hc.some_inv (by simp)
      have := h.bound v p hp
      omega
    have := call_chain hc x rfl s.heap.log s.heap.cells.length (h.bound v) hb
    exact ⟨s, .called x, own, by simp only [State.step, hf, Option.bind_some]; rw [this]; rfl, h, x, l2, rfl⟩
  | test v nullable =>
    obtain ⟨l1, l2⟩ := hl
    obtain ⟨f, hf⟩ := h.some_of l2
    refine ⟨s, _, own, by simp only [State.step, hf, Option.map_some]; rfl, h, _, rfl, fun hne => ?_, fun hn => by simp [hn]⟩
    have hc := h.chain v f hf
    cases f with
    | some p => simp
    | none =>
      cases ha : a.vars v with
      | none => exact absurd ha l2
      | some y =>
        rw [ha] at hc
        have := hc.null_inv rfl
        simp only [Option.getD_some] at this
        subst this
        exact absurd ha hne

theorem run_rep (N : Nat) (ops : List Op) : ∀ (s : State) (a : Spec.Owners) (own : Nat → List Nat),
    Rep N s a own → Spec.legalRun N a ops →
    ∃ s' vs own', s.run ops = some (s', vs) ∧ Rep N s' (Spec.run a ops) own' ∧ Spec.vals a ops vs := by
  induction ops with
  | nil => intro s a own h _; exact ⟨s, [], own, rfl, h, rfl⟩
  | cons o os ih =>
    intro s a own h hl
    obtain ⟨s1, r, own1, e1, e2, e3⟩ := rep_step h o hl.1
    obtain ⟨s2, vs, own2, f1, f2, f3⟩ := ih s1 _ own1 e2 hl.2
    exact ⟨s2, r :: vs, own2, by simp [State.run, e1, f1], f2, r, vs, rfl, e3, f3⟩

/-- **C61 (partial).**  Over every history of constructions, moves, copies of named functions, assignments,
destructions, calls and tests on any number of function objects (no copies of const functions, no self-assignment):
there is no undefined behaviour, a call invokes exactly the callable the function holds, and callables are destroyed
exactly when, and in the order, the specification says. -/
theorem function_history_partial (N : Nat) (ops : List Op) (hl : Spec.legalRun N Spec.Owners.init ops) :
    ∃ s vs, State.init.run ops = some (s, vs) ∧ Spec.vals Spec.Owners.init ops vs ∧
      s.heap.log = (Spec.run Spec.Owners.init ops).log := by
  obtain ⟨s, vs, own, e1, e2, e3⟩ := run_rep N ops _ _ _ (rep_init N) hl
  exact ⟨s, vs, e1, e3, e2.log⟩

theorem reach_rep {N : Nat} {ops : List Op} {s : State} {vs : List Val} (hl : Spec.legalRun N Spec.Owners.init ops)
    (e : State.init.run ops = some (s, vs)) : ∃ own, Rep N s (Spec.run Spec.Owners.init ops) own := by
  obtain ⟨s', vs', own, e1, e2, -⟩ := run_rep N ops _ _ _ (rep_init N) hl
  rw [e] at e1
  cases e1
  exact ⟨own, e2⟩

/-! ### Exactly once -/

theorem holders_upd (vars : Nat → Option (Option Nat)) (x v : Nat) (y : Option (Option Nat)) (N : Nat) (hv : v < N) :
    Spec.holders (upd vars v y) x N + (if vars v = some (some x) then 1 else 0) =
      Spec.holders vars x N + (if y = some (some x) then 1 else 0) := by
  have below : ∀ N, N ≤ v → Spec.holders (upd vars v y) x N = Spec.holders vars x N := by
    intro N
    induction N with
    | zero => intro _; rfl
    | succ n ih => intro h; rw [Spec.holders, Spec.holders, ih (by omega), upd_other _ _ (by omega)]
  induction N with
  | zero => omega
  | succ n ih =>
    rw [Spec.holders, Spec.holders]
    by_cases e : n = v
    · subst e
      rw [below n (Nat.le_refl _), upd_same]; omega
    · rw [upd_other _ _ e]
      have := ih (by omega)
      omega

theorem held_count (a : Spec.Owners) (v x : Nat) :
    (Spec.held a v).count x = if a.vars v = some (some x) then 1 else 0 := by
  unfold Spec.held
  cases ha : a.vars v with
  | none => simp
  | some y =>
    cases y with
    | none => simp
    | some z => by_cases e : z = x <;> simp [e]

/-- the specification itself: nothing is lost or destroyed twice -/
theorem Spec.conserved (N x : Nat) (ops : List Op) : ∀ a : Spec.Owners, Spec.legalRun N a ops →
    (Spec.run a ops).log.count x + Spec.holders (Spec.run a ops).vars x N =
      a.log.count x + Spec.holders a.vars x N + (ops.flatMap Spec.born).count x := by
  induction ops with
  | nil => intro a _; simp [Spec.run]
  | cons o os ih =>
    intro a hl
    have key : (Spec.step a o).log.count x + Spec.holders (Spec.step a o).vars x N =
        a.log.count x + Spec.holders a.vars x N + (Spec.born o).count x := by
      obtain ⟨hl, -⟩ := hl
      cases o with
      | construct v y =>
        have := holders_upd a.vars x v (some (some y)) N hl.1
        rw [hl.2] at this
        simp only [Spec.step, Spec.born, List.count_singleton, Option.some.injEq, beq_iff_eq] at this ⊢
        simp at this; omega
      | move v w =>
        obtain ⟨l1, l2, l3, l4⟩ := hl
        have hvw : v ≠ w := by intro e; subst e; exact l4 l2
        have h1 := holders_upd a.vars x w (some none) N l3
        have h2 := holders_upd (upd a.vars w (some none)) x v (a.vars w) N l1
        rw [upd_other _ _ hvw, l2] at h2
        simp [Spec.step, Spec.born] at h1 h2 ⊢; omega
      | copy v w =>
        obtain ⟨l1, l2, l3, l4⟩ := hl
        have hvw : v ≠ w := by intro e; subst e; exact l4 l2
        have h1 := holders_upd a.vars x w (some none) N l3
        have h2 := holders_upd (upd a.vars w (some none)) x v (a.vars w) N l1
        rw [upd_other _ _ hvw, l2] at h2
        simp [Spec.step, Spec.born] at h1 h2 ⊢; omega
      | copyConst v w => exact hl.elim
      | assign v y =>
        have := holders_upd a.vars x v (some (some y)) N hl.1
        simp only [Spec.step, Spec.born, List.count_append, held_count, List.count_singleton, Option.some.injEq,
          beq_iff_eq] at this ⊢
        omega
      | assignFn v w =>
        obtain ⟨l1, l2, l3, l4, l5⟩ := hl
        have h1 := holders_upd a.vars x w (some none) N l3
        have h2 := holders_upd (upd a.vars w (some none)) x v (a.vars w) N l1
        rw [upd_other _ _ l5] at h2
        simp [Spec.step, Spec.born, held_count] at h1 h2 ⊢; omega
      | destroy v =>
        have := holders_upd a.vars x v none N hl.1
        simp [Spec.step, Spec.born, held_count] at this ⊢; omega
      | call v => simp [Spec.step, Spec.born]
      | test v b => simp [Spec.step, Spec.born]
    have := ih (Spec.step a o) hl.2
    rw [Spec.run, List.flatMap_cons, List.count_append]
    omega

/-- **C61, exactly once (partial).**  Starting from nothing, after every such history the callables brought into being
are exactly those destroyed plus those still held; when all functions are gone, each was destroyed exactly once and
nothing is left on the heap. -/
theorem function_exactly_once_partial (N : Nat) (ops : List Op) (hl : Spec.legalRun N Spec.Owners.init ops) :
    ∃ (s : State) (vs : List Val), State.init.run ops = some (s, vs) ∧
      (∀ x, (ops.flatMap Spec.born).count x = s.heap.log.count x + Spec.holders (Spec.run Spec.Owners.init ops).vars x N) ∧
      ((∀ v, s.vars v = none) → s.heap.log.Perm (ops.flatMap Spec.born) ∧ ∀ (p : Nat) (c : Cell), s.heap.cells[p]? ≠ some (some c)) := by
  obtain ⟨s, vs, own, e1, e2, -⟩ := run_rep N ops _ _ _ (rep_init N) hl
  have hz : ∀ x M, Spec.holders Spec.Owners.init.vars x M = 0 := by
    intro x M
    induction M with
    | zero => rfl
    | succ n ih => rw [Spec.holders, ih]; rfl
  have hc : ∀ x, (ops.flatMap Spec.born).count x =
      s.heap.log.count x + Spec.holders (Spec.run Spec.Owners.init ops).vars x N := by
    intro x
    have := Spec.conserved N x ops _ hl
    rw [hz, show Spec.Owners.init.log = [] from rfl, List.count_nil] at this
    rw [e2.log]
    omega
  refine ⟨s, vs, e1, hc, fun hd => ⟨?_, fun p c hp => ?_⟩⟩
  · refine List.perm_iff_count.mpr fun x => ?_
    have hn : ∀ v, (Spec.run Spec.Owners.init ops).vars v = none := by
      intro v
      have := e2.alive v
      rw [hd v] at this
      cases h : (Spec.run Spec.Owners.init ops).vars v with
      | none => rfl
      | some y => rw [h] at this; cases this
    have hz' : ∀ M, Spec.holders (Spec.run Spec.Owners.init ops).vars x M = 0 := by
      intro M
      induction M with
      | zero => rfl
      | succ n ih => simp [Spec.holders, ih, hn]
    rw [hc x, hz']; omega
  · obtain ⟨v, -, hv⟩ := e2.owned p c hp
    rw [e2.dead v (hd v)] at hv
    cases hv

/-- Non-vacuity: construct, wrap, move, assign, call, destroy. -/
example : Spec.legalRun 3 Spec.Owners.init [.construct 0 7, .copy 1 0, .move 2 1, .call 2, .assign 0 8, .assignFn 2 0,
      .call 2, .destroy 0, .destroy 1, .destroy 2] ∧
    (State.init.run [.construct 0 7, .copy 1 0, .move 2 1, .call 2, .assign 0 8, .assignFn 2 0, .call 2, .destroy 0,
      .destroy 1, .destroy 2]).map (fun r => (r.1.heap, r.2)) =
      some (⟨[none, none, none], [7, 8]⟩, [.unit, .unit, .unit, .called 7, .unit, .unit, .called 8, .unit, .unit, .unit]) := by
  refine ⟨?_, by decide +kernel⟩
  simp [Spec.legalRun, Spec.legal, Spec.step, Spec.Owners.init, upd]

/-! ### Violations -/

/-- **Violation.**  Copying a function that is not const takes the callable away from it: calling the original
afterwards is undefined. -/
theorem copy_empties_original {N : Nat} {ops : List Op} {s : State} {vs : List Val}
    (hl : Spec.legalRun N Spec.Owners.init ops) (e : State.init.run ops = some (s, vs))
    (v w x : Nat) (hw : (Spec.run Spec.Owners.init ops).vars w = some (some x)) (hv : (Spec.run Spec.Owners.init ops).vars v = none) :
    ∃ s' r, s.step (.copy v w) = some (s', r) ∧ s'.step (.test w true) = some (s', .bool false) ∧
      s'.step (.call w) = none := by
  obtain ⟨own, h⟩ := reach_rep hl e
  obtain ⟨g, hg⟩ := h.some_of (v := w) (by rw [hw]; simp)
  have hvw : w ≠ v := by intro e; subst e; rw [hw] at hv; cases hv
  refine ⟨_, _, by simp only [State.step, hg, Option.map_some]; rfl, ?_, ?_⟩
  · simp [State.step, upd_other _ _ hvw, upd_same]
  · simp [State.step, upd_other _ _ hvw, upd_same, Heap.call]

/-- **Violation.**  A copy of a const function shares its callable: destroying both deletes it twice. -/
theorem const_copy_double_delete {N : Nat} {ops : List Op} {s : State} {vs : List Val}
    (hl : Spec.legalRun N Spec.Owners.init ops) (e : State.init.run ops = some (s, vs))
    (v w x : Nat) (hw : (Spec.run Spec.Owners.init ops).vars w = some (some x)) (hv : (Spec.run Spec.Owners.init ops).vars v = none) :
    s.run [.copyConst v w, .destroy w, .destroy v] = none := by
  obtain ⟨own, h⟩ := reach_rep hl e
  obtain ⟨g, hg⟩ := h.some_of (v := w) (by rw [hw]; simp)
  have hvw : v ≠ w := by intro e; subst e; rw [hw] at hv; cases hv
  obtain ⟨r1, -⟩ := h.reset w g hg none none (Or.inr ⟨rfl, rfl⟩)
  have hc := h.chain w g hg
  rw [hw] at hc
  obtain ⟨p, rfl, hp⟩ := hc.some_inv (by simp)
  have hdead := fun c => wipe_dead s.heap.cells (own w) p hp c
  have hdel : ∀ k log, Heap.del (k + 1) ⟨wipe s.heap.cells (own w), log⟩ p = none := by
    intro k log
    unfold Heap.del
    simp only
    split
    · exact absurd (by assumption) (hdead _)
    · exact absurd (by assumption) (hdead _)
    · exact absurd (by assumption) (hdead _)
    · rfl
  have hr2 : Heap.reset ⟨wipe s.heap.cells (own w),
      (Spec.run Spec.Owners.init ops).log ++ Spec.held (Spec.run Spec.Owners.init ops) w⟩ (some p) = none := hdel _ _
  simp only [State.run, State.step, hg, Option.map_some, Option.bind_some, upd_other _ _ (Ne.symm hvw), r1, upd_same,
    upd_other _ _ hvw, hr2]
  rfl

/-- **Violation.**  Assigning a function to itself destroys its callable and leaves it empty. -/
theorem self_assign_empties {N : Nat} {ops : List Op} {s : State} {vs : List Val}
    (hl : Spec.legalRun N Spec.Owners.init ops) (e : State.init.run ops = some (s, vs))
    (v x : Nat) (hv : (Spec.run Spec.Owners.init ops).vars v = some (some x)) :
    ∃ s' r, s.step (.assignFn v v) = some (s', r) ∧ s'.heap.log = s.heap.log ++ [x] ∧ s'.vars v = some none := by
  obtain ⟨own, h⟩ := reach_rep hl e
  obtain ⟨g, hg⟩ := h.some_of (v := v) (by rw [hv]; simp)
  obtain ⟨r1, -⟩ := h.reset v g hg none none (Or.inr ⟨rfl, rfl⟩)
  refine ⟨_, _, by simp only [State.step, hg, r1, Option.bind_some, if_true]; rfl, ?_, by simp [upd_same]⟩
  simp [Spec.held, hv, h.log]

/-- **Violation.**  A function made from an empty named function claims to hold something; calling it is undefined. -/
theorem copy_of_empty_claims {N : Nat} {ops : List Op} {s : State} {vs : List Val}
    (hl : Spec.legalRun N Spec.Owners.init ops) (e : State.init.run ops = some (s, vs))
    (v w : Nat) (hw : s.vars w = some none) (hv : (Spec.run Spec.Owners.init ops).vars v = none) :
    ∃ s' r, s.step (.copy v w) = some (s', r) ∧ s'.step (.test v true) = some (s', .bool true) ∧
      s'.step (.call v) = none := by
  obtain ⟨own, h⟩ := reach_rep hl e
  have hvn := h.none_of hv
  have hvw : v ≠ w := by intro e; subst e; rw [hvn] at hw; cases hw
  refine ⟨_, _, by simp only [State.step, hw, Option.map_some]; rfl, by simp [State.step, upd_same], ?_⟩
  simp only [State.step, upd_same, Option.bind_some]
  rw [show (s.heap.new (Cell.fn none)).1.cells.length + 1 = s.heap.cells.length + 1 + 1 by simp [Heap.new]]
  simp [Heap.call, Heap.new]

/-- Non-vacuity of the four: function 0 holds 7, 2 is empty and 1 is not constructed. -/
example : Spec.legalRun 3 Spec.Owners.init [.construct 0 7, .move 2 0, .assignFn 0 2] ∧
    (State.init.run [.construct 0 7, .move 2 0, .assignFn 0 2]).map (fun r => (r.1.vars 0, r.1.vars 2, r.1.vars 1)) =
      some (some (some 0), some none, none) ∧ (State.init.run [.construct 0 7, .copyConst 1 0, .destroy 0, .destroy 1]) = none ∧
    (State.init.run [.construct 0 7, .copy 1 0, .call 0]) = none := by
  refine ⟨?_, rfl, rfl, rfl⟩
  simp [Spec.legalRun, Spec.legal, Spec.step, Spec.Owners.init, upd]

end Verif.Func
