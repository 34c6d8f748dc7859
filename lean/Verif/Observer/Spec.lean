import Mathlib.Data.List.Forall2
import Verif.Observer.Model

/-!
# What C93 asks

A subject is a list of observers.  An observer is somebody else's, at an address, or the subject's own; it is behind some
proxies, each of which lets certain types of event through and no context.  Notifying calls each observer that gets the event
and has a function for it, once, in order.
-/
namespace Verif.Observer.Spec
open Verif.Observer
variable {σ ε γ : Type}

inductive Place (σ : Type) where
  | shared (a : Nat)
  | own (s : σ)

structure Obs (σ ε γ : Type) where
  cls : Cls σ ε γ
  place : Place σ
  gates : List (List Nat)

/-- How an observer is called: `some true` with the context, `some false` without, `none` not at all. -/
def way (ctx : Bool) (o : Obs σ ε γ) (kind : Nat) : Option Bool :=
  if o.gates = [] then
    match ctx, o.cls.has kind with
    | _, .no => none
    | false, .plain | false, .both | true, .plain => some false
    | false, .ctx => none
    | true, .ctx | true, .both => some true
  else if ∀ g ∈ o.gates, kind ∈ g then
    match o.cls.has kind with
    | .plain | .both => some false
    | _ => none
  else none

/-- the calls an event brings about, in the order of the observers -/
def calls (i : Nat) (ctx : Bool) (ev : Ev ε) (l : List (Obs σ ε γ)) : List (Call σ ε γ) :=
  l.zipIdx.filterMap fun p => (way ctx p.1 ev.kind).map fun b =>
    ⟨match p.1.place with | .shared a => .at_ a | .own _ => .own i p.2, p.1.cls, b, ev⟩

/-- the program's state: the lists and the observers with names -/
structure World (σ ε γ : Type) where
  subs : List (List (Obs σ ε γ))
  heap : Nat → σ

/-- the state of an observer -/
def World.state (w : World σ ε γ) : Who → Option σ
  | .at_ a => some (w.heap a)
  | .own i j => (w.subs[i]?).bind fun l => (l[j]?).bind fun o => match o.place with | .own s => some s | .shared _ => none

/-- what a call does to the observer and the context -/
def effect (c : Call σ ε γ) (s : σ) (x : γ) : σ × γ := if c.ctx then c.cls.withCtx s c.ev x else (c.cls.plain s c.ev, x)

/-- the states of all observers and the context after some calls -/
def replay : List (Call σ ε γ) → (Who → Option σ) → γ → (Who → Option σ) × γ
  | [], st, x => (st, x)
  | c :: cs, st, x =>
    match st c.who with
    | none => replay cs st x
    | some s => replay cs (fun w => if w = c.who then some (effect c s x).1 else st w) (effect c s x).2

/-- the list of a new subject -/
def made (subs : List (List (Obs σ ε γ))) : List (Arg σ ε γ) → Option (List (Obs σ ε γ))
  | [] => some []
  | .lval c a :: as => (made subs as).map (⟨c, .shared a, []⟩ :: ·)
  | .rval c s :: as => (made subs as).map (⟨c, .own s, []⟩ :: ·)
  | .proxy ks i :: as => (subs[i]?).bind fun l => (made subs as).map (l.map (fun o => { o with gates := ks :: o.gates }) ++ ·)

/-- Two observers, or two programs' states, that differ in nothing but the states of observers. -/
def Obs.Like (o p : Obs σ ε γ) : Prop :=
  o.cls = p.cls ∧ o.gates = p.gates ∧
    match o.place, p.place with
    | .shared a, .shared b => a = b
    | .own _, .own _ => True
    | _, _ => False

def World.Like (w v : World σ ε γ) : Prop :=
  List.Forall₂ (List.Forall₂ Obs.Like) w.subs v.subs

/-- What an operation may do: the new state, the calls and the context afterwards. -/
inductive Step (w : World σ ε γ) : Op σ ε γ → World σ ε γ → List (Call σ ε γ) → Option γ → Prop where
  | make {as l} : made w.subs as = some l → Step w (.make as) ⟨w.subs ++ [l], w.heap⟩ [] none
  | copy {i l} : w.subs[i]? = some l → Step w (.copy i) ⟨w.subs ++ [l], w.heap⟩ [] none
  | notify {i ev l v} : w.subs[i]? = some l → w.Like v →
      (∀ x, v.state = (replay (calls i false ev l) w.state x).1) → Step w (.notify i ev) v (calls i false ev l) none
  | notifyCtx {i ev x l v} : w.subs[i]? = some l → w.Like v → v.state = (replay (calls i true ev l) w.state x).1 →
      Step w (.notifyCtx i ev x) v (calls i true ev l) (some (replay (calls i true ev l) w.state x).2)

inductive Steps : World σ ε γ → List (Op σ ε γ) → World σ ε γ → List (Call σ ε γ) → List (Option γ) → Prop where
  | nil (w) : Steps w [] w [] []
  | cons {w o v cs x os u ds xs} : Step w o v cs x → Steps v os u ds xs → Steps w (o :: os) u (cs ++ ds) (x :: xs)

end Verif.Observer.Spec
