/-!
# C93: subjects and observers (exp/observer.h)

Simplifications: event types are numbered and unrelated to each other (no conversions between them); an observer's class
says, for each event type, which of `on_notify(n)` and `on_notify(n, context)` it has and what they do to the observer and to
the context; a handler does not itself notify, except the one of a proxy.  `FEATURE_ESTD_EXPLICIT_OBSERVER` (exp/observer.h:110-122) is not
defined.  A referenced observer is its address, and the observers at the addresses live as long as the subjects.
`container_subject` (exp/observer.h:186-208) is left out: its container is private and nothing can be added to it.
-/
namespace Verif.Observer

/-- an event, the argument of `notify` (exp/observer.h:228): its type and its value -/
structure Ev (ε : Type) where
  kind : Nat
  val : ε
  deriving DecidableEq, Repr

/-- which `on_notify` a class has (what the return types exp/observer.h:38, 47 and 57 find) for an event type -/
inductive Has where
  | no
  | plain
  | ctx
  | both
  deriving DecidableEq, Repr

/-- an observer class, `TObserver` exp/observer.h:235: states `σ`, contexts `γ` -/
structure Cls (σ ε γ : Type) where
  has : Nat → Has
  plain : σ → Ev ε → σ
  withCtx : σ → Ev ε → γ → σ × γ

/-- `layer0::subject<...>` exp/observer.h:219-307: a reference to an observer (235-265), an observer held by value (268-307), which may be an
`observer_proxy` for one or two event types (441-486) around another subject, or the end (223-232).
`stateless_subject` (142-177) notifies the same way; its observers are their classes' static data, at an address each. -/
inductive Sub (σ ε γ : Type) where
  | nil
  | ref (c : Cls σ ε γ) (a : Nat) (rest : Sub σ ε γ)
  | val (c : Cls σ ε γ) (s : σ) (rest : Sub σ ε γ)
  | proxy (kinds : List Nat) (inner rest : Sub σ ε γ)

variable {σ ε γ : Type}

/-- an observer: the one at an address, or the `j`-th of those inside subject `i` -/
inductive Who where
  | at_ (a : Nat)
  | own (i j : Nat)
  deriving DecidableEq, Repr

/-- a call of `on_notify` that has been made -/
structure Call (σ ε γ : Type) where
  who : Who
  cls : Cls σ ε γ
  ctx : Bool
  ev : Ev ε

/-- the number of observers of a subject (exp/observer.h:235-307), those behind proxies included -/
def Sub.count : Sub σ ε γ → Nat
  | .nil => 0
  | .ref _ _ r => r.count + 1
  | .val _ _ r => r.count + 1
  | .proxy _ i r => i.count + r.count

/-- a change of the observer at an address (exp/observer.h:241) -/
def upd (h : Nat → σ) (a : Nat) (s : σ) : Nat → σ := fun b => if b = a then s else h b

/-- `notify_helper(observer, n, true)`, exp/observer.h:21-25 and 36-43 (stateless: 67-71, 81-88); `none`: nothing is called -/
def helper (c : Cls σ ε γ) (s : σ) (ev : Ev ε) : Option σ :=
  match c.has ev.kind with
  | .plain | .both => some (c.plain s ev)
  | _ => none

/-- `notify_helper(observer, n, context, true)`, exp/observer.h:29-33 and 45-62 (stateless: 74-78, 91-109); the outer `none`: does not
compile, because 46 and 56 are equally good; the inner: nothing is called -/
def helperCtx (c : Cls σ ε γ) (s : σ) (ev : Ev ε) (x : γ) : Option (Option (σ × γ × Bool)) :=
  match c.has ev.kind with
  | .no => some none
  | .plain => some (some (c.plain s ev, x, false))
  | .ctx => some (some ((c.withCtx s ev x).1, (c.withCtx s ev x).2, true))
  | .both => none

/-- `notify(n)`, exp/observer.h:227-228, 249-255 and 288-298; the observers of the subject are numbered from `j`.  A proxy's `on_notify`
455-458 and 477-485. -/
def notify (i : Nat) (ev : Ev ε) : Nat → Sub σ ε γ → (Nat → σ) → Sub σ ε γ × (Nat → σ) × List (Call σ ε γ)
  | _, .nil, h => (.nil, h, [])
  | j, .ref c a rest, h =>
    match helper c (h a) ev with
    | none =>
      let r := notify i ev (j + 1) rest h
      (.ref c a r.1, r.2.1, r.2.2)
    | some s =>
      let r := notify i ev (j + 1) rest (upd h a s)
      (.ref c a r.1, r.2.1, ⟨.at_ a, c, false, ev⟩ :: r.2.2)
  | j, .val c s rest, h =>
    match helper c s ev with
    | none =>
      let r := notify i ev (j + 1) rest h
      (.val c s r.1, r.2.1, r.2.2)
    | some s' =>
      let r := notify i ev (j + 1) rest h
      (.val c s' r.1, r.2.1, ⟨.own i j, c, false, ev⟩ :: r.2.2)
  | j, .proxy ks inner rest, h =>
    if ev.kind ∈ ks then
      let q := notify i ev j inner h
      let r := notify i ev (j + inner.count) rest q.2.1
      (.proxy ks q.1 r.1, r.2.1, q.2.2 ++ r.2.2)
    else
      let r := notify i ev (j + inner.count) rest h
      (.proxy ks inner r.1, r.2.1, r.2.2)

/-- `notify(n, context)`, exp/observer.h:230-231, 258-264 and 300-306; a proxy has no `on_notify` with a context, so 45-52 calls the one
without.  `none`: does not compile. -/
def notifyCtx (i : Nat) (ev : Ev ε) : Nat → Sub σ ε γ → (Nat → σ) → γ → Option (Sub σ ε γ × (Nat → σ) × γ × List (Call σ ε γ))
  | _, .nil, h, x => some (.nil, h, x, [])
  | j, .ref c a rest, h, x =>
    match helperCtx c (h a) ev x with
    | none => none
    | some none => (notifyCtx i ev (j + 1) rest h x).map fun r => (.ref c a r.1, r.2.1, r.2.2.1, r.2.2.2)
    | some (some (s, x', b)) => (notifyCtx i ev (j + 1) rest (upd h a s) x').map fun r =>
        (.ref c a r.1, r.2.1, r.2.2.1, ⟨.at_ a, c, b, ev⟩ :: r.2.2.2)
  | j, .val c s rest, h, x =>
    match helperCtx c s ev x with
    | none => none
    | some none => (notifyCtx i ev (j + 1) rest h x).map fun r => (.val c s r.1, r.2.1, r.2.2.1, r.2.2.2)
    | some (some (s', x', b)) => (notifyCtx i ev (j + 1) rest h x').map fun r =>
        (.val c s' r.1, r.2.1, r.2.2.1, ⟨.own i j, c, b, ev⟩ :: r.2.2.2)
  | j, .proxy ks inner rest, h, x =>
    if ev.kind ∈ ks then
      let q := notify i ev j inner h
      (notifyCtx i ev (j + inner.count) rest q.2.1 x).map fun r => (.proxy ks q.1 r.1, r.2.1, r.2.2.1, q.2.2 ++ r.2.2.2)
    else
      (notifyCtx i ev (j + inner.count) rest h x).map fun r => (.proxy ks inner r.1, r.2.1, r.2.2.1, r.2.2.2)

/-- what a subject can be made of -/
inductive Arg (σ ε γ : Type) where
  /-- an observer with a name: taken by reference (exp/observer.h:310-315 with 243-246) -/
  | lval (c : Cls σ ε γ) (a : Nat)
  /-- a temporary observer: moved in (exp/observer.h:278-281) -/
  | rval (c : Cls σ ε γ) (s : σ)
  /-- a temporary `observer_proxy` made from the subject number `i`, which it copies (exp/observer.h:434) -/
  | proxy (kinds : List Nat) (i : Nat)

/-- `make_subject` exp/observer.h:310-315 and the constructors it calls -/
def make (subs : List (Sub σ ε γ)) : List (Arg σ ε γ) → Option (Sub σ ε γ)
  | [] => some .nil
  | .lval c a :: as => (make subs as).map (.ref c a)
  | .rval c s :: as => (make subs as).map (.val c s)
  | .proxy ks i :: as => (subs[i]?).bind fun p => (make subs as).map (.proxy ks p)

/-- the subjects of a program, and the observers with names -/
structure World (σ ε γ : Type) where
  subs : List (Sub σ ε γ)
  heap : Nat → σ

inductive Op (σ ε γ : Type) where
  | make (as : List (Arg σ ε γ))
  /-- the copy constructor of a subject -/
  | copy (i : Nat)
  | notify (i : Nat) (ev : Ev ε)
  | notifyCtx (i : Nat) (ev : Ev ε) (x : γ)

/-- One operation (exp/observer.h:219-323); the calls made and the context afterwards.  `none`: no such subject, or it does not compile. -/
def step (w : World σ ε γ) : Op σ ε γ → Option (World σ ε γ × List (Call σ ε γ) × Option γ)
  | .make as => (make w.subs as).map fun s => ({ w with subs := w.subs ++ [s] }, [], none)
  | .copy i => (w.subs[i]?).map fun s => ({ w with subs := w.subs ++ [s] }, [], none)
  | .notify i ev => (w.subs[i]?).map fun s =>
      let r := notify i ev 0 s w.heap
      (⟨w.subs.set i r.1, r.2.1⟩, r.2.2, none)
  | .notifyCtx i ev x => (w.subs[i]?).bind fun s => (notifyCtx i ev 0 s w.heap x).map fun r =>
      (⟨w.subs.set i r.1, r.2.1⟩, r.2.2.2, some r.2.2.1)

/-- a program using subjects (exp/observer.h:219-323) -/
def run (w : World σ ε γ) : List (Op σ ε γ) → Option (World σ ε γ × List (Call σ ε γ) × List (Option γ))
  | [] => some (w, [], [])
  | o :: os => (step w o).bind fun r => (run r.1 os).map fun q => (q.1, r.2.1 ++ q.2.1, r.2.2 :: q.2.2)

end Verif.Observer
