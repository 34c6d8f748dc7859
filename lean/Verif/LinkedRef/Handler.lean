import Verif.LinkedRef.Props

/-!
# C121: linked references copied by an interrupt handler

Modelled from `src/estd/internal/linked_ref.h` and `src/estd/internal/list/intrusive_forward.h`, with the main program's copy
constructor and destructor split where they touch the ring: a handler can run, as a whole, between any two of these steps.
Creating and moving references is not split (do it with interrupts off, or see `visit_in_copy` for what the second half of a
move would add: the same insertion).
-/
namespace Verif.LinkedRef.Handler
open Verif.LinkedRef.Spec (Ref Refs)

/-! ## Model -/

/-- what the main program is in the middle of -/
inductive Pc where
  | idle
  /-- copying `x` into `y`: `n` was read from `x`, intrusive_forward.h:45 -/
  | linking (x y : Nat) (n : Option Nat)
  /-- `x` leads to `y` now, `y` to nowhere yet, intrusive_forward.h:49 -/
  | linked (y : Nat) (n : Option Nat)
  /-- destroying `x`: the loop is at `n` and has met `k` others, linked_ref.h:118-126 -/
  | walking (x n k : Nat)
  /-- the loop found `p` in front of `x`, linked_ref.h:128-129 -/
  | erasing (x p k : Nat)
  deriving DecidableEq, Repr

/-- what a visit saw: how many operations of the main program were complete, through which reference it looked, which object it
got, and how many references it counted -/
structure Sight where
  done : Nat
  through : Nat
  object : Nat
  count : Nat
  deriving DecidableEq, Repr

/-- the references, what the main program is doing, and (for the statements only) how many of its operations are complete and
what the visits saw; linked_ref.h:24-35 -/
structure M where
  s : State
  pc : Pc
  done : Nat
  seen : List Sight
  deriving DecidableEq, Repr

inductive Ev where
  /-- the main program begins an operation -/
  | start (op : Op)
  /-- the main program goes one step on -/
  | tick
  /-- the handler copies the reference `z`, looks at the copy, and drops it before it returns -/
  | visit (z : Nat)
  /-- the handler copies the reference `z` and keeps the copy -/
  | keep (z : Nat)
  deriving DecidableEq, Repr

/-- a handler's local copy of `z`, linked_ref.h:61-82, its object and its `count_shared()`, linked_ref.h:169-191, and its
destructor, linked_ref.h:100-152; its place is free again afterwards.  `none`: undefined, or never ends. -/
def visit (s : State) (z : Nat) : Option (State × Nat × Nat) :=
  match copy s z with
  | some s1 =>
    match s1.get s.nodes.length, countShared s1 s.nodes.length, destroy s1 s.nodes.length with
    | some nd, some c, some s2 => some ({ s2 with nodes := s2.nodes.dropLast }, nd.obj, c)
    | _, _, _ => none
  | none => none

/-- the first part of an operation: linked_ref.h:61-62 with intrusive_forward.h:45, and linked_ref.h:103-114; creating
(linked_ref.h:55-59) and moving (linked_ref.h:84-98) are done whole -/
def begin (m : M) : Op → Option M
  | .copy x =>
    match alloc m.s x with
    | some s1 =>
      match s1.nextOf x with
      | some n => some { m with s := s1, pc := .linking x m.s.nodes.length n }
      | none => none
    | none => none
  | .destroy x =>
    match m.s.get x with
    | some nd =>
      if nd.next = none ∨ nd.next = some x then (destroy m.s x).map fun s => { m with s := s, done := m.done + 1 }
      else some { m with pc := .walking x x 0 }
    | none => none
  | op => (LinkedRef.step m.s op).map fun s => { m with s := s, done := m.done + 1 }

/-- one more step of the operation: intrusive_forward.h:49-50; linked_ref.h:118-126; linked_ref.h:133-138 with
intrusive_forward.h:60-62 (one store, the reads before it together with it) -/
def tick (m : M) : Option M :=
  match m.pc with
  | .idle => some m
  | .linking x y n => (m.s.setNext x (some y)).map fun s => { m with s := s, pc := .linked y n }
  | .linked y n => (m.s.setNext y n).map fun s => { m with s := s, pc := .idle, done := m.done + 1 }
  | .walking x n k =>
    match m.s.nextOf n with
    | some nx =>
      if nx = some x then some { m with pc := .erasing x n k }
      else
        match nx with
        | some c => some { m with pc := .walking x c (k + 1) }
        | none => none
    | none => none
  | .erasing x p k =>
    match m.s.get x with
    | some nd =>
      (eraseAfter m.s p).map fun s1 =>
        let s2 := if k = 0 then { s1 with log := s1.log ++ [nd.obj] } else s1
        { m with s := { s2 with nodes := s2.nodes.set x none }, pc := .idle, done := m.done + 1 }
    | none => none

/-- one event, linked_ref.h:55-191; the main program begins an operation only after the last one (else: no such schedule) -/
def step (m : M) : Ev → Option M
  | .start op => match m.pc with
    | .idle => begin m op
    | _ => none
  | .tick => tick m
  | .visit z => (visit m.s z).map fun v => { m with s := v.1, seen := m.seen ++ [⟨m.done, z, v.2.1, v.2.2⟩] }
  | .keep z => (copy m.s z).map fun s => { m with s := s }

/-- a schedule, linked_ref.h:55-191 -/
def run : M → List Ev → Option M
  | m, [] => some m
  | m, e :: es => (step m e).bind fun m' => run m' es

def M.init : M := ⟨State.init, .idle, 0, []⟩

/-! ## Specification -/

/-- the operations of the main program, in order -/
def Spec.started : List Ev → List Op
  | [] => []
  | .start op :: es => op :: Spec.started es
  | _ :: es => Spec.started es

/-- the moment in which a new reference hangs in the ring with no successor -/
def Pc.torn : Pc → Prop
  | .linked _ _ => True
  | _ => False

instance (p : Pc) : Decidable p.torn := by cases p <;> simp only [Pc.torn] <;> infer_instance

/-- A polite schedule: the main program does what C30 allows; the handler drops what it copied, copies references that share
something, and does not come in the middle of an insertion. -/
def Polite : M → List Ev → Prop
  | _, [] => True
  | m, .start op :: es => m.pc = .idle ∧ m.s.refs.legal op ∧ ∀ m', step m (.start op) = some m' → Polite m' es
  | m, .tick :: es => ∀ m', step m .tick = some m' → Polite m' es
  | m, .visit z :: es => m.s.refs.sharesSome z ∧ ¬ m.pc.torn ∧ ∀ m', step m (.visit z) = some m' → Polite m' es
  | _, .keep _ :: _ => False

/-- what a visit must have seen, given the operations of the main program -/
def Spec.Right (ops : List Op) (v : Sight) : Prop :=
  v.done ≤ ops.length ∧ (Refs.init.after (ops.take v.done)).objectOf v.through = .shares v.object ∧
    v.count = (Refs.init.after (ops.take v.done)).sharing v.object + 1

/-! ## A visit -/

theorem copy_eq {s : State} {x o n : Nat} (hn : s.nodes[x]? = some (some ⟨o, some n⟩)) :
    copy s x = some { s with nodes := s.nodes.set x (some ⟨o, some s.nodes.length⟩) ++ [some ⟨o, some n⟩] } := by
  have hx : x < s.nodes.length := (List.getElem?_eq_some_iff.mp hn).1
  have e1 : (s.nodes ++ [some ⟨o, none⟩])[x]? = some (some ⟨o, some n⟩) := by
    rw [List.getElem?_append_left hx]; exact hn
  simp only [copy, alloc, get_eq hn, insertAfter]
  rw [nextOf_eq (s := { s with nodes := s.nodes ++ [some ⟨o, none⟩] }) e1]
  simp only
  rw [setNext_eq (s := { s with nodes := s.nodes ++ [some ⟨o, none⟩] }) _ e1]
  simp only
  have e2 : ((s.nodes ++ [some (Node.mk o none)]).set x (some ⟨o, some s.nodes.length⟩))[s.nodes.length]? =
      some (some ⟨o, none⟩) := by
    rw [List.getElem?_set_ne (by omega)]; simp
  rw [setNext_eq (s := { s with nodes := (s.nodes ++ [some (Node.mk o none)]).set x (some ⟨o, some s.nodes.length⟩) }) _ e2]
  simp only [Option.some.injEq]
  congr 1
  rw [List.set_append_left _ _ hx, List.set_append_right _ _ (by simp)]
  simp

/-- **A visit leaves no trace.**  In every state of the ring that histories reach, a handler that copies a reference and drops
the copy gets its object, counts one reference more than there were, and leaves every reference as it was. -/
theorem visit_restores (s : State) (hi : Inv s) (z o : Nat) (h : s.refs.objectOf z = .shares o) :
    visit s z = some (s, o, s.refs.sharing o + 1) := by
  obtain ⟨o', ho, hobj⟩ := shares_of_some (s := s) (x := z) (by unfold Refs.sharesSome; rw [h]; trivial)
  rw [h] at hobj
  injection hobj with hobj
  subst hobj
  obtain ⟨n, hn⟩ := shares_get ho
  obtain ⟨t, hring, hnd, hmem⟩ := hi.ring_at ho
  have hz : z < s.nodes.length := (List.getElem?_eq_some_iff.mp hn).1
  have hlen := Inv.ring_length hnd hmem
  have hlt : ∀ a ∈ z :: t, a < s.nodes.length := by
    intro a ha
    have := (List.getElem?_eq_some_iff.mp ((hmem a).mp ha)).1
    rwa [refs_length] at this
  have hzt : z ∉ t := (List.nodup_cons.mp hnd).1
  have hnx : n = t.headD z := by
    have := hring.1
    rw [nextOf_eq hn] at this
    simpa using this
  let y := s.nodes.length
  let A := s.nodes.set z (some ⟨o, some y⟩) ++ [some ⟨o, some n⟩]
  let s1 : State := { s with nodes := A }
  have hAl : A.length = y + 1 := by simp [A, y]
  have hAy : s1.nodes[y]? = some (some ⟨o, some n⟩) := by simp [s1, A, y]
  have hAz : s1.nodes[z]? = some (some ⟨o, some y⟩) := by
    show A[z]? = _
    simp only [A]
    rw [List.getElem?_append_left (by simpa using hz), List.getElem?_set_self hz]
  have hyt : ∀ a ∈ t, a ≠ y := fun a ha => by have := hlt a (by simp [ha]); simp only [y]; omega
  have hny : n ≠ y := by
    have : n < s.nodes.length := by
      rw [hnx]
      cases t with
      | nil => exact hz
      | cons b t => exact hlt b (by simp)
    simp only [y]; omega
  have hlink : Link s1.nextOf (y :: (t ++ [z])) y := by
    refine ⟨?_, link_append.mpr ⟨?_, ?_, trivial⟩⟩
    · rw [nextOf_eq hAy, hnx]; cases t <;> rfl
    · refine link_congr (f := s.nextOf) ?_ hring.2
      intro a ha
      apply nextOf_congr
      show A[a]? = _
      simp only [A]
      rw [List.getElem?_append_left (by have := hlt a (by simp [ha]); simpa using this),
        List.getElem?_set_ne (fun e => hzt (by rw [e]; exact ha))]
    · rw [nextOf_eq hAz]; rfl
  have hyt' : y ∉ t ++ [z] := by
    simp only [List.mem_append, List.mem_singleton]
    rintro (h | h)
    · exact hyt y h rfl
    · simp only [y] at h; omega
  have hlen' : (t ++ [z]).length < A.length := by
    have := hlen.2; simp only [List.length_cons] at this; simp only [List.length_append, List.length_singleton, hAl, y]; omega
  have hc := count_ring s1 y (t ++ [z]) y A.length 1 hyt' hlink hlen'
  have hd := circle_ring s1 y z (t ++ [z]) y A.length 0 hyt' hlink (by rw [← List.cons_append]; exact List.getLast?_concat) hlen'
  have he : eraseAfter s1 z = some { s with nodes := s.nodes ++ [some ⟨o, some n⟩] } := by
    unfold eraseAfter
    rw [nextOf_eq hAz]
    simp only
    rw [nextOf_eq hAy]
    simp only
    rw [setNext_eq _ hAz]
    simp only [s1, A, Option.some.injEq]
    congr 1
    rw [List.set_append_left _ _ (by simpa using hz), List.set_set]
    congr 1
    apply List.ext_getElem?
    intro i
    rw [List.getElem?_set]
    split
    · rename_i e; subst e; simp [hz]; have := (List.getElem?_eq_some_iff.mp hn).2; rw [this]
    · rfl
  have hdes : destroy s1 y = some { s with nodes := s.nodes ++ [none] } := by
    unfold destroy
    rw [get_eq hAy]
    simp only
    rw [if_neg (by simp), if_neg (by simpa using hny), hd]
    simp only
    rw [he]
    simp [y]
  unfold visit
  rw [copy_eq hn]
  show (match s1.get y, countLoop s1 y A.length y 1, destroy s1 y with
    | some nd, some c, some s2 => some ({ s2 with nodes := s2.nodes.dropLast }, nd.obj, c)
    | _, _, _ => none) = _
  rw [get_eq hAy, hc, hdes]
  have := hlen.1
  simp only [List.length_cons] at this
  simp [← this]
  omega

/-! ## Histories -/

theorem alloc_refs {s s1 : State} {x : Nat} (h : alloc s x = some s1) :
    s1.refs.refs = s.refs.refs ++ [.moved] ∧ s1.log = s.log ∧ s1.nodes.length = s.nodes.length + 1 ∧
    ∀ a, a < s.nodes.length → s1.nodes[a]? = s.nodes[a]? := by
  unfold alloc at h
  cases e : s.get x with
  | none => simp [e] at h
  | some nd =>
    simp only [e, Option.some.injEq] at h
    subst h
    exact ⟨by simp [State.refs, refOf], rfl, by simp, fun a ha => List.getElem?_append_left ha⟩

theorem alloc_shares {s s1 : State} {x : Nat} (h : alloc s x = some s1) (a o : Nat) :
    s1.refs.refs[a]? = some (.shares o) ↔ s.refs.refs[a]? = some (.shares o) := by
  rw [(alloc_refs h).1, List.getElem?_append]
  split
  · rfl
  · rename_i hn
    rw [List.getElem?_eq_none (l := s.refs.refs) (by omega)]
    cases a - s.refs.refs.length <;> simp

theorem alloc_inv {s s1 : State} {x : Nat} (hi : Inv s) (h : alloc s x = some s1) : Inv s1 := by
  obtain ⟨h1, h2, h3, h4⟩ := alloc_refs h
  constructor
  · intro a o' ha
    have := hi.fresh a o' ((alloc_shares h a o').mp ha)
    omega
  · intro a o' ha
    obtain ⟨l, g1, g2, g3⟩ := hi.ring a o' ((alloc_shares h a o').mp ha)
    refine ⟨l, ring_congr (fun b hb => nextOf_congr (h4 b ?_)) g1, g2, fun b => by rw [g3, alloc_shares h]⟩
    have := (List.getElem?_eq_some_iff.mp ((g3 b).mp hb)).1
    rwa [refs_length] at this

theorem alloc_objectOf {s s1 : State} {x : Nat} (h : alloc s x = some s1) (z o : Nat)
    (hz : s1.refs.objectOf z = .shares o) : s.refs.objectOf z = .shares o ∧ s1.refs.sharing o = s.refs.sharing o := by
  constructor
  · unfold Refs.objectOf at hz ⊢
    cases e : s1.refs.refs[z]? with
    | none => simp [e] at hz
    | some r =>
      simp [e] at hz
      rw [hz] at e
      rw [(alloc_shares h z o).mp e]; rfl
  · unfold Refs.sharing
    rw [(alloc_refs h).1]
    simp

theorem after_snoc (ops : List Op) (op : Op) : Refs.init.after (ops ++ [op]) = (Refs.init.after ops).next op := by
  simp [Refs.after]

/-- the main program is where it should be; `ops` are the operations begun so far -/
def At (ops : List Op) (m : M) : Prop :=
  match m.pc with
  | .idle => Inv m.s ∧ m.s.refs = Refs.init.after ops ∧ m.done = ops.length
  | .linking x y n => ∃ ops0 s0, ops = ops0 ++ [.copy x] ∧ Inv s0 ∧ s0.refs = Refs.init.after ops0 ∧ s0.refs.sharesSome x ∧
      alloc s0 x = some m.s ∧ y = s0.nodes.length ∧ m.s.nextOf x = some n ∧ m.done = ops0.length
  | .linked y n => ∃ s', m.s.setNext y n = some s' ∧ Inv s' ∧ s'.refs = Refs.init.after ops ∧ m.done + 1 = ops.length
  | .walking x n k => ∃ ops0, ops = ops0 ++ [.destroy x] ∧ Inv m.s ∧ m.s.refs = Refs.init.after ops0 ∧ m.done = ops0.length ∧
      m.s.refs.objectOf x ≠ .gone ∧ ∃ o nx f, m.s.get x = some ⟨o, some nx⟩ ∧ nx ≠ x ∧
        circle m.s x f n k = circle m.s x m.s.nodes.length x 0
  | .erasing x p k => ∃ ops0, ops = ops0 ++ [.destroy x] ∧ Inv m.s ∧ m.s.refs = Refs.init.after ops0 ∧ m.done = ops0.length ∧
      m.s.refs.objectOf x ≠ .gone ∧ ∃ o nx, m.s.get x = some ⟨o, some nx⟩ ∧ nx ≠ x ∧
        circle m.s x m.s.nodes.length x 0 = some (p, k)

theorem At.quiet {ops : List Op} {m : M} (h : At ops m) (ht : ¬ m.pc.torn) :
    Inv m.s ∧ m.done ≤ ops.length ∧ ∀ z o, m.s.refs.objectOf z = .shares o →
      (Refs.init.after (ops.take m.done)).objectOf z = .shares o ∧
      m.s.refs.sharing o = (Refs.init.after (ops.take m.done)).sharing o := by
  unfold At at h
  cases e : m.pc with
  | idle =>
    rw [e] at h
    obtain ⟨h1, h2, h3⟩ := h
    refine ⟨h1, by omega, fun z o hz => ?_⟩
    rw [h3, List.take_length, ← h2]
    exact ⟨hz, rfl⟩
  | linking x y n =>
    rw [e] at h
    obtain ⟨ops0, s0, h1, h2, h3, h4, h5, h6, h7, h8⟩ := h
    refine ⟨alloc_inv h2 h5, by simp [h1, h8], fun z o hz => ?_⟩
    rw [h8, h1, List.take_left, ← h3]
    exact alloc_objectOf h5 z o hz
  | linked y n => rw [e] at ht; exact absurd trivial ht
  | walking x n k =>
    rw [e] at h
    obtain ⟨ops0, h1, h2, h3, h4, -⟩ := h
    refine ⟨h2, by simp [h1, h4], fun z o hz => ?_⟩
    rw [h4, h1, List.take_left, ← h3]
    exact ⟨hz, rfl⟩
  | erasing x p k =>
    rw [e] at h
    obtain ⟨ops0, h1, h2, h3, h4, -⟩ := h
    refine ⟨h2, by simp [h1, h4], fun z o hz => ?_⟩
    rw [h4, h1, List.take_left, ← h3]
    exact ⟨hz, rfl⟩

theorem begin_at {ops : List Op} {m : M} (h : At ops m) (hp : m.pc = .idle) (op : Op) (hl : m.s.refs.legal op) :
    ∃ m', begin m op = some m' ∧ At (ops ++ [op]) m' ∧ m'.seen = m.seen := by
  unfold At at h
  rw [hp] at h
  obtain ⟨h1, h2, h3⟩ := h
  have whole : ∀ s', LinkedRef.step m.s op = some s' →
      At (ops ++ [op]) { m with s := s', done := m.done + 1 } := by
    intro s' hs
    obtain ⟨s'', g1, g2, g3⟩ := step_ok m.s op h1 hl
    rw [hs] at g1
    injection g1 with g1
    subst g1
    unfold At
    dsimp only
    rw [hp]
    exact ⟨g2, by rw [g3, h2, after_snoc], by simp [h3]⟩
  cases op with
  | create =>
    refine ⟨_, rfl, whole _ rfl, rfl⟩
  | move x =>
    obtain ⟨s', g1, -⟩ := step_ok m.s (.move x) h1 hl
    refine ⟨{ m with s := s', done := m.done + 1 }, ?_, whole s' g1, rfl⟩
    show (LinkedRef.step m.s (.move x)).map _ = _
    rw [g1]; rfl
  | copy x =>
    obtain ⟨o, ho, -⟩ := shares_of_some (s := m.s) (x := x) hl
    obtain ⟨n, hn⟩ := shares_get ho
    have hx : x < m.s.nodes.length := (List.getElem?_eq_some_iff.mp hn).1
    have ha : alloc m.s x = some { m.s with nodes := m.s.nodes ++ [some ⟨o, none⟩] } := by
      unfold alloc; rw [get_eq hn]
    have hnx : State.nextOf { m.s with nodes := m.s.nodes ++ [some ⟨o, none⟩] } x = some (some n) :=
      nextOf_eq (o := o) (by show (m.s.nodes ++ [some ⟨o, none⟩])[x]? = _; rw [List.getElem?_append_left hx]; exact hn)
    refine ⟨⟨{ m.s with nodes := m.s.nodes ++ [some ⟨o, none⟩] }, .linking x m.s.nodes.length (some n), m.done, m.seen⟩, ?_, ?_, rfl⟩
    · show (match alloc m.s x with | some s1 => _ | none => none) = _
      rw [ha]
      dsimp only
      rw [hnx]
    · exact ⟨ops, m.s, rfl, h1, h2, hl, ha, rfl, hnx, h3⟩
  | destroy x =>
    obtain ⟨s', g1, -⟩ := step_ok m.s (.destroy x) h1 hl
    cases e : m.s.get x with
    | none =>
      have : destroy m.s x = none := by unfold destroy; rw [e]
      rw [show LinkedRef.step m.s (.destroy x) = destroy m.s x from rfl, this] at g1
      cases g1
    | some nd =>
      by_cases hc : nd.next = none ∨ nd.next = some x
      · refine ⟨{ m with s := s', done := m.done + 1 }, ?_, whole s' g1, rfl⟩
        show (match m.s.get x with | some nd => _ | none => none) = _
        rw [e]
        dsimp only
        rw [if_pos hc, show destroy m.s x = some s' from g1]; rfl
      · refine ⟨{ m with pc := .walking x x 0 }, ?_, ?_, rfl⟩
        · show (match m.s.get x with | some nd => _ | none => none) = _
          rw [e]
          dsimp only
          rw [if_neg hc]
        · obtain ⟨o, nx⟩ := nd
          cases nx with
          | none => exact absurd (Or.inl rfl) hc
          | some nx =>
            refine ⟨ops, rfl, h1, h2, h3, hl, o, nx, _, e, fun he => hc (Or.inr (by rw [he])), rfl⟩

theorem destroy_found {s s' : State} {x o nx : Nat} (hg : s.get x = some ⟨o, some nx⟩) (hnx : nx ≠ x) (h : destroy s x = some s') :
    ∃ p k s1, circle s x s.nodes.length x 0 = some (p, k) ∧ eraseAfter s p = some s1 ∧
      s' = { (if k = 0 then { s1 with log := s1.log ++ [o] } else s1) with
        nodes := (if k = 0 then { s1 with log := s1.log ++ [o] } else s1).nodes.set x none } := by
  unfold destroy at h
  rw [hg] at h
  dsimp only at h
  rw [if_neg (by simp), if_neg (by simpa using hnx)] at h
  cases hc : circle s x s.nodes.length x 0 with
  | none => simp [hc] at h
  | some v =>
    obtain ⟨p, k⟩ := v
    rw [hc] at h
    dsimp only at h
    cases he : eraseAfter s p with
    | none => simp [he] at h
    | some s1 =>
      rw [he] at h
      exact ⟨p, k, s1, rfl, he, by injection h with h; exact h.symm⟩

theorem tick_at {ops : List Op} {m : M} (h : At ops m) : ∃ m', tick m = some m' ∧ At ops m' ∧ m'.seen = m.seen := by
  unfold At at h
  cases e : m.pc with
  | idle =>
    refine ⟨m, by unfold tick; rw [e], ?_, rfl⟩
    unfold At; exact h
  | linking x y n =>
    rw [e] at h
    obtain ⟨ops0, s0, h1, h2, h3, h4, h5, h6, h7, h8⟩ := h
    obtain ⟨s', g1, g2, g3⟩ := copy_ok s0 x h2 h4
    have g1 : copy s0 x = some s' := g1
    unfold copy at g1
    rw [h5] at g1
    dsimp only at g1
    unfold insertAfter at g1
    rw [h7] at g1
    dsimp only at g1
    cases hs : m.s.setNext x (some s0.nodes.length) with
    | none => simp [hs] at g1
    | some s2 =>
      rw [hs] at g1
      refine ⟨⟨s2, .linked y n, m.done, m.seen⟩, by unfold tick; rw [e]; dsimp only; rw [h6, hs]; rfl, ?_, rfl⟩
      exact ⟨s', by rw [h6]; exact g1, g2, by rw [g3, h1, after_snoc, h3], by simp [h1, h8]⟩
  | linked y n =>
    rw [e] at h
    obtain ⟨s', h1, h2, h3, h4⟩ := h
    refine ⟨⟨s', .idle, m.done + 1, m.seen⟩, by unfold tick; rw [e]; dsimp only; rw [h1]; rfl, ⟨h2, h3, h4⟩, rfl⟩
  | walking x n k =>
    rw [e] at h
    obtain ⟨ops0, h1, h2, h3, h4, h5, o, nx, f, h6, h7, h8⟩ := h
    obtain ⟨s', g1, -⟩ := destroy_ok m.s x h2 h5
    obtain ⟨p, q, s1, g2, -⟩ := destroy_found h6 h7 g1
    rw [g2] at h8
    cases f with
    | zero => simp [circle] at h8
    | succ f =>
      unfold circle at h8
      cases hn : m.s.nextOf n with
      | none => simp [hn] at h8
      | some c =>
        rw [hn] at h8
        dsimp only at h8
        by_cases hc : c = some x
        · rw [if_pos hc] at h8
          injection h8 with h8
          injection h8 with ha hb
          refine ⟨{ m with pc := .erasing x n k }, by unfold tick; rw [e]; dsimp only; rw [hn]; dsimp only; rw [if_pos hc], ?_, rfl⟩
          exact ⟨ops0, h1, h2, h3, h4, h5, o, nx, h6, h7, by rw [ha, hb]; exact g2⟩
        · rw [if_neg hc] at h8
          cases c with
          | none => simp at h8
          | some c =>
            refine ⟨{ m with pc := .walking x c (k + 1) }, by unfold tick; rw [e]; dsimp only; rw [hn]; dsimp only; rw [if_neg hc], ?_, rfl⟩
            exact ⟨ops0, h1, h2, h3, h4, h5, o, nx, f, h6, h7, by rw [g2]; exact h8⟩
  | erasing x p k =>
    rw [e] at h
    obtain ⟨ops0, h1, h2, h3, h4, h5, o, nx, h6, h7, h8⟩ := h
    obtain ⟨s', g1, gi, gr⟩ := destroy_ok m.s x h2 h5
    obtain ⟨p', k', s1, g2, g3, g4⟩ := destroy_found h6 h7 g1
    rw [h8] at g2
    injection g2 with g2
    injection g2 with ga gb
    subst ga gb
    refine ⟨⟨s', .idle, m.done + 1, m.seen⟩, ?_, ?_, rfl⟩
    · unfold tick
      rw [e]
      dsimp only
      rw [h6]
      dsimp only
      rw [g3, g4]
      rfl
    · exact ⟨gi, by rw [gr, h3, h1, after_snoc], by simp [h1, h4]⟩

theorem Spec.Right.mono {ops more : List Op} {v : Sight} (h : Spec.Right ops v) : Spec.Right (ops ++ more) v := by
  obtain ⟨h1, h2, h3⟩ := h
  refine ⟨by simp; omega, ?_, ?_⟩ <;> rw [List.take_append_of_le_length h1] <;> assumption

theorem polite_at : ∀ (evs : List Ev) (ops : List Op) (m : M), At ops m → (∀ v ∈ m.seen, Spec.Right ops v) → Polite m evs →
      ∃ m', run m evs = some m' ∧ At (ops ++ Spec.started evs) m' ∧ ∀ v ∈ m'.seen, Spec.Right (ops ++ Spec.started evs) v := by
  intro evs
  induction evs with
  | nil => intro ops m h hv _; exact ⟨m, rfl, by simpa [Spec.started] using h, by simpa [Spec.started] using hv⟩
  | cons ev evs ih =>
    intro ops m h hv hp
    cases ev with
    | start op =>
      obtain ⟨h1, h2, h3⟩ := hp
      obtain ⟨m', g1, g2, g3⟩ := begin_at h h1 op h2
      have hs : step m (.start op) = some m' := by unfold step; rw [h1]; exact g1
      obtain ⟨m2, f1, f2, f3⟩ := ih _ m' g2 (by rw [g3]; exact fun v hm => (hv v hm).mono) (h3 m' hs)
      refine ⟨m2, by simp [run, hs, f1], ?_⟩
      rw [List.append_assoc] at f2 f3
      exact ⟨f2, f3⟩
    | tick =>
      obtain ⟨m', g1, g2, g3⟩ := tick_at h
      have hs : step m .tick = some m' := g1
      obtain ⟨m2, f1, f2, f3⟩ := ih _ m' g2 (by rw [g3]; exact hv) (hp m' hs)
      exact ⟨m2, by simp [run, hs, f1], f2, f3⟩
    | visit z =>
      obtain ⟨h1, h2, h3⟩ := hp
      obtain ⟨hi, hd, hq⟩ := h.quiet h2
      obtain ⟨o, -, ho⟩ := shares_of_some h1
      obtain ⟨q1, q2⟩ := hq z o ho
      have hvis := visit_restores m.s hi z o ho
      have hs : step m (.visit z) = some { m with seen := m.seen ++ [⟨m.done, z, o, m.s.refs.sharing o + 1⟩] } := by
        show (visit m.s z).map _ = _
        rw [hvis]; rfl
      obtain ⟨m2, f1, f2, f3⟩ := ih ops _ (by unfold At at h ⊢; exact h) (by
        intro v hm
        rcases List.mem_append.mp hm with hm | hm
        · exact hv v hm
        · rw [List.mem_singleton.mp hm]
          exact ⟨hd, q1, by rw [q2]⟩) (h3 _ hs)
      exact ⟨m2, by simp [run, hs, f1], f2, f3⟩
    | keep z => exact absurd hp id

/-- **References shared with an interrupt handler (partial).**  The main program creates, copies, moves and destroys references
as C30 allows; a handler comes any number of times, between any two steps of a copy or of a destruction, copies a reference,
looks, and drops its copy.  Unless it comes between the two stores of an insertion, nothing undefined happens; each visit gets
the object its reference shares and counts the references there are after the operations complete by then, and its own; and
whenever the main program is between operations, which references share which objects, and which objects were destroyed, in
which order, is what its own operations say, as if no handler had come.  Missing: a visit in the middle of an insertion
(`visit_in_copy`), and copies that the handler keeps (`keep_in_copy`, `keep_in_destroy`). -/
theorem visits_history_partial (evs : List Ev) (hp : Polite M.init evs) :
    ∃ m, run M.init evs = some m ∧ (∀ v ∈ m.seen, Spec.Right (Spec.started evs) v) ∧
      (m.pc = .idle → m.s.refs = Refs.init.after (Spec.started evs)) := by
  obtain ⟨m, h1, h2, h3⟩ := polite_at evs [] M.init ⟨inv_init, rfl, rfl⟩ (by simp [M.init]) hp
  refine ⟨m, h1, by simpa using h3, fun e => ?_⟩
  unfold At at h2
  rw [e] at h2
  simpa using h2.2.1

/-- a schedule with visits in a copy and in a destruction -/
def sample : List Ev :=
  [.start .create, .start (.copy 0), .visit 0, .tick, .tick, .visit 1, .start (.copy 1), .tick, .tick, .start (.destroy 1),
   .visit 1, .tick, .visit 0, .tick, .tick, .visit 2, .tick, .visit 2, .start (.destroy 0), .tick, .tick, .tick,
   .start (.destroy 2)]

example : Polite M.init sample := by
  repeat' first
    | exact trivial
    | (refine ⟨by decide, by decide, ?_⟩)
    | (intro m hm; injection hm with hm; subst hm)

example : (run M.init sample).map (fun m => (m.pc, m.s.log, m.seen)) = some (.idle, [0],
    [⟨1, 0, 0, 2⟩, ⟨2, 1, 0, 3⟩, ⟨3, 1, 0, 4⟩, ⟨3, 0, 0, 4⟩, ⟨3, 2, 0, 4⟩, ⟨4, 2, 0, 3⟩]) := by decide +kernel

/-! ## What goes wrong -/

theorem circle_trapped (s : State) (x : Nat) (P : Nat → Prop)
    (h : ∀ a, P a → s.nextOf a = some none ∨ ∃ c, s.nextOf a = some (some c) ∧ P c ∧ c ≠ x) :
    ∀ (fuel n k : Nat), P n → circle s x fuel n k = none := by
  intro fuel
  induction fuel with
  | zero => intro n k _; rfl
  | succ fuel ih =>
    intro n k hn
    unfold circle
    rcases h n hn with e | ⟨c, e, hc, hne⟩
    · simp [e]
    · simp only [e]
      rw [if_neg (by simpa using hne)]
      exact ih c _ hc

/-- a reference whose ring does not lead back to it can never be destroyed -/
theorem destroy_trapped (s : State) (x o c : Nat) (P : Nat → Prop) (hx : s.nodes[x]? = some (some ⟨o, some c⟩)) (hc : c ≠ x) (hP : P c)
    (h : ∀ a, P a → s.nextOf a = some none ∨ ∃ c, s.nextOf a = some (some c) ∧ P c ∧ c ≠ x) : destroy s x = none := by
  have : circle s x s.nodes.length x 0 = none := by
    cases s.nodes.length with
    | zero => rfl
    | succ f =>
      unfold circle
      simp only [nextOf_eq hx]
      rw [if_neg (by simpa using hc)]
      exact circle_trapped s x P h f c _ hP
  unfold destroy
  rw [get_eq hx]
  dsimp only
  rw [if_neg (by simp), if_neg (by simpa using hc), this]

theorem link_mem {f : Nat → Option (Option Nat)} {l : List Nat} {b : Nat} (h : Link f l b) {a : Nat} (ha : a ∈ l) :
    ∃ c, f a = some (some c) ∧ (c ∈ l ∨ c = b) := by
  induction l with
  | nil => cases ha
  | cons d l ih =>
    obtain ⟨h1, h2⟩ := h
    rcases List.mem_cons.mp ha with e | ha
    · subst e
      refine ⟨_, h1, ?_⟩
      cases l with
      | nil => exact Or.inr rfl
      | cons e l => exact Or.inl (by simp)
    · obtain ⟨c, g1, g2⟩ := ih h2 ha
      exact ⟨c, g1, g2.imp (fun h => by simp [h]) id⟩

/-- **Violation.**  Between the two stores of an insertion the ring is open: while the main program copies any reference, a
handler that then copies any reference to the same object and drops it never gets its copy out of the ring, or follows a
pointer that was never set. -/
theorem visit_in_copy (s : State) (hi : Inv s) (d : Nat) (v : List Sight) (x z o : Nat) (hx : s.refs.objectOf x = .shares o)
    (hz : s.refs.objectOf z = .shares o) :
    ∃ m, run ⟨s, .idle, d, v⟩ [.start (.copy x), .tick] = some m ∧ run m [.visit z] = none := by
  have obj : ∀ {a}, s.refs.objectOf a = .shares o → s.refs.refs[a]? = some (.shares o) := by
    intro a ha
    obtain ⟨o', g1, g2⟩ := shares_of_some (s := s) (x := a) (by unfold Refs.sharesSome; rw [ha]; trivial)
    rw [ha] at g2; injection g2 with g2; rw [g2]; exact g1
  obtain ⟨n, hn⟩ := shares_get (obj hx)
  obtain ⟨nz, hnz⟩ := shares_get (obj hz)
  have hxl : x < s.nodes.length := (List.getElem?_eq_some_iff.mp hn).1
  have hzl : z < s.nodes.length := (List.getElem?_eq_some_iff.mp hnz).1
  let y := s.nodes.length
  let A := s.nodes ++ [some (Node.mk o none)]
  have hAx : A[x]? = some (some ⟨o, some n⟩) := (List.getElem?_append_left hxl).trans hn
  let B := A.set x (some ⟨o, some y⟩)
  have hBl : B.length = y + 1 := by simp [B, A, y]
  have hB : ∀ a, a ≠ x → B[a]? = A[a]? := fun a ha => List.getElem?_set_ne (fun e => ha e.symm)
  have hBx : B[x]? = some (some ⟨o, some y⟩) := List.getElem?_set_self (by simp [A]; omega)
  have hBy : B[y]? = some (some ⟨o, none⟩) := by rw [hB y (by simp only [y]; omega)]; simp [A, y]
  refine ⟨⟨⟨B, s.log⟩, .linked y (some n), d, v⟩, ?_, ?_⟩
  · have hb : begin ⟨s, .idle, d, v⟩ (.copy x) = some ⟨⟨A, s.log⟩, .linking x y (some n), d, v⟩ := by
      simp only [begin, alloc, get_eq hn]
      rw [nextOf_eq (s := { s with nodes := A }) hAx]
    have ht : tick ⟨⟨A, s.log⟩, .linking x y (some n), d, v⟩ = some ⟨⟨B, s.log⟩, .linked y (some n), d, v⟩ := by
      simp only [tick]
      rw [setNext_eq (s := ⟨A, s.log⟩) _ hAx]; rfl
    simp only [run, step, hb, ht, Option.bind_some]
  · -- the node the copy of z leads to, and the nodes behind it
    obtain ⟨nb, P, hBz, hP, hcl, hlt⟩ : ∃ (nb : Nat) (P : Nat → Prop), B[z]? = some (some ⟨o, some nb⟩) ∧ P nb ∧
        (∀ a, P a → a ≠ z ∧ (State.nextOf ⟨B, s.log⟩ a = some none ∨ ∃ c, State.nextOf ⟨B, s.log⟩ a = some (some c) ∧ P c)) ∧
        ∀ a, P a → a < y + 1 := by
      by_cases hzx : z = x
      · refine ⟨y, (· = y), by rw [hzx]; exact hBx, rfl, ?_, fun a ha => by omega⟩
        rintro a rfl
        exact ⟨by simp only [y]; omega, Or.inl (nextOf_eq (s := ⟨B, s.log⟩) hBy)⟩
      · obtain ⟨t, hring, hnd, hmem⟩ := hi.ring_at (obj hz)
        have hxt : x ∈ t := by
          rcases List.mem_cons.mp ((hmem x).mpr (obj hx)) with e | e
          · exact absurd e.symm hzx
          · exact e
        obtain ⟨t1, t2, rfl⟩ := List.append_of_mem hxt
        have hlt : ∀ a ∈ t1, a < s.nodes.length := by
          intro a ha
          have := (List.getElem?_eq_some_iff.mp ((hmem a).mp (by simp [ha]))).1
          rwa [refs_length] at this
        have hnz' : nz = t1.headD x := by
          have := hring.1
          rw [nextOf_eq hnz] at this
          simp only [Option.some.injEq] at this
          rw [this]; cases t1 <;> rfl
        have hl1 : Link s.nextOf t1 x := by
          have := (link_append.mp hring.2).1
          simpa using this
        have hz1 : z ∉ t1 := fun h => (List.nodup_cons.mp hnd).1 (by simp [h])
        have hx1 : x ∉ t1 := fun h => by
          have := (List.nodup_append.mp (List.nodup_cons.mp hnd).2).2.2 x h x (by simp)
          exact this rfl
        refine ⟨nz, fun a => a ∈ t1 ∨ a = x ∨ a = y, ?_, ?_, ?_, ?_⟩
        · rw [hB z hzx]
          exact (List.getElem?_append_left hzl).trans hnz
        · rw [hnz']
          cases t1 with
          | nil => exact Or.inr (Or.inl rfl)
          | cons b t1 => exact Or.inl (by simp)
        · rintro a (ha | rfl | rfl)
          · refine ⟨fun e => hz1 (by rw [← e]; exact ha), Or.inr ?_⟩
            obtain ⟨c, g1, g2⟩ := link_mem hl1 ha
            refine ⟨c, ?_, g2.imp id Or.inl⟩
            rw [← g1]
            apply nextOf_congr
            show B[a]? = _
            rw [hB a (fun e => hx1 (by rw [← e]; exact ha))]
            exact List.getElem?_append_left (hlt a ha)
          · exact ⟨fun e => hzx e.symm, Or.inr ⟨y, nextOf_eq (s := ⟨B, s.log⟩) hBx, Or.inr (Or.inr rfl)⟩⟩
          · exact ⟨by simp only [y]; omega, Or.inl (nextOf_eq (s := ⟨B, s.log⟩) hBy)⟩
        · rintro a (ha | rfl | rfl)
          · have := hlt a ha; simp only [y]; omega
          · simp only [y]; omega
          · omega
    have hzB : z < B.length := (List.getElem?_eq_some_iff.mp hBz).1
    have hcopy := copy_eq (s := ⟨B, s.log⟩) hBz
    have hdes : destroy ⟨B.set z (some ⟨o, some B.length⟩) ++ [some ⟨o, some nb⟩], s.log⟩ B.length = none := by
      refine destroy_trapped _ B.length o nb P (by simp) (by have := hlt nb hP; omega) hP ?_
      intro a ha
      have hal : a < B.length := by rw [hBl]; exact hlt a ha
      have hsame : State.nextOf ⟨B.set z (some ⟨o, some B.length⟩) ++ [some ⟨o, some nb⟩], s.log⟩ a = State.nextOf ⟨B, s.log⟩ a := by
        apply nextOf_congr
        show (B.set z (some ⟨o, some B.length⟩) ++ [some ⟨o, some nb⟩])[a]? = B[a]?
        rw [List.getElem?_append_left (by rw [List.length_set]; exact hal), List.getElem?_set_ne (fun e => (hcl a ha).1 e.symm)]
      rw [hsame]
      rcases (hcl a ha).2 with e | ⟨c, e, hc⟩
      · exact Or.inl e
      · exact Or.inr ⟨c, e, hc, by have := hlt c hc; omega⟩
    have : visit ⟨B, s.log⟩ z = none := by
      unfold visit
      rw [hcopy]
      dsimp only
      rw [hdes]
      split
      · rename_i h; cases h
      · rfl
    simp only [run, step, this, Option.map_none, Option.bind_none]

/-- **Violation.**  A reference that the handler copies and keeps, just after the main program began to copy the same one, is
lost from the ring: it shares the object, the count does not include it, and destroying it never ends. -/
theorem keep_in_copy (s : State) (hi : Inv s) (d : Nat) (v : List Sight) (x o : Nat) (hx : s.refs.objectOf x = .shares o) :
    ∃ m, run ⟨s, .idle, d, v⟩ [.start (.copy x), .keep x, .tick, .tick] = some m ∧ m.pc = .idle ∧
      m.s.refs.objectOf (s.nodes.length + 1) = .shares o ∧ m.s.refs.sharing o = s.refs.sharing o + 2 ∧
      countShared m.s x = some (s.refs.sharing o + 1) ∧ destroy m.s (s.nodes.length + 1) = none := by
  obtain ⟨o', ho, hobj⟩ := shares_of_some (s := s) (x := x) (by unfold Refs.sharesSome; rw [hx]; trivial)
  rw [hx] at hobj
  injection hobj with hobj
  subst hobj
  obtain ⟨n, hn⟩ := shares_get ho
  obtain ⟨t, hring, hnd, hmem⟩ := hi.ring_at ho
  have hlen := Inv.ring_length hnd hmem
  have hxl : x < s.nodes.length := (List.getElem?_eq_some_iff.mp hn).1
  have hlt : ∀ a ∈ x :: t, a < s.nodes.length := by
    intro a ha
    have := (List.getElem?_eq_some_iff.mp ((hmem a).mp ha)).1
    rwa [refs_length] at this
  have hxt : x ∉ t := (List.nodup_cons.mp hnd).1
  have hnx : n = t.headD x := by
    have := hring.1
    rw [nextOf_eq hn] at this
    simpa using this
  let y := s.nodes.length
  let A := s.nodes ++ [some (Node.mk o none)]
  have hAx : A[x]? = some (some ⟨o, some n⟩) := (List.getElem?_append_left hxl).trans hn
  have hAl : A.length = y + 1 := by simp [A, y]
  let B := A.set x (some ⟨o, some (y + 1)⟩) ++ [some ⟨o, some n⟩]
  have hBx : B[x]? = some (some ⟨o, some (y + 1)⟩) := by
    simp only [B]
    rw [List.getElem?_append_left (by simp [A]; omega), List.getElem?_set_self (by simp [A]; omega)]
  let C := B.set x (some ⟨o, some y⟩)
  have hCy : C[y]? = some (some ⟨o, none⟩) := by
    simp only [C, B]
    rw [List.getElem?_set_ne (by simp only [y]; omega), List.getElem?_append_left (by simp [A, y]),
      List.getElem?_set_ne (by simp only [y]; omega)]
    simp [A, y]
  let D := s.nodes.set x (some ⟨o, some y⟩) ++ [some ⟨o, some n⟩, some ⟨o, some n⟩]
  have hD : C.set y (some ⟨o, some n⟩) = D := by
    simp only [C, B, A, D]
    apply List.ext_getElem?
    intro i
    by_cases h1 : i = y
    · subst h1
      rw [List.getElem?_set_self (by simp [y]; omega), List.getElem?_append_right (by simp [y])]
      simp [y]
    · rw [List.getElem?_set_ne (fun e => h1 e.symm)]
      by_cases h2 : i = x
      · subst h2
        rw [List.getElem?_set_self (by simp; omega), List.getElem?_append_left (by simpa using hxl), List.getElem?_set_self hxl]
      · rw [List.getElem?_set_ne (fun e => h2 e.symm)]
        by_cases h3 : i < s.nodes.length
        · rw [List.getElem?_append_left (by simp; omega), List.getElem?_set_ne (fun e => h2 e.symm),
            List.getElem?_append_left h3, List.getElem?_append_left (by simpa using h3), List.getElem?_set_ne (fun e => h2 e.symm)]
        · obtain ⟨j, rfl⟩ : ∃ j, i = s.nodes.length + 1 + j := ⟨i - s.nodes.length - 1, by simp only [y] at h1; omega⟩
          rw [List.getElem?_append_right (by simp), List.getElem?_append_right (by simp; omega)]
          simp
          cases j with
          | zero => simp [show s.nodes.length + 1 + 0 - s.nodes.length = 1 by omega]
          | succ j => simp [show s.nodes.length + 1 + (j + 1) - s.nodes.length = j + 2 by omega]
  have hDl : D.length = y + 2 := by simp [D, y]
  have hDx : D[x]? = some (some ⟨o, some y⟩) := by
    simp only [D]
    rw [List.getElem?_append_left (by simpa using hxl), List.getElem?_set_self hxl]
  have hDy : D[y]? = some (some ⟨o, some n⟩) := by
    simp only [D]
    rw [List.getElem?_append_right (by simp [y])]; simp [y]
  have hDh : D[y + 1]? = some (some ⟨o, some n⟩) := by
    simp only [D]
    rw [List.getElem?_append_right (by simp [y])]; simp [y]
  have hDt : ∀ a ∈ t, D[a]? = s.nodes[a]? := by
    intro a ha
    have := hlt a (by simp [ha])
    simp only [D]
    rw [List.getElem?_append_left (by simpa using this), List.getElem?_set_ne (fun e => hxt (by rw [e]; exact ha))]
  have hl : Link (State.nextOf ⟨D, s.log⟩) (x :: (y :: t)) x := by
    refine ⟨nextOf_eq (s := ⟨D, s.log⟩) hDx, ?_, link_congr (fun a ha => nextOf_congr (hDt a ha)) hring.2⟩
    rw [nextOf_eq (s := ⟨D, s.log⟩) hDy, hnx]
  have hrefs : (State.refs ⟨D, s.log⟩).refs = s.refs.refs ++ [.shares o, .shares o] := by
    simp only [State.refs, D, List.map_append, List.map_set]
    congr 1
    apply List.ext_getElem?
    intro i
    rw [List.getElem?_set]
    split
    · rename_i e; subst e
      simp [hxl]
      have := (List.getElem?_eq_some_iff.mp hn).2
      rw [this]; rfl
    · rfl
  refine ⟨⟨⟨D, s.log⟩, .idle, d + 1, v⟩, ?_, rfl, ?_, ?_, ?_, ?_⟩
  · have hb : begin ⟨s, .idle, d, v⟩ (.copy x) = some ⟨⟨A, s.log⟩, .linking x y (some n), d, v⟩ := by
      simp only [begin, alloc, get_eq hn]
      rw [nextOf_eq (s := { s with nodes := A }) hAx]
    have hk : copy ⟨A, s.log⟩ x = some ⟨B, s.log⟩ := by
      rw [copy_eq (s := ⟨A, s.log⟩) hAx]
      simp only [B, hAl]
    have ht : tick ⟨⟨B, s.log⟩, .linking x y (some n), d, v⟩ = some ⟨⟨C, s.log⟩, .linked y (some n), d, v⟩ := by
      simp only [tick]
      rw [setNext_eq (s := ⟨B, s.log⟩) _ hBx]; rfl
    have ht2 : tick ⟨⟨C, s.log⟩, .linked y (some n), d, v⟩ = some ⟨⟨D, s.log⟩, .idle, d + 1, v⟩ := by
      simp only [tick]
      rw [setNext_eq (s := ⟨C, s.log⟩) _ hCy]
      simp only [Option.map_some, hD]
    simp only [run, step, hb, hk, ht, ht2, Option.bind_some, Option.map_some]
  · show (State.refs ⟨D, s.log⟩).objectOf (y + 1) = _
    unfold Refs.objectOf
    rw [refs_get, show (State.mk D s.log).nodes = D from rfl, hDh]; rfl
  · show (State.refs ⟨D, s.log⟩).sharing o = _
    unfold Refs.sharing
    rw [hrefs]
    simp
  · have := count_ring ⟨D, s.log⟩ x (y :: t) x D.length 1 (by
      simp only [List.mem_cons]
      rintro (h | h)
      · simp only [y] at h; omega
      · exact hxt h) hl (by have := hlen.2; simp only [List.length_cons] at this ⊢; simp only [hDl, y]; omega)
    show countLoop ⟨D, s.log⟩ x D.length x 1 = _
    rw [this, ← hlen.1]
    simp; omega
  · refine destroy_trapped ⟨D, s.log⟩ (y + 1) o n (fun a => a ∈ x :: y :: t) hDh ?_ ?_ ?_
    · have : n < s.nodes.length := by
        rw [hnx]
        cases t with
        | nil => exact hxl
        | cons b t => exact hlt b (by simp)
      simp only [y]; omega
    · rw [hnx]; cases t <;> simp
    · intro a ha
      obtain ⟨c, g1, g2⟩ := link_mem hl ha
      have hc : c ∈ x :: y :: t := g2.elim id (fun h => by simp [h])
      refine Or.inr ⟨c, g1, hc, ?_⟩
      simp only [List.mem_cons] at hc
      rcases hc with h | h | h
      · simp only [y]; omega
      · omega
      · have := hlt c (by simp [h]); simp only [y]; omega

theorem circle_pred (s : State) (x : Nat) : ∀ (fuel n k p q : Nat), circle s x fuel n k = some (p, q) → s.nextOf p = some (some x) := by
  intro fuel
  induction fuel with
  | zero => intro n k p q h; cases h
  | succ fuel ih =>
    intro n k p q h
    unfold circle at h
    cases e : s.nextOf n with
    | none => simp [e] at h
    | some c =>
      rw [e] at h
      dsimp only at h
      by_cases hc : c = some x
      · rw [if_pos hc] at h
        injection h with h
        injection h with h1 h2
        rw [← h1, e, hc]
      · rw [if_neg hc] at h
        cases c with
        | none => simp at h
        | some c => exact ih _ _ _ _ h

/-- **Violation.**  While the main program destroys a reference, a handler that copies and keeps the one in front of it, after
it was found, makes the destructor take the new reference out of the ring instead: the ring leads to the destroyed reference. -/
theorem keep_in_destroy (evs : List Ev) (hp : Polite M.init evs) (m : M) (hm : run M.init evs = some m) (x p k : Nat)
    (hpc : m.pc = .erasing x p k) :
    ∃ m', run m [.keep p, .tick] = some m' ∧ m'.pc = .idle ∧ m'.s.nextOf p = some (some x) ∧ m'.s.get x = none := by
  obtain ⟨m0, g1, g2, -⟩ := polite_at evs [] M.init ⟨inv_init, rfl, rfl⟩ (by simp [M.init]) hp
  rw [hm] at g1
  injection g1 with g1
  subst g1
  unfold At at g2
  rw [hpc] at g2
  obtain ⟨ops0, h1, h2, h3, h4, h5, o, nx, h6, h7, h8⟩ := g2
  have hnp := circle_pred _ _ _ _ _ _ _ h8
  obtain ⟨s, pc, dn, sn⟩ := m
  dsimp only at hpc h6 hnp
  subst hpc
  obtain ⟨op, hpn⟩ : ∃ op, s.nodes[p]? = some (some ⟨op, some x⟩) := by
    unfold State.nextOf State.get rd at hnp
    cases e : s.nodes[p]? with
    | none => simp [e] at hnp
    | some w =>
      rw [e] at hnp
      cases w with
      | none => simp at hnp
      | some nd => obtain ⟨a, b⟩ := nd; simp at hnp; subst hnp; exact ⟨a, rfl⟩
  have hxn : s.nodes[x]? = some (some ⟨o, some nx⟩) := by
    unfold State.get rd at h6
    cases e : s.nodes[x]? with
    | none => simp [e] at h6
    | some w =>
      rw [e] at h6
      cases w with
      | none => simp at h6
      | some nd => simp at h6; subst h6; rfl
  have hpx : p ≠ x := by
    rintro rfl
    rw [hxn] at hpn
    simp at hpn
    exact h7 hpn.2
  have hpl : p < s.nodes.length := (List.getElem?_eq_some_iff.mp hpn).1
  have hxl : x < s.nodes.length := (List.getElem?_eq_some_iff.mp hxn).1
  let A := s.nodes.set p (some ⟨op, some s.nodes.length⟩) ++ [some ⟨op, some x⟩]
  have hAp : A[p]? = some (some ⟨op, some s.nodes.length⟩) := by
    simp only [A]
    rw [List.getElem?_append_left (by simpa using hpl), List.getElem?_set_self hpl]
  have hAh : A[s.nodes.length]? = some (some ⟨op, some x⟩) := by simp [A]
  have hAx : A[x]? = some (some ⟨o, some nx⟩) := by
    simp only [A]
    rw [List.getElem?_append_left (by simpa using hxl), List.getElem?_set_ne hpx]
    exact hxn
  have he : eraseAfter ⟨A, s.log⟩ p = some ⟨A.set p (some ⟨op, some x⟩), s.log⟩ := by
    unfold eraseAfter
    rw [nextOf_eq (s := ⟨A, s.log⟩) hAp]
    dsimp only
    rw [nextOf_eq (s := ⟨A, s.log⟩) hAh]
    dsimp only
    rw [setNext_eq (s := ⟨A, s.log⟩) _ hAp]
  obtain ⟨l, ht⟩ : ∃ l, tick ⟨⟨A, s.log⟩, .erasing x p k, dn, sn⟩ =
      some ⟨⟨(A.set p (some ⟨op, some x⟩)).set x none, l⟩, .idle, dn + 1, sn⟩ := by
    by_cases hk : k = 0
    · refine ⟨s.log ++ [o], ?_⟩
      simp only [tick]
      rw [get_eq (s := ⟨A, s.log⟩) hAx]
      dsimp only
      rw [he]
      simp [hk]
    · refine ⟨s.log, ?_⟩
      simp only [tick]
      rw [get_eq (s := ⟨A, s.log⟩) hAx]
      dsimp only
      rw [he]
      simp [hk]
  refine ⟨_, by simp only [run, step, copy_eq hpn, Option.map_some, Option.bind_some]; rw [ht]; rfl, rfl, ?_, ?_⟩
  · refine nextOf_eq (o := op) ?_
    show ((A.set p (some ⟨op, some x⟩)).set x none)[p]? = _
    rw [List.getElem?_set_ne (fun e => hpx e.symm), List.getElem?_set_self (List.getElem?_eq_some_iff.mp hAp).1]
  · show State.get ⟨(A.set p (some ⟨op, some x⟩)).set x none, l⟩ x = none
    unfold State.get rd
    dsimp only
    rw [List.getElem?_set_self (by rw [List.length_set]; exact (List.getElem?_eq_some_iff.mp hAx).1)]

/-- such a moment comes in every destruction of one of two references -/
example : (run M.init [.start .create, .start (.copy 0), .tick, .tick, .start (.destroy 0), .tick, .tick]).map (·.pc)
    = some (.erasing 0 1 1) := by decide +kernel

/-- and then the object is destroyed although the handler has a reference to it: the main program copies reference 0 (the copy
is 1) while the handler copies it as 2, then drops both of its own -/
example : (run M.init [.start .create, .start (.copy 0), .keep 0, .tick, .tick, .start (.destroy 0), .tick, .tick, .tick,
      .start (.destroy 1)]).map (fun m => (m.s.log, m.s.refs.objectOf 2)) = some ([0], .shares 0) := by decide +kernel

end Verif.LinkedRef.Handler
