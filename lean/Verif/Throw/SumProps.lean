import Verif.Throw.Sum

/-!
# C77 for `optional`, `expected` and `variant`: what an exception leaves behind
-/
namespace Verif.Throw
open Verif.Sum (Kind)

/-! ## Specification

Each container holds nothing or one alternative.  An operation whose constructor or assignment throws leaves the container
holding what it held, except that a `variant` whose `emplace` throws holds nothing. -/
namespace Spec

/-- what each container holds; `none` once destroyed -/
abbrev Held := List (Option (Option Nat))

/-- what container `b` holds, when there is one -/
def get (s : Held) (b : Nat) : Option (Option Nat) := s[b]?.join

/-- the operation of alternative `i` throws: operations of trivial types do not -/
def fails (k : Nat → Kind) (i : Nat) (f : Bool) : Bool := f && !(k i).trivial

/-- what container `b` holds after an operation, given what it held and what the assigned container held -/
def after (fl : Flavor) (k : Nat → Kind) (held src : Option Nat) : Op → Option Nat
  | .make _ _ => held
  | .assign _ i f => if fails k i f then held else some i
  | .assignFrom _ _ f =>
    if fl = .expected then held
    else
      match src with
      | none => none
      | some i => if fails k i f then held else some i
  | .emplace _ i f => if fails k i f then (if fl = .variant then none else held) else some i
  | .reset _ => if fl = .optional then none else held
  | .destroy _ => held

def step (fl : Flavor) (k : Nat → Kind) (s : Held) (op : Op) : Held :=
  match op with
  | .make none _ => s ++ [some none]
  | .make (some i) f => if fails k i f then s else s ++ [some (some i)]
  | .destroy b => s.set b none
  | op =>
    match get s op.target, get s op.source with
    | some h, some h' => s.set op.target (some (after fl k h h' op))
    | _, _ => s

def run (fl : Flavor) (k : Nat → Kind) : Held → List Op → Held
  | s, [] => s
  | s, op :: ops => run fl k (step fl k s op) ops

/-- the alternatives a container of each kind can hold, and only an `optional` can be constructed holding nothing -/
def Alt (fl : Flavor) (i : Nat) : Prop :=
  match fl with
  | .optional => i = 0
  | .expected => i = 0 ∨ i = 1
  | .variant => True

def Typed (fl : Flavor) : Op → Prop
  | .make none _ => fl = .optional
  | .make (some i) _ => Alt fl i
  | .assign _ i _ => Alt fl i
  | .emplace _ i _ => Alt fl i ∧ (fl = .expected → i = 0)
  | _ => True

/-- A throw is harmless when nothing has to be destroyed before the operation that throws: the container holds nothing, or
the new value is assigned to an object that is there. -/
def Harmless (k : Nat → Kind) (held : Option Nat) (i : Nat) : Prop := held = none ∨ (held = some i ∧ (k i).assignable = true)

/-- Exceptions only come where they are harmless, and from `emplace` of `variant`; a container is not assigned to itself
when the held type has no assignment. -/
def Calm (fl : Flavor) (k : Nat → Kind) (s : Held) (op : Op) : Prop :=
  Typed fl op ∧
  match op with
  | .assign b i f => ∀ h, get s b = some h → fails k i f = true → Harmless k h i
  | .assignFrom b c f => fl ≠ .expected → ∀ h i, get s b = some h → get s c = some (some i) →
      (fails k i f = true → Harmless k h i) ∧ (b = c → (k i).assignable = true)
  | .emplace b i f => ∀ h, get s b = some h → fails k i f = true → fl = .variant ∨ h = none
  | _ => True

/-- a program all of whose operations are calm -/
def CalmAll (fl : Flavor) (k : Nat → Kind) : Held → List Op → Prop
  | _, [] => True
  | s, op :: ops => Calm fl k s op ∧ CalmAll fl k (step fl k s op) ops

end Spec

/-- the container whose record and storage both say `t` -/
def both (t : Option Nat) : Box := ⟨t, t⟩

/-- the state in which all records are right -/
def agree (s : Spec.Held) : State := s.map (Option.map both)

theorem get_agree (s : Spec.Held) (b : Nat) : State.get (agree s) b = (Spec.get s b).map both := by
  simp only [State.get, Spec.get, agree, List.getElem?_map]
  cases s[b]? with
  | none => rfl
  | some o => cases o <;> rfl

theorem agree_set (s : Spec.Held) (b : Nat) (t : Option Nat) : (agree s).set b (some (both t)) = agree (s.set b (some t)) := by
  simp [agree, List.map_set]

theorem agree_set_none (s : Spec.Held) (b : Nat) : (agree s).set b none = agree (s.set b none) := by
  simp [agree, List.map_set]

/-- what containers of each kind can hold -/
def Holds (fl : Flavor) (t : Option Nat) : Prop :=
  match fl with
  | .optional => t = none ∨ t = some 0
  | .expected => t = some 0 ∨ t = some 1
  | .variant => True

def HoldsAll (fl : Flavor) (s : Spec.Held) : Prop := ∀ (b : Nat) h, Spec.get s b = some h → Holds fl h

/-- how one operation on a container that holds `h` ends -/
def ends (fl : Flavor) (k : Nat → Kind) (h src : Option Nat) (op : Op) (r : Out Box) : Prop :=
  r = .ok (both (Spec.after fl k h src op)) ∨ r = .threw (both (Spec.after fl k h src op))

theorem kill_self (k : Nat → Kind) (i : Nat) (t : Option Nat) : kill k ⟨some i, t⟩ i = .ok ⟨none, t⟩ := by simp [kill]

theorem build_none (k : Nat → Kind) (i : Nat) (t : Option Nat) (f : Bool) :
    build k ⟨none, t⟩ i f = if Spec.fails k i f then .threw ⟨none, t⟩ else .ok ⟨some i, t⟩ := by
  simp [build, Spec.fails]

theorem over_self (k : Nat → Kind) (i : Nat) (t : Option Nat) (f : Bool) :
    over k ⟨some i, t⟩ i f = if Spec.fails k i f then .threw ⟨some i, t⟩ else .ok ⟨some i, t⟩ := by
  simp [over, Spec.fails]

theorem directInit_none (k : Nat → Kind) (i : Nat) (t : Option Nat) (f : Bool) :
    directInit k ⟨none, t⟩ i f = if Spec.fails k i f then .threw ⟨none, t⟩ else .ok ⟨some i, t⟩ := by
  unfold directInit
  split
  · rename_i ht
    simp [over, ht, build, Spec.fails]
  · exact build_none ..

/-- assignment to what is there: it survives a throw exactly when the type is assignable -/
theorem assignmentHelper_self (k : Nat → Kind) (i : Nat) (t : Option Nat) (f : Bool) :
    assignmentHelper k ⟨some i, t⟩ i f =
      if Spec.fails k i f then .threw ⟨if (k i).assignable then some i else none, t⟩ else .ok ⟨some i, t⟩ := by
  unfold assignmentHelper
  cases ha : (k i).assignable
  · simp only [Bool.false_eq_true, if_false, kill_self, Out.bind, build_none]
  · simp only [if_true, over_self]

/-- replacing what is there: it does not survive a throw -/
theorem replaced (k : Nat → Kind) (i : Nat) (t : Option Nat) (f : Bool) (g : Box → Out Box) (hg : ∀ x, g x = record (some i) x) :
    ((if Spec.fails k i f then Out.threw ⟨none, t⟩ else .ok (⟨some i, t⟩ : Box)).bind g id) =
      if Spec.fails k i f then .threw ⟨none, t⟩ else .ok ⟨some i, some i⟩ := by
  cases Spec.fails k i f <;> simp [Out.bind, hg, record]

/-- `optional::operator=(U&&)` in every state -/
theorem opt_assign (k : Nat → Kind) (h1 : (k 1).trivial = true) (h : Option Nat) (hh : h = none ∨ h = some 0) (f : Bool) :
    Opt.assign k (both h) f =
      if Spec.fails k 0 f then .threw ⟨if h = some 0 ∧ (k 0).assignable = true then some 0 else none, h⟩
      else .ok (both (some 0)) := by
  rcases hh with rfl | rfl
  · have e : kill k ⟨none, none⟩ 1 = .ok ⟨none, none⟩ := by simp [kill, h1]
    simp only [Opt.assign, assignOrInit, both, reduceCtorEq, decide_false, Bool.false_eq_true, if_false, e, Out.bind,
      directInit_none, false_and]
    exact replaced k 0 none f _ fun _ => rfl
  · simp only [Opt.assign, assignOrInit, both, decide_true, if_true, assignmentHelper_self, true_and]
    cases Spec.fails k 0 f <;> simp [Out.bind, record]

theorem opt_emplace (k : Nat → Kind) (h : Option Nat) (hh : h = none ∨ h = some 0) (f : Bool) :
    Opt.emplace k (both h) f = if Spec.fails k 0 f then .threw ⟨none, h⟩ else .ok (both (some 0)) := by
  rcases hh with rfl | rfl
  · simp only [Opt.emplace, Opt.destroy, both, reduceCtorEq, if_false, Out.bind, build_none]
    exact replaced k 0 none f _ fun _ => rfl
  · simp only [Opt.emplace, Opt.destroy, both, if_true, kill_self, Out.bind, build_none]
    exact replaced k 0 (some 0) f _ fun _ => rfl

theorem opt_reset (k : Nat → Kind) (h : Option Nat) (hh : h = none ∨ h = some 0) : Opt.reset k (both h) = .ok (both none) := by
  rcases hh with rfl | rfl <;> simp [Opt.reset, Opt.destroy, both, Out.bind, record, kill]

theorem opt_destroy (k : Nat → Kind) (h : Option Nat) (hh : h = none ∨ h = some 0) :
    Opt.destroy k (both h) = .ok ⟨none, h⟩ := by
  rcases hh with rfl | rfl <;> simp [Opt.destroy, both, kill]

theorem exp_destroy (k : Nat → Kind) (h : Option Nat) (hh : h = some 0 ∨ h = some 1) :
    Exp.destroy k (both h) = .ok ⟨none, h⟩ := by
  rcases hh with rfl | rfl <;> simp [Exp.destroy, both, kill]

theorem exp_emplace (k : Nat → Kind) (h : Option Nat) (hh : h = some 0 ∨ h = some 1) (f : Bool) :
    Exp.emplace k (both h) f = if Spec.fails k 0 f then .threw ⟨none, h⟩ else .ok (both (some 0)) := by
  simp only [Exp.emplace, exp_destroy k h hh, Out.bind, build_none]
  exact replaced k 0 h f _ fun _ => rfl

theorem exp_assign (k : Nat → Kind) (h : Option Nat) (hh : h = some 0 ∨ h = some 1) (i : Nat) (hi : i = 0 ∨ i = 1) (f : Bool) :
    Exp.assign k (both h) i f =
      if Spec.fails k i f then .threw ⟨if h = some i ∧ (k i).assignable = true then some i else none, h⟩
      else .ok (both (some i)) := by
  rcases hi with rfl | rfl <;> rcases hh with rfl | rfl
  · simp only [Exp.assign, assignOrInit, both, decide_true, if_true, assignmentHelper_self, true_and]
    cases Spec.fails k 0 f <;> simp [Out.bind, record]
  · simp only [Exp.assign, assignOrInit, both, if_true, kill_self, Out.bind, Option.some.injEq, Nat.one_ne_zero, decide_false,
      Bool.false_eq_true, if_false, directInit_none, false_and]
    exact replaced k 0 (some 1) f _ fun _ => rfl
  · simp only [Exp.assign, assignOrInit, both, Nat.one_ne_zero, if_false, decide_true, Bool.not_true, Bool.false_eq_true,
      kill_self, Out.bind, directInit_none, Option.some.injEq, Nat.zero_ne_one, false_and]
    exact replaced k 1 (some 0) f _ fun _ => rfl
  · simp only [Exp.assign, assignOrInit, both, Nat.one_ne_zero, if_false, Option.some.injEq, decide_false, Bool.not_false,
      if_true, assignmentHelper_self, true_and]
    cases Spec.fails k 1 f <;> simp [Out.bind, record]

theorem var_destroy (k : Nat → Kind) (h : Option Nat) : Var.destroy k (both h) = .ok ⟨none, h⟩ := by
  cases h <;> simp [Var.destroy, both, kill]

theorem var_assign (k : Nat → Kind) (h : Option Nat) (i : Nat) (f : Bool) :
    Var.assign k (both h) i f =
      if Spec.fails k i f then .threw ⟨if h = some i ∧ (k i).assignable = true then some i else none, h⟩
      else .ok (both (some i)) := by
  by_cases e : h = some i
  · subst e
    simp only [Var.assign, both, if_true, assignmentHelper_self, true_and]
  · have e' : (both h).tag ≠ some i := e
    simp only [Var.assign, if_neg e', var_destroy, Out.bind, directInit_none, e, false_and, if_false]
    exact replaced k i h f _ fun _ => rfl

theorem var_assignFrom (k : Nat → Kind) (h j : Option Nat) (f : Bool) :
    Var.assignFrom k (both h) j f =
      match j with
      | none => .ok (both none)
      | some i =>
        if Spec.fails k i f then .threw ⟨if h = some i ∧ (k i).assignable = true then some i else none, h⟩
        else .ok (both (some i)) := by
  cases j with
  | none =>
    simp only [Var.assignFrom, var_destroy, Out.bind, record]
    rfl
  | some i =>
    simp only [Var.assignFrom]
    cases ha : (k i).assignable
    · simp only [Bool.false_eq_true, if_false, var_destroy, Out.bind, build_none, and_false]
      exact replaced k i h f _ fun _ => rfl
    · simp only [if_true, var_assign, ha, and_true]
      cases Spec.fails k i f <;> simp [Out.bind, record, both]

theorem var_emplace (k : Nat → Kind) (h : Option Nat) (i : Nat) (f : Bool) :
    Var.emplace k (both h) i f = if Spec.fails k i f then .threw (both none) else .ok (both (some i)) := by
  simp only [Var.emplace, var_destroy, Out.bind, record, build_none]
  cases Spec.fails k i f <;> simp [both]

/-- The storage agrees with the record afterwards, when the operation is calm. -/
theorem act_calm (fl : Flavor) (k : Nat → Kind) (h1 : fl = .optional → (k 1).trivial = true) (s : Spec.Held) (op : Op)
    (h src : Option Nat) (hh : Holds fl h) (hs : Holds fl src) (hb : Spec.get s op.target = some h)
    (hc : Spec.get s op.source = some src) (hcalm : Spec.Calm fl k s op) (hd : ∀ b, op ≠ .destroy b) :
    ends fl k h src op (act fl k (both h) src op) := by
  obtain ⟨ht, hx⟩ := hcalm
  unfold ends
  cases op with
  | make i f => left; simp [act, Spec.after]
  | assign b i f =>
    simp only [Spec.Typed, Spec.Alt, Op.target, Op.source, Spec.after, act] at *
    have key := hx h hb
    cases hf : Spec.fails k i f with
    | false =>
      left
      cases fl with
      | optional => subst ht; simp [opt_assign k (h1 rfl) h hh, hf]
      | expected => simp [exp_assign k h hh i ht, hf]
      | variant => simp [var_assign, hf]
    | true =>
      right
      have hm := key hf
      have hsome : (if h = some i ∧ (k i).assignable = true then some i else none) = h := by
        rcases hm with rfl | ⟨rfl, ha⟩
        · simp
        · simp [ha]
      cases fl with
      | optional => subst ht; simp only [opt_assign k (h1 rfl) h hh, hf, if_true, hsome]; rfl
      | expected => simp only [exp_assign k h hh i ht, hf, if_true, hsome]; rfl
      | variant => simp only [var_assign, hf, if_true, hsome]; rfl
  | assignFrom b c f =>
    simp only [Op.target, Op.source, Spec.after, act] at *
    cases fl with
    | expected => left; simp
    | optional =>
      have key := hx (by simp) h
      rcases hs with rfl | rfl
      · left; simp [opt_reset k h hh]
      · simp only [if_true, reduceCtorEq, if_false]
        have key := (key 0 hb hc).1
        cases hf : Spec.fails k 0 f with
        | false => left; simp [opt_assign k (h1 rfl) h hh, hf]
        | true =>
          right
          have hsome : (if h = some 0 ∧ (k 0).assignable = true then some 0 else none) = h := by
            rcases key hf with rfl | ⟨rfl, ha⟩
            · simp
            · simp [ha]
          simp only [opt_assign k (h1 rfl) h hh, hf, if_true, hsome]; rfl
    | variant =>
      have key := hx (by simp) h
      cases src with
      | none => left; simp [var_assignFrom]
      | some i =>
        have key := (key i hb hc).1
        simp only [reduceCtorEq, if_false, var_assignFrom]
        cases hf : Spec.fails k i f with
        | false => left; simp
        | true =>
          right
          have hsome : (if h = some i ∧ (k i).assignable = true then some i else none) = h := by
            rcases key hf with rfl | ⟨rfl, ha⟩
            · simp
            · simp [ha]
          simp only [if_true, hsome]; rfl
  | emplace b i f =>
    simp only [Spec.Typed, Spec.Alt, Op.target, Op.source, Spec.after, act] at *
    have key := hx h hb
    cases hf : Spec.fails k i f with
    | false =>
      left
      cases fl with
      | optional => obtain ⟨rfl, -⟩ := ht; simp [opt_emplace k h hh, hf]
      | expected => obtain rfl := ht.2 rfl; simp [exp_emplace k h hh, hf]
      | variant => simp [var_emplace, hf]
    | true =>
      right
      cases fl with
      | optional =>
        obtain ⟨rfl, -⟩ := ht
        rcases key hf with e | rfl
        · cases e
        · rw [opt_emplace k none hh, hf]; simp [both]
      | expected =>
        obtain rfl := ht.2 rfl
        rcases key hf with e | rfl
        · cases e
        · rcases hh with e | e <;> cases e
      | variant => simp [var_emplace, hf]
  | reset b =>
    left
    simp only [Spec.after, act]
    cases fl with
    | optional => simp [opt_reset k h hh]
    | expected => simp
    | variant => simp
  | destroy b => exact absurd rfl (hd b)

theorem holds_after (fl : Flavor) (k : Nat → Kind) (s : Spec.Held) (op : Op) (h src : Option Nat) (hh : Holds fl h)
    (hs : Holds fl src) (hcalm : Spec.Calm fl k s op) : Holds fl (Spec.after fl k h src op) := by
  have ht := hcalm.1
  cases fl with
  | variant => trivial
  | optional =>
    cases op with
    | make i f => exact hh
    | assign b i f =>
      cases (show i = 0 from ht)
      simp only [Spec.after]
      split
      · exact hh
      · exact Or.inr rfl
    | assignFrom b c f =>
      rcases hs with rfl | rfl
      · exact Or.inl rfl
      · simp only [Spec.after, reduceCtorEq, if_false]
        split
        · exact hh
        · exact Or.inr rfl
    | emplace b i f =>
      cases (show i = 0 from ht.1)
      simp only [Spec.after, reduceCtorEq, if_false]
      split
      · exact hh
      · exact Or.inr rfl
    | reset b => exact Or.inl rfl
    | destroy b => exact hh
  | expected =>
    cases op with
    | make i f => exact hh
    | assign b i f =>
      have hi : i = 0 ∨ i = 1 := ht
      simp only [Spec.after]
      split
      · exact hh
      · rcases hi with rfl | rfl
        · exact Or.inl rfl
        · exact Or.inr rfl
    | assignFrom b c f => exact hh
    | emplace b i f =>
      cases (show i = 0 from ht.2 rfl)
      simp only [Spec.after, reduceCtorEq, if_false]
      split
      · exact hh
      · exact Or.inl rfl
    | reset b => exact hh
    | destroy b => exact hh

theorem get_set {s : Spec.Held} {b c : Nat} {v : Option (Option Nat)} {h : Option Nat}
    (e : Spec.get (s.set b v) c = some h) : (b = c ∧ v = some h) ∨ Spec.get s c = some h := by
  simp only [Spec.get, List.getElem?_set] at e
  split at e
  · split at e
    · exact Or.inl ⟨by assumption, by simpa using e⟩
    · cases e
  · exact Or.inr e

theorem get_append {s : Spec.Held} {c : Nat} {v h : Option Nat} (e : Spec.get (s ++ [some v]) c = some h) :
    v = h ∨ Spec.get s c = some h := by
  simp only [Spec.get] at *
  by_cases hc : c < s.length
  · rw [List.getElem?_append_left hc] at e; exact Or.inr e
  · rw [List.getElem?_append_right (by omega)] at e
    by_cases h0 : c - s.length = 0
    · rw [h0] at e; left; simpa using e
    · rw [List.getElem?_eq_none (by simp; omega)] at e; cases e

theorem act_destroy (fl : Flavor) (k : Nat → Kind) (h src : Option Nat) (hh : Holds fl h) (b : Nat) :
    act fl k (both h) src (.destroy b) = .ok ⟨none, h⟩ := by
  cases fl with
  | optional => exact opt_destroy k h hh
  | expected => exact exp_destroy k h hh
  | variant => exact var_destroy k h

theorem agree_append (s : Spec.Held) (t : Option Nat) : agree s ++ [some (both t)] = agree (s ++ [some t]) := by simp [agree]

/-- One calm operation leaves all records right. -/
theorem step_calm (fl : Flavor) (k : Nat → Kind) (h1 : fl = .optional → (k 1).trivial = true) (s : Spec.Held)
    (hs : HoldsAll fl s) (op : Op) (hcalm : Spec.Calm fl k s op) :
    (step fl k (agree s) op = .ok (agree (Spec.step fl k s op)) ∨ step fl k (agree s) op = .threw (agree (Spec.step fl k s op))) ∧
    HoldsAll fl (Spec.step fl k s op) := by
  have main : ∀ h src, Spec.get s op.target = some h → Spec.get s op.source = some src → (∀ b, op ≠ .destroy b) →
      (act fl k (both h) src op).bind (fun z => .ok ((agree s).set op.target (some z)))
          (fun z => (agree s).set op.target (some z)) =
        .ok (agree (s.set op.target (some (Spec.after fl k h src op)))) ∨
      (act fl k (both h) src op).bind (fun z => .ok ((agree s).set op.target (some z)))
          (fun z => (agree s).set op.target (some z)) =
        .threw (agree (s.set op.target (some (Spec.after fl k h src op)))) := by
    intro h src hb hc hd
    rcases act_calm fl k h1 s op h src (hs _ _ hb) (hs _ _ hc) hb hc hcalm hd with e | e
    · left; rw [e]; simp only [Out.bind, agree_set]
    · right; rw [e]; simp only [Out.bind, agree_set]
  have hset : ∀ h src, Spec.get s op.target = some h → Spec.get s op.source = some src →
      HoldsAll fl (s.set op.target (some (Spec.after fl k h src op))) := by
    intro h src hb hc b v hv
    rcases get_set hv with ⟨-, e⟩ | e
    · cases e; exact holds_after fl k s op h src (hs _ _ hb) (hs _ _ hc) hcalm
    · exact hs _ _ e
  cases op with
  | make i f =>
    cases i with
    | none =>
      refine ⟨Or.inl ?_, ?_⟩
      · simp only [step, make, Out.bind, Spec.step]
        exact congrArg Out.ok (agree_append s none)
      · intro b h hb
        rcases get_append hb with rfl | hb
        · have e : fl = .optional := hcalm.1
          subst e; exact Or.inl rfl
        · exact hs _ _ hb
    | some i =>
      simp only [step, make, Spec.step, build_none]
      cases hf : Spec.fails k i f with
      | false =>
        refine ⟨Or.inl ?_, ?_⟩
        · simp only [Bool.false_eq_true, if_false, Out.bind, record]
          exact congrArg Out.ok (agree_append s (some i))
        · intro b h hb
          rcases get_append hb with rfl | hb
          · have ha : Spec.Alt fl i := hcalm.1
            cases fl with
            | optional => exact Or.inr (congrArg some ha)
            | expected => exact ha.imp (congrArg some) (congrArg some)
            | variant => trivial
          · exact hs _ _ hb
      | true => exact ⟨Or.inr (by simp [Out.bind]), by simpa using hs⟩
  | destroy b =>
    have hx : HoldsAll fl (s.set b none) := by
      intro c h hc
      rcases get_set hc with ⟨-, e⟩ | e
      · cases e
      · exact hs _ _ e
    refine ⟨Or.inl ?_, hx⟩
    simp only [step, Op.target, Op.source, get_agree]
    cases hb : Spec.get s b with
    | none =>
      simp only [Option.map_none, Spec.step]
      have : s.set b none = s := by
        apply List.ext_getElem?
        intro c
        rw [List.getElem?_set]
        split
        · subst c
          simp only [Spec.get] at hb
          split
          · rename_i hlt
            rw [List.getElem?_eq_getElem hlt] at hb ⊢
            simp only [Option.join_some] at hb
            rw [hb]
          · rename_i hlt
            exact (List.getElem?_eq_none (by omega)).symm
        · rfl
      rw [this]
    | some h =>
      have e := act_destroy fl k h h (hs _ _ hb) b
      simp only [Option.map_some, Spec.step]
      have e' : act fl k (both h) (both h).tag (.destroy b) = .ok ⟨none, h⟩ := e
      rw [e']
      simp only [Out.bind, agree_set_none]
  | assign b i f =>
    simp only [Op.target, Op.source] at main hset
    simp only [step, Op.target, Op.source, get_agree, Spec.step]
    cases hb : Spec.get s b with
    | none => exact ⟨Or.inl rfl, hs⟩
    | some h => exact ⟨main h h hb hb (by simp), hset h h hb hb⟩
  | emplace b i f =>
    simp only [Op.target, Op.source] at main hset
    simp only [step, Op.target, Op.source, get_agree, Spec.step]
    cases hb : Spec.get s b with
    | none => exact ⟨Or.inl rfl, hs⟩
    | some h => exact ⟨main h h hb hb (by simp), hset h h hb hb⟩
  | reset b =>
    simp only [Op.target, Op.source] at main hset
    simp only [step, Op.target, Op.source, get_agree, Spec.step]
    cases hb : Spec.get s b with
    | none => exact ⟨Or.inl rfl, hs⟩
    | some h => exact ⟨main h h hb hb (by simp), hset h h hb hb⟩
  | assignFrom b c f =>
    simp only [Op.target, Op.source] at main hset
    simp only [step, Op.target, Op.source, get_agree, Spec.step]
    cases hb : Spec.get s b with
    | none => exact ⟨Or.inl rfl, hs⟩
    | some h =>
      cases hc : Spec.get s c with
      | none => exact ⟨Or.inl rfl, hs⟩
      | some src =>
        simp only [Option.map_some]
        by_cases hself : fl ≠ .expected ∧ b = c ∧ (both h).live.any (fun i => !(k i).assignable) = true
        · obtain ⟨hex, rfl, hl⟩ := hself
          rw [hb] at hc
          cases hc
          cases h with
          | none => simp [both] at hl
          | some i =>
            have := (hcalm.2 hex (some i) i hb hb).2 rfl
            simp [both, this] at hl
        · rw [if_neg hself]
          exact ⟨main h src hb hc (by simp), hset h src hb hc⟩

theorem run_calm (fl : Flavor) (k : Nat → Kind) (h1 : fl = .optional → (k 1).trivial = true) :
    ∀ (ops : List Op) (s : Spec.Held), HoldsAll fl s → Spec.CalmAll fl k s ops →
      run fl k (agree s) ops = some (agree (Spec.run fl k s ops)) ∧ HoldsAll fl (Spec.run fl k s ops)
  | [], s, hs, _ => ⟨rfl, hs⟩
  | op :: ops, s, hs, hc => by
    obtain ⟨e, hs'⟩ := step_calm fl k h1 s hs op hc.1
    obtain ⟨e', hs''⟩ := run_calm fl k h1 ops _ hs' hc.2
    refine ⟨?_, hs''⟩
    rcases e with e | e <;> simp only [run, e, Spec.run] <;> exact e'

/-! ## C77 -/

/-- **C77 (partial).**  For every program over `optional`s, `expected`s or `variant`s in which any constructor or assignment
may throw, as long as it throws where nothing had to be destroyed before: nothing goes wrong, ever, and afterwards every
container holds exactly what the specification says: what it held before the operation that threw (nothing, for `emplace`
of `variant`), with the record of the container and the object in its storage in agreement.  Partial: where something has to
be destroyed first the claim is false, see `throw_after_destroy`. -/
theorem sums_survive_throws_partial (fl : Flavor) (k : Nat → Kind) (h1 : fl = .optional → (k 1).trivial = true) (ops : List Op)
    (hc : Spec.CalmAll fl k [] ops) :
    ∃ s, run fl k [] ops = some s ∧ s = (Spec.run fl k [] ops).map (Option.map fun t => ⟨t, t⟩) :=
  ⟨_, (run_calm fl k h1 ops [] (by intro b h hb; simp [Spec.get] at hb) hc).1, rfl⟩

/-- The value of alternative `i` that operation `op` puts into a container, when it puts one there by destroying what is
there first: every `emplace` of `optional` and `expected`, and every assignment that changes the alternative or whose type
has no assignment. -/
def Spec.Replaces (fl : Flavor) (k : Nat → Kind) (s : Spec.Held) (op : Op) (i : Nat) : Prop :=
  ∃ b j, Spec.get s b = some (some j) ∧
    ((op = .assign b i true ∧ ¬(j = i ∧ (k i).assignable = true)) ∨
     (∃ c, op = .assignFrom b c true ∧ fl ≠ .expected ∧ b ≠ c ∧ Spec.get s c = some (some i) ∧
        ¬(j = i ∧ (k i).assignable = true)) ∨
     (op = .emplace b i true ∧ fl ≠ .variant))

theorem act_replaces (fl : Flavor) (k : Nat → Kind) (h1 : fl = .optional → (k 1).trivial = true) (s : Spec.Held)
    (hs : HoldsAll fl s) (op : Op) (i : Nat) (ht : Spec.Typed fl op) (hi : (k i).trivial = false)
    (hr : Spec.Replaces fl k s op i) :
    ∃ j, Spec.get s op.target = some (some j) ∧
      step fl k (agree s) op = .threw ((agree s).set op.target (some ⟨none, some j⟩)) := by
  obtain ⟨b, j, hb, hr⟩ := hr
  have hf : Spec.fails k i true = true := by simp [Spec.fails, hi]
  have hgen : ¬(j = i ∧ (k i).assignable = true) →
      (if some j = some i ∧ (k i).assignable = true then some i else none) = (none : Option Nat) := by
    intro hn
    rw [if_neg]
    intro hh
    exact hn ⟨by simpa using hh.1, hh.2⟩
  rcases hr with ⟨rfl, hn⟩ | ⟨c, rfl, hfl, hbc, hc, hn⟩ | ⟨rfl, hfl⟩
  · refine ⟨j, hb, ?_⟩
    simp only [step, Op.target, Op.source, get_agree, hb, Option.map_some, act]
    cases fl with
    | optional =>
      cases (show i = 0 from ht)
      simp only [opt_assign k (h1 rfl) (some j) (hs _ _ hb), hf, if_true, hgen hn, Out.bind]
    | expected =>
      simp only [exp_assign k (some j) (hs _ _ hb) i ht, hf, if_true, hgen hn, Out.bind]
    | variant => simp only [var_assign, hf, if_true, hgen hn, Out.bind]
  · refine ⟨j, hb, ?_⟩
    simp only [step, Op.target, Op.source, get_agree, hb, hc, Option.map_some, act, hbc, false_and, and_false, if_false]
    cases fl with
    | expected => exact absurd rfl hfl
    | optional =>
      have hi0 : i = 0 := by
        rcases hs _ _ hc with e | e <;> simp at e
        exact e
      subst hi0
      simp only [both, if_true]
      have := opt_assign k (h1 rfl) (some j) (hs _ _ hb) true
      simp only [both] at this
      simp only [this, hf, if_true, hgen hn, Out.bind]
    | variant =>
      have := var_assignFrom k (some j) (some i) true
      simp only [hf, if_true, hgen hn] at this
      have e : (both (some i)).tag = some i := rfl
      rw [e, this]
      rfl
  · refine ⟨j, hb, ?_⟩
    simp only [step, Op.target, Op.source, get_agree, hb, Option.map_some, act]
    cases fl with
    | variant => exact absurd rfl hfl
    | optional =>
      cases (show i = 0 from ht.1)
      simp only [opt_emplace k (some j) (hs _ _ hb), hf, if_true, Out.bind]
    | expected =>
      cases (show i = 0 from ht.2 rfl)
      simp only [exp_emplace k (some j) (hs _ _ hb), hf, if_true, Out.bind]

theorem run_append (fl : Flavor) (k : Nat → Kind) : ∀ (ops ops' : List Op) (s s' : State), run fl k s ops = some s' →
    run fl k s (ops ++ ops') = run fl k s' ops'
  | [], _, s, s', h => by cases h; rfl
  | op :: ops, ops', s, s', h => by
    simp only [run, List.cons_append] at h ⊢
    cases e : step fl k s op with
    | ok t => rw [e] at h; exact run_append fl k ops ops' t s' h
    | threw t => rw [e] at h; exact run_append fl k ops ops' t s' h
    | wrong => rw [e] at h; cases h

/-- **Violation.**  After any calm program, let an operation throw that destroys what the container holds before it
constructs: `emplace` of an engaged `optional` or of an `expected`; assignment of another alternative to an `expected` or a
`variant`; assignment to an engaged `optional` (or to the same alternative) when the type has no assignment.  The container
goes on saying that it holds the old alternative, which is destroyed: nothing is in its storage.  When that alternative has
a destructor, destroying the container afterwards destroys it a second time. -/
theorem throw_after_destroy (fl : Flavor) (k : Nat → Kind) (h1 : fl = .optional → (k 1).trivial = true) (ops : List Op)
    (hc : Spec.CalmAll fl k [] ops) (op : Op) (i : Nat) (ht : Spec.Typed fl op) (hi : (k i).trivial = false)
    (hr : Spec.Replaces fl k (Spec.run fl k [] ops) op i) :
    ∃ j s, Spec.get (Spec.run fl k [] ops) op.target = some (some j) ∧ run fl k [] (ops ++ [op]) = some s ∧
      State.get s op.target = some ⟨none, some j⟩ ∧
      ((k j).trivial = false → run fl k [] (ops ++ [op] ++ [.destroy op.target]) = none) := by
  obtain ⟨hrun, hh⟩ := run_calm fl k h1 ops [] (by intro b h hb; simp [Spec.get] at hb) hc
  obtain ⟨j, hb, hstep⟩ := act_replaces fl k h1 _ hh op i ht hi hr
  have hrun' : run fl k [] (ops ++ [op]) = some ((agree (Spec.run fl k [] ops)).set op.target (some ⟨none, some j⟩)) := by
    rw [run_append fl k ops [op] [] _ hrun]
    simp only [run, hstep]
  have hlt : op.target < (agree (Spec.run fl k [] ops)).length := by
    simp only [agree, List.length_map]
    simp only [Spec.get] at hb
    by_cases hlt : op.target < (Spec.run fl k [] ops).length
    · exact hlt
    · rw [List.getElem?_eq_none (by omega)] at hb; cases hb
  have hget : State.get ((agree (Spec.run fl k [] ops)).set op.target (some ⟨none, some j⟩)) op.target =
      some ⟨none, some j⟩ := by
    simp [State.get, List.getElem?_set, hlt]
  refine ⟨j, _, hb, hrun', hget, ?_⟩
  intro hj
  rw [run_append fl k _ [.destroy op.target] [] _ hrun']
  have hk : kill k ⟨none, some j⟩ j = .wrong := by simp [kill, hj]
  have hact : act fl k ⟨none, some j⟩ (some j) (.destroy op.target) = .wrong := by
    have hhj := hh _ _ hb
    cases fl with
    | optional =>
      rcases hhj with e | e
      · cases e
      · cases e; simpa [act, Opt.destroy] using hk
    | expected =>
      rcases hhj with e | e
      · cases e; simpa [act, Exp.destroy] using hk
      · cases e; simpa [act, Exp.destroy] using hk
    | variant => simpa [act, Var.destroy] using hk
  have e1 : (Op.destroy op.target).target = op.target := rfl
  have e2 : (Op.destroy op.target).source = op.target := rfl
  simp only [run, step, e1, e2, hget, hact, Out.bind]

/-- two classes with constructors, destructors and assignments, and one without assignment -/
def sampleKinds : Nat → Kind
  | 2 => ⟨false, false, true⟩
  | _ => ⟨false, true, true⟩

/-- a program with harmless throws: a constructor, an assignment to what is there and an `emplace` that throw, and the
`variant` used afterwards -/
example : Spec.CalmAll .variant sampleKinds []
    [.make (some 0) true, .make (some 0) false, .assign 0 0 true, .assign 0 1 false, .emplace 0 2 true, .assign 0 2 false,
     .make (some 1) false, .assignFrom 0 1 false, .destroy 0] := by
  simp [Spec.CalmAll, Spec.Calm, Spec.Typed, Spec.Alt, Spec.step, Spec.fails, Spec.get, Spec.Harmless, sampleKinds, Op.target,
    Op.source, Spec.after]

/-- and what it leaves: the first `variant` destroyed, the second holding alternative 1 -/
example : run .variant sampleKinds []
    [.make (some 0) true, .make (some 0) false, .assign 0 0 true, .assign 0 1 false, .emplace 0 2 true, .assign 0 2 false,
     .make (some 1) false, .assignFrom 0 1 false, .destroy 0] = some [none, some ⟨some 1, some 1⟩] := by
  decide +kernel

/-- the hypotheses of `throw_after_destroy` are met by an `optional` -/
example : Spec.CalmAll .optional (fun i => ⟨i == 1, true, true⟩) [] [.make (some 0) false] ∧
    Spec.Replaces .optional (fun i => ⟨i == 1, true, true⟩)
      (Spec.run .optional (fun i => ⟨i == 1, true, true⟩) [] [.make (some 0) false]) (.emplace 0 0 true) 0 :=
  ⟨by simp [Spec.CalmAll, Spec.Calm, Spec.Typed, Spec.Alt],
   0, 0, by simp [Spec.run, Spec.step, Spec.fails, Spec.get], Or.inr (Or.inr ⟨rfl, by simp⟩)⟩

end Verif.Throw
