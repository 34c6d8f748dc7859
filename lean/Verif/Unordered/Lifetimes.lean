import Verif.Unordered.More

/-!
# C78: the objects in an unordered map

`Verif.Unordered.Model` treats keys and mapped values as bytes.  Here the same operations are followed by what they do to
the *objects*: which constructors and destructors of the key and mapped types run on which slot, and which objects the
caller is shown.  An event that needs an object which is not alive is undefined behaviour; a construction over a living
object loses that object (its destructor never runs).

Simplified: the events of an operation are listed after the change to the slots; the bit fields of an erased slot live in
the storage of the destroyed mapped value and are no objects.
-/
namespace Verif.Unordered.Life
open Verif.Unordered

variable {K V : Type} [DecidableEq K]

/-- what happens to the objects of one slot -/
inductive Ev where
  /-- the mapped value is constructed, destroyed, shown to the caller or used by `swap` -/
  | ctor (i : Nat) | dtor (i : Nat) | use (i : Nat)
  /-- the key is constructed, destroyed, assigned to -/
  | kctor (i : Nat) | kdtor (i : Nat) | kset (i : Nat)
  deriving DecidableEq

/-- The objects: which slots hold a living mapped value and a living key; how many mapped values were constructed, destroyed
and overwritten while alive; how many keys were overwritten while alive. -/
structure Objs where
  live : List Bool
  keys : List Bool
  made : Nat
  gone : Nat
  lost : Nat
  lostKeys : Nat
  deriving DecidableEq

/-- One event; `none` is undefined behaviour.  `t`: keys are trivial (scalars), their construction and destruction is
nothing. -/
def Objs.event (t : Bool) (o : Objs) : Ev → Option Objs
  | .ctor i => some { o with live := o.live.set i true, made := o.made + 1,
                             lost := if o.live[i]? = some true then o.lost + 1 else o.lost }
  | .dtor i => if o.live[i]? = some true then some { o with live := o.live.set i false, gone := o.gone + 1 } else none
  | .use i => if o.live[i]? = some true then some o else none
  | .kctor i => if t then some o else
      some { o with keys := o.keys.set i true, lostKeys := if o.keys[i]? = some true then o.lostKeys + 1 else o.lostKeys }
  | .kdtor i => if t then some o else if o.keys[i]? = some true then some { o with keys := o.keys.set i false } else none
  | .kset i => if t then some o else if o.keys[i]? = some true then some o else none

/-- events in order -/
def Objs.events (t : Bool) : Objs → List Ev → Option Objs
  | o, [] => some o
  | o, x :: xs => (o.event t x).bind fun o' => o'.events t xs

/-- `emplace`, `insert`, `try_emplace` with arguments, unordered_map.h:196-274: `new (ret.first) value_type(…)` constructs
the key and the mapped value in the slot found by `insert_precheck`; the caller gets an iterator to the element. -/
def insertEvents (e : Env K V) (s : Slots K V) (k : K) : List Ev :=
  match precheck e s k with
  | some (.fresh i) => [.kctor i, .ctor i, .use i]
  | some (.dup i) => [.use i]
  | _ => []

/-- `unordered_map::destruct`, unordered_map.h:87-91 with unordered/base.h:63-79: the key's destructor, the mapped value's
destructor, then the null key is *assigned* (unordered/traits.h:28-31). -/
def destructEvents (i : Nat) : List Ev := [.kdtor i, .dtor i, .kset i]

/-- `insert_or_assign`, unordered_map.h:276-294: `new (&p) mapped_type(…)` (285) over the mapped value that is there -/
def assignEvents (e : Env K V) (s : Slots K V) (k : K) : List Ev :=
  match find e s k with
  | some (some i) => [.ctor i, .use i]
  | _ => insertEvents e s k

/-- `operator[]`, unordered_map.h:187-194, with `try_emplace(key)`, 228-248: only the key is assigned (240) -/
def subscriptEvents (e : Env K V) (s : Slots K V) (k : K) : List Ev :=
  match find e s k with
  | some (some i) => [.use i]
  | _ =>
    match precheck e s k with
    | some (.fresh i) => [.kset i, .use i]
    | some (.dup i) => [.use i]
    | _ => []

/-- what each operation of `Verif.Unordered.step` does to the objects: `erase`, unordered_map.h:395-403 with 335-340; `clear`,
182-185, every slot; a lookup shows the mapped value to the caller -/
def opEvents (e : Env K V) (s : Slots K V) : Op K V → List Ev
  | .insert k _ => insertEvents e s k
  | .assign k _ => assignEvents e s k
  | .sub k => subscriptEvents e s k
  | .erase k =>
    match find e s k with
    | some (some p) => destructEvents p
    | _ => []
  | .clear => (List.range s.length).flatMap destructEvents
  | .find k =>
    match find e s k with
    | some (some p) => [.use p]
    | _ => []
  | _ => []

/-- the constructor, unordered/base.h:53-59, on an array of `control_type`s: there is a key in every slot, and no mapped
value (`meta` is a union of bytes, unordered/traits.h:83-104) -/
def start (n : Nat) : Objs := ⟨List.replicate n false, List.replicate n true, 0, 0, 0, 0⟩

/-- one operation on slots and objects -/
def lstep (t : Bool) (e : Env K V) (x : Slots K V × Objs) (op : Op K V) : Option (Slots K V × Objs) :=
  match step e x.1 op with
  | none => none
  | some (s', _) => (x.2.events t (opEvents e x.1 op)).map (s', ·)

/-- a history -/
def lrun (t : Bool) (e : Env K V) : Slots K V × Objs → List (Op K V) → Option (Slots K V × Objs)
  | x, [] => some x
  | x, op :: ops => (lstep t e x op).bind fun y => lrun t e y ops

/-! ## Specification -/

/-- operations other than `m[k]` and `clear()` -/
def Op.plain : Op K V → Bool
  | .sub _ => false
  | .clear => false
  | _ => true

/-- which slots hold an element (a key that is not null) -/
def occupied (e : Env K V) (s : Slots K V) : List Bool := s.map fun x => decide (x.key ≠ e.null)

/-- 1 for an `insert_or_assign` to a key that a lookup finds -/
def overwrite (e : Env K V) (s : Slots K V) : Op K V → Nat
  | .assign k _ => if (find e s k).join.isSome then 1 else 0
  | _ => 0

/-- how many operations of the history are an `insert_or_assign` to a key that a lookup finds -/
def overwrites (e : Env K V) : Slots K V → List (Op K V) → Nat
  | _, [] => 0
  | s, op :: ops =>
    overwrite e s op +
    (match step e s op with
      | some (s', _) => overwrites e s' ops
      | none => 0)

/-! ## Proofs -/

/-- the living mapped values are those of the elements, and every object is accounted for -/
structure Good (e : Env K V) (s : Slots K V) (o : Objs) (lost : Nat) : Prop where
  live : o.live = occupied e s
  bal : o.made = o.gone + o.lost + size e s
  lost : o.lost = lost

theorem size_occupied (e : Env K V) (s : Slots K V) : size e s = (occupied e s).countP id := by
  unfold size occupied isEmpty
  rw [List.countP_map, ← List.countP_eq_length_filter]
  congr 1
  funext x
  simp [Function.comp]

theorem occupied_get {e : Env K V} {s : Slots K V} {i : Nat} {x : Slot K V} (h : s[i]? = some x) :
    (occupied e s)[i]? = some (decide (x.key ≠ e.null)) := by
  simp [occupied, h]

theorem occupied_set (e : Env K V) (s : Slots K V) (i : Nat) (x : Slot K V) :
    occupied e (s.set i x) = (occupied e s).set i (decide (x.key ≠ e.null)) := by
  simp [occupied, List.map_set]

theorem occupied_length (e : Env K V) (s : Slots K V) : (occupied e s).length = s.length := by simp [occupied]

theorem set_same {α : Type} {l : List α} {i : Nat} {a : α} (h : l[i]? = some a) : l.set i a = l := by
  obtain ⟨hi, rfl⟩ := List.getElem?_eq_some_iff.mp h
  simp

/-- filling an empty slot -/
theorem good_fill {e : Env K V} {s : Slots K V} {o : Objs} {n i : Nat} {x : Slot K V} (h : Good e s o n)
    (hx : s[i]? = some x) (he : x.key = e.null) (y : Slot K V) (hy : y.key ≠ e.null) :
    ∃ o', o.events true [.kctor i, .ctor i, .use i] = some o' ∧ Good e (s.set i y) o' n := by
  have ho := occupied_get (e := e) hx
  have hl : o.live[i]? = some false := by rw [h.live, ho]; simp [he]
  have hi : i < o.live.length := (List.getElem?_eq_some_iff.mp hl).1
  refine ⟨{ o with live := o.live.set i true, made := o.made + 1 }, ?_, ?_, ?_, h.lost⟩
  · have h1 : (o.live.set i true)[i]? = some true := by simp [hi]
    simp only [Objs.events, Objs.event, if_true, Option.bind_some, hl, h1]
    simp
  · simp only [h.live, occupied_set]
    simp [hy]
  · have hc : (occupied e (s.set i y)).countP id = (occupied e s).countP id + 1 := by
      rw [occupied_set, List.countP_set (by rw [← h.live]; exact hi)]
      have : (occupied e s)[i]'(by rw [← h.live]; exact hi) = false := by
        have := (List.getElem?_eq_some_iff.mp ho).2
        rw [this]; simp [he]
      rw [this]
      simp [hy]
    have := h.bal
    rw [size_occupied] at *
    simp only [hc]
    omega

/-- showing an element -/
theorem good_use {e : Env K V} {s : Slots K V} {o : Objs} {n i : Nat} {x : Slot K V} (h : Good e s o n)
    (hx : s[i]? = some x) (he : x.key ≠ e.null) : o.events true [.use i] = some o := by
  have hl : o.live[i]? = some true := by rw [h.live, occupied_get hx]; simp [he]
  simp [Objs.events, Objs.event, hl]

/-- where `insert_precheck` points -/
theorem precheck_at {e : Env K V} {s : Slots K V} (hs : 0 < s.length) (k : K) :
    (∀ i, precheck e s k = some (.fresh i) → i < s.length → k ≠ e.null ∧ ∃ x, s[i]? = some x ∧ x.key = e.null) ∧
    (∀ i, precheck e s k = some (.dup i) → ∃ x, s[i]? = some x ∧ x.key ≠ e.null) := by
  by_cases hk : k = e.null
  · constructor <;> intro i h <;> rw [precheck, if_pos hk] at h <;> cases h
  obtain ⟨j, h1, h2, h3, h4⟩ := precheck_cases e s k hs hk
  rcases h4 with ⟨h4, h5⟩ | ⟨y, hy, hn, h5⟩ | ⟨y, hy, hn, hne, h5⟩ | ⟨y, hy, hyk, h5⟩
  · constructor
    · intro i h hi
      rw [h5] at h
      cases hh : e.hi with
      | none => rw [hh] at h; cases h
      | some z =>
        rw [hh] at h
        simp only [Option.map_some, Option.some.injEq] at h
        split at h
        · cases h; omega
        · cases h
    · intro i h
      rw [h5] at h
      cases hh : e.hi with
      | none => rw [hh] at h; cases h
      | some z =>
        rw [hh] at h
        simp only [Option.map_some, Option.some.injEq] at h
        split at h <;> cases h
  · constructor <;> intro i h <;> rw [h5] at h <;> cases h
    exact fun _ => ⟨hk, y, hy, hn⟩
  · constructor <;> intro i h <;> rw [h5] at h <;> cases h
  · constructor <;> intro i h <;> rw [h5] at h <;> cases h
    exact ⟨y, hy, by rw [hyk]; exact hk⟩

theorem prune_keys (e : Env K V) (n : Nat) : ∀ (p : Nat) (s s' : Slots K V), prune e n s p = some s' →
    occupied e s' = occupied e s
  | 0, s, s', h => by
    unfold prune at h
    split at h
    · cases h
    · split at h
      · cases h
      · cases h; rfl
  | p + 1, s, s', h => by
    unfold prune at h
    split at h
    · cases h
    · rename_i x hx
      split at h
      · rw [prune_keys e n p _ _ h, occupied_set, ← set_same (occupied_get (e := e) hx)]
        simp
      · cases h; rfl

theorem eraseAt_keys {e : Env K V} {s s' : Slots K V} {p n : Nat} (h : eraseAt e s p n = some s') :
    occupied e s' = (occupied e s).set p false := by
  unfold eraseAt at h
  split at h
  · cases h
  · split at h
    · rw [prune_keys e n p _ _ h, occupied_set]; simp
    · cases h; rw [occupied_set]; simp

theorem good_insert {e : Env K V} {s s' : Slots K V} {o : Objs} {n : Nat} {k : K} {v : V} {r : InsRes} (hs : 0 < s.length)
    (h : Good e s o n) (hi : insert e s k v = some (s', r)) :
    ∃ o', o.events true (insertEvents e s k) = some o' ∧ Good e s' o' n := by
  obtain ⟨h1, h2⟩ := precheck_at (e := e) hs k
  unfold insert at hi
  unfold insertEvents
  split at hi
  · cases hi
  · rename_i i hp
    split at hi
    · rename_i hlt
      cases hi
      obtain ⟨hk, x, hx, he⟩ := h1 i hp hlt
      rw [hp]
      exact good_fill h hx he ⟨k, v⟩ hk
    · cases hi
  · rename_i i hp
    cases hi
    obtain ⟨x, hx, he⟩ := h2 i hp
    rw [hp]
    exact ⟨o, good_use h hx he, h⟩
  · rename_i hp
    cases hi
    rw [hp]
    exact ⟨o, rfl, h⟩


theorem event_length {t : Bool} {o o' : Objs} {x : Ev} (h : o.event t x = some o') : o'.live.length = o.live.length := by
  cases x <;> simp only [Objs.event] at h
  · cases h; simp
  · split at h <;> cases h; simp
  · split at h <;> cases h; rfl
  · split at h <;> cases h <;> rfl
  · split at h
    · cases h; rfl
    · split at h <;> cases h; rfl
  · split at h
    · cases h; rfl
    · split at h <;> cases h; rfl

theorem events_length {t : Bool} : ∀ (l : List Ev) {o o' : Objs}, o.events t l = some o' → o'.live.length = o.live.length
  | [], o, o', h => by cases h; rfl
  | x :: xs, o, o', h => by
    simp only [Objs.events] at h
    cases he : o.event t x with
    | none => rw [he] at h; cases h
    | some o1 =>
      rw [he] at h
      rw [events_length xs h, event_length he]

theorem good_erase {e : Env K V} {s s' : Slots K V} {o : Objs} {n p m : Nat} {k : K} {v : V} (h : Good e s o n)
    (hp : At e s p k v) (he : eraseAt e s p m = some s') :
    ∃ o', o.events true (destructEvents p) = some o' ∧ Good e s' o' n := by
  have ho := occupied_get (e := e) hp.1
  have hl : o.live[p]? = some true := by rw [h.live, ho]; simp [hp.2]
  have hi : p < o.live.length := (List.getElem?_eq_some_iff.mp hl).1
  refine ⟨{ o with live := o.live.set p false, gone := o.gone + 1 }, ?_, ?_, ?_, h.lost⟩
  · simp [destructEvents, Objs.events, Objs.event, hl]
  · simp only [h.live, eraseAt_keys he]
  · have hi' : p < (occupied e s).length := by rw [← h.live]; exact hi
    have hc : (occupied e s').countP id + 1 = (occupied e s).countP id := by
      rw [eraseAt_keys he, List.countP_set hi']
      have hg : (occupied e s)[p] = true := by
        have := (List.getElem?_eq_some_iff.mp ho).2
        rw [this]; simp [hp.2]
      have : 0 < (occupied e s).countP id := List.countP_pos_iff.mpr ⟨_, List.getElem_mem hi', by rw [hg]; rfl⟩
      rw [hg]
      simp
      omega
    have := h.bal
    rw [size_occupied] at *
    simp only
    omega

theorem good_over {e : Env K V} {s : Slots K V} {o : Objs} {n p : Nat} {k : K} {u v : V} (h : Good e s o n)
    (hp : At e s p k u) :
    ∃ o', o.events true [.ctor p, .use p] = some o' ∧ Good e (s.set p ⟨k, v⟩) o' (n + 1) := by
  have ho := occupied_get (e := e) hp.1
  have hl : o.live[p]? = some true := by rw [h.live, ho]; simp [hp.2]
  have hi : p < o.live.length := (List.getElem?_eq_some_iff.mp hl).1
  have hoc : occupied e (s.set p ⟨k, v⟩) = occupied e s := by
    rw [occupied_set]
    exact set_same (by rw [ho])
  refine ⟨{ o with live := o.live.set p true, made := o.made + 1, lost := o.lost + 1 }, ?_, ?_, ?_, ?_⟩
  · have h1 : (o.live.set p true)[p]? = some true := by simp [hi]
    simp only [Objs.events, Objs.event, Option.bind_some, hl, h1]
    simp
  · simp only [hoc]
    rw [set_same hl, h.live]
  · have := h.bal
    simp only [size_occupied, hoc] at *
    omega
  · simp only [h.lost]

/-- one operation -/
theorem good_step {e : Env K V} {s s' : Slots K V} {o : Objs} {n : Nat} {op : Op K V} {r : Out V} (hs : 0 < s.length)
    (h : Good e s o n) (hp : Op.plain op = true) (hst : step e s op = some (s', r)) :
    ∃ o', o.events true (opEvents e s op) = some o' ∧
      Good e s' o' (n + overwrite e s op) := by
  cases op with
  | insert k v =>
    simp only [step] at hst
    split at hst
    · cases hst
    · rename_i a b hq
      have : a = s' := by
        cases hsn : seen a b with
        | none => rw [hsn] at hst; cases hst
        | some y => rw [hsn] at hst; cases hst; rfl
      subst this
      simpa [opEvents, overwrite] using good_insert hs h hq
  | assign k v =>
    simp only [step] at hst
    split at hst
    · cases hst
    · rename_i a b hq
      have : a = s' := by
        cases hsn : seen a b with
        | none => rw [hsn] at hst; cases hst
        | some y => rw [hsn] at hst; cases hst; rfl
      subst this
      simp only [opEvents, assignEvents, overwrite]
      unfold insertOrAssign at hq
      cases hf : find e s k with
      | none => rw [hf] at hq; cases hq
      | some f =>
        cases f with
        | none =>
          rw [hf] at hq
          simpa using good_insert hs h hq
        | some i =>
          obtain ⟨u, hu⟩ := find_sound e s k hs i hf
          rw [hf] at hq
          simp only [hu.1, Option.some.injEq, Prod.mk.injEq] at hq
          rw [← hq.1]
          simpa using good_over h hu
  | sub k => cases hp
  | clear => cases hp
  | erase k =>
    simp only [step, erase] at hst
    simp only [opEvents]
    cases hf : find e s k with
    | none => rw [hf] at hst; cases hst
    | some f =>
      rw [hf] at hst
      cases f with
      | none => cases hst; exact ⟨o, rfl, h⟩
      | some p =>
        obtain ⟨u, hu⟩ := find_sound e s k hs p hf
        simp only at hst
        cases he : eraseAt e s p (index e s.length k) with
        | none => rw [he] at hst; cases hst
        | some t =>
          rw [he] at hst
          cases hst
          exact good_erase h hu he
  | find k =>
    simp only [step, lookup] at hst
    simp only [opEvents]
    cases hf : find e s k with
    | none => rw [hf] at hst; cases hst
    | some f =>
      rw [hf] at hst
      cases hst
      cases f with
      | none => exact ⟨o, rfl, h⟩
      | some p =>
        obtain ⟨u, hu⟩ := find_sound e s k hs p hf
        exact ⟨o, good_use h hu.1 hu.2, h⟩
  | contains k =>
    simp only [step] at hst
    cases hq : contains e s k with
    | none => rw [hq] at hst; cases hst
    | some b => rw [hq] at hst; cases hst; exact ⟨o, rfl, h⟩
  | count k =>
    simp only [step] at hst
    cases hq : count e s k with
    | none => rw [hq] at hst; cases hst
    | some b => rw [hq] at hst; cases hst; exact ⟨o, rfl, h⟩
  | size => cases hst; exact ⟨o, rfl, h⟩
  | isEmpty => cases hst; exact ⟨o, rfl, h⟩

theorem good_length {e : Env K V} {s : Slots K V} {o : Objs} {n : Nat} (h : Good e s o n) : o.live.length = s.length := by
  rw [h.live, occupied_length]

theorem good_run {e : Env K V} : ∀ (ops : List (Op K V)) {s s' : Slots K V} {o : Objs} {n : Nat} {outs : List (Out V)},
    0 < s.length → Good e s o n → (∀ op ∈ ops, Op.plain op = true) → run e s ops = some (s', outs) →
    ∃ o', lrun true e (s, o) ops = some (s', o') ∧ Good e s' o' (n + overwrites e s ops) ∧ 0 < s'.length
  | [], s, s', o, n, outs, hs, h, _, hr => by
    cases hr
    exact ⟨o, rfl, h, hs⟩
  | op :: ops, s, s', o, n, outs, hs, h, hp, hr => by
    simp only [run] at hr
    cases hst : step e s op with
    | none => rw [hst] at hr; cases hr
    | some q =>
      obtain ⟨s1, r⟩ := q
      rw [hst] at hr
      simp only at hr
      cases hr2 : run e s1 ops with
      | none => rw [hr2] at hr; cases hr
      | some q2 =>
        obtain ⟨s2, rs⟩ := q2
        rw [hr2] at hr
        cases hr
        obtain ⟨o1, e1, g1⟩ := good_step hs h (hp op (by simp)) hst
        have hs1 : 0 < s1.length := by
          rw [← good_length g1, events_length _ e1, good_length h]; exact hs
        obtain ⟨o2, e2, g2, hs2⟩ := good_run ops hs1 g1 (fun x hx => hp x (by simp [hx])) hr2
        refine ⟨o2, ?_, ?_, hs2⟩
        · simp only [lrun, lstep, hst, e1, Option.map_some, Option.bind_some, e2]
        · simp only [overwrites, hst]
          rw [← Nat.add_assoc]
          exact g2

theorem good_start (e : Env K V) (raws : List V) : Good e (init e raws) (start raws.length) 0 := by
  have h1 : occupied e (init e raws) = List.replicate raws.length false := by
    simp [occupied, init, Function.comp_def, List.map_const']
  refine ⟨by rw [h1]; rfl, ?_, rfl⟩
  rw [size_occupied, h1]
  simp [start, List.countP_replicate]

/-! ## C78 -/

/-- **C78 (partial).**  For trivial keys and any mapped type: in every history of a map without `m[k]` and `clear()` that the
map itself gets through (C21, C22), no operation touches a mapped value that is not alive; at the end the living mapped
values are exactly those of the elements; and the values constructed are those destroyed, those of the `size()` elements, and
one lost for every `insert_or_assign` to a key that was there.  Partial: `m[k]`, `clear()`, `gc_active`, `erase_and_gc`,
insertions that throw and keys with destructors, see below. -/
theorem map_lifetimes_partial (e : Env K V) (raws : List V) (hr : raws ≠ []) (ops : List (Op K V))
    (hp : ∀ op ∈ ops, Op.plain op = true) (s : Slots K V) (outs : List (Out V))
    (h : run e (init e raws) ops = some (s, outs)) :
    ∃ o, lrun true e (init e raws, start raws.length) ops = some (s, o) ∧
      (∀ (i : Nat) x, s[i]? = some x → (o.live[i]? = some true ↔ x.key ≠ e.null)) ∧
      o.made = o.gone + o.lost + size e s ∧ o.lost = overwrites e (init e raws) ops := by
  obtain ⟨o, e1, g, -⟩ := good_run ops (by simpa [init] using List.length_pos_iff.mpr hr) (good_start e raws) hp h
  refine ⟨o, e1, ?_, g.bal, by simpa using g.lost⟩
  intro i x hx
  rw [g.live, occupied_get hx]
  simp

/-- a history with two elements that share a slot range, one erased, one overwritten -/
example : (lrun true (intEnv (some ⟨0, 0⟩) none) (fresh (intEnv (some ⟨0, 0⟩) none) 8, start 8)
      [.insert 2 20, .insert 4 40, .assign 4 41, .erase 2, .insert 6 60, .find 4]).map (·.2) =
    some ⟨[true, true, false, false, false, false, false, false], List.replicate 8 true, 4, 1, 1, 0⟩ := by
  decide +kernel

/-- **C78 (partial).**  Without `insert_or_assign` no object is lost. -/
theorem no_assign_no_loss_partial (e : Env K V) (raws : List V) (hr : raws ≠ []) (ops : List (Op K V))
    (hp : ∀ op ∈ ops, Op.plain op = true) (ha : ∀ op ∈ ops, ∀ k v, op ≠ .assign k v) (s : Slots K V) (outs : List (Out V))
    (h : run e (init e raws) ops = some (s, outs)) :
    ∃ o, lrun true e (init e raws, start raws.length) ops = some (s, o) ∧ o.lost = 0 ∧ o.made = o.gone + size e s := by
  obtain ⟨o, e1, -, h1, h2⟩ := map_lifetimes_partial e raws hr ops hp s outs h
  have h0 : ∀ (ops : List (Op K V)) (t : Slots K V), (∀ op ∈ ops, ∀ k v, op ≠ .assign k v) → overwrites e t ops = 0 := by
    intro ops
    induction ops with
    | nil => intro t _; rfl
    | cons op ops ih =>
      intro t ha
      simp only [overwrites]
      have : overwrite e t op = 0 := by
        cases op <;> try rfl
        rename_i k v
        exact absurd rfl (ha (.assign k v) (by simp) k v)
      rw [this]
      split
      · rw [ih _ (fun x hx => ha x (by simp [hx]))]
      · rfl
  rw [h0 ops _ ha] at h2
  exact ⟨o, e1, h2, by omega⟩

/-- **Violation.**  `insert_or_assign` to a key that is there loses the old mapped value: it is constructed over, its
destructor never runs. -/
theorem insert_or_assign_loses (e : Env K V) (raws : List V) (hr : raws ≠ []) (ops : List (Op K V))
    (hp : ∀ op ∈ ops, Op.plain op = true) (s s' : Slots K V) (outs : List (Out V)) (r : Out V)
    (h : run e (init e raws) ops = some (s, outs)) (k : K) (v : V) (i : Nat) (hk : find e s k = some (some i))
    (ha : step e s (.assign k v) = some (s', r)) :
    ∃ o o', lrun true e (init e raws, start raws.length) ops = some (s, o) ∧ o.live[i]? = some true ∧
      lstep true e (s, o) (.assign k v) = some (s', o') ∧ o'.lost = o.lost + 1 ∧ o'.gone = o.gone ∧
      size e s' = size e s := by
  obtain ⟨o, e1, g, hs⟩ := good_run ops (by simpa [init] using List.length_pos_iff.mpr hr) (good_start e raws) hp h
  obtain ⟨o', e2, g2⟩ := good_step hs g (op := .assign k v) rfl ha
  obtain ⟨u, hu⟩ := find_sound e s k hs i hk
  have hl : o.live[i]? = some true := by rw [g.live, occupied_get hu.1]; simp [hu.2]
  have e3 : o.events true [.ctor i, .use i] = some o' := by
    simpa [opEvents, assignEvents, hk] using e2
  have hi : i < o.live.length := (List.getElem?_eq_some_iff.mp hl).1
  have h1 : (o.live.set i true)[i]? = some true := by simp [hi]
  have e4 : o' = { o with live := o.live.set i true, made := o.made + 1, lost := o.lost + 1 } := by
    simp only [Objs.events, Objs.event, Option.bind_some, hl, h1, if_true, Option.some.injEq] at e3
    exact e3.symm
  refine ⟨o, o', e1, hl, by simp only [lstep, ha, e2, Option.map_some], by rw [e4], by rw [e4], ?_⟩
  have b1 := g.bal
  have b2 := g2.bal
  rw [e4] at b2
  simp only at b2
  omega

/-- **Violation.**  `m[k]` for a key that is not there and has a free slot returns a mapped value that was never
constructed. -/
theorem subscript_never_constructs (e : Env K V) (raws : List V) (hr : raws ≠ []) (ops : List (Op K V))
    (hp : ∀ op ∈ ops, Op.plain op = true) (s : Slots K V) (outs : List (Out V)) (h : run e (init e raws) ops = some (s, outs))
    (k : K) (i : Nat) (hk : find e s k = some none) (hf : precheck e s k = some (.fresh i)) :
    ∃ o, lrun true e (init e raws, start raws.length) ops = some (s, o) ∧ o.live[i]? ≠ some true ∧
      lstep true e (s, o) (.sub k) = none := by
  obtain ⟨o, e1, g, hs⟩ := good_run ops (by simpa [init] using List.length_pos_iff.mpr hr) (good_start e raws) hp h
  have hl : o.live[i]? ≠ some true := by
    by_cases hi : i < s.length
    · obtain ⟨-, x, hx, hn⟩ := (precheck_at hs k).1 i hf hi
      rw [g.live, occupied_get hx]
      simp [hn]
    · rw [List.getElem?_eq_none (by rw [good_length g]; omega)]
      simp
  refine ⟨o, e1, hl, ?_⟩
  have : o.events true (opEvents e s (.sub k)) = none := by
    simp [opEvents, subscriptEvents, hk, hf, Objs.events, Objs.event, hl]
  unfold lstep
  simp only [this]
  split <;> rfl

theorem clear_events : ∀ (l : List Nat), l.Nodup → ∀ (o : Objs),
    ((o.events true (l.flatMap destructEvents)).isSome = true ↔ ∀ i ∈ l, o.live[i]? = some true)
  | [], _, o => by simp [Objs.events]
  | i :: l, hn, o => by
    obtain ⟨hi, hn'⟩ := List.nodup_cons.mp hn
    simp only [List.flatMap_cons, destructEvents, List.cons_append, List.nil_append, Objs.events, Objs.event, if_true,
      Option.bind_some]
    by_cases hl : o.live[i]? = some true
    · simp only [hl, if_true, Option.bind_some]
      rw [clear_events l hn']
      simp only [List.mem_cons, forall_eq_or_imp, hl, true_and]
      constructor
      · intro h j hj
        have := h j hj
        rwa [List.getElem?_set_ne (by rintro rfl; exact hi hj)] at this
      · intro h j hj
        rw [List.getElem?_set_ne (by rintro rfl; exact hi hj)]
        exact h j hj
    · simp [hl]

/-- **Violation.**  `clear()` destroys a mapped value in every slot, also where there is none: it is defined only when the map
is completely full. -/
theorem clear_defined_iff_full (e : Env K V) (raws : List V) (hr : raws ≠ []) (ops : List (Op K V))
    (hp : ∀ op ∈ ops, Op.plain op = true) (s : Slots K V) (outs : List (Out V))
    (h : run e (init e raws) ops = some (s, outs)) :
    ∃ o, lrun true e (init e raws, start raws.length) ops = some (s, o) ∧
      ((lstep true e (s, o) .clear).isSome = true ↔ size e s = s.length) := by
  obtain ⟨o, e1, g, hs⟩ := good_run ops (by simpa [init] using List.length_pos_iff.mpr hr) (good_start e raws) hp h
  refine ⟨o, e1, ?_⟩
  have h1 : (lstep true e (s, o) .clear).isSome = (o.events true (opEvents e s .clear)).isSome := by
    simp [lstep, step]
  rw [h1]
  show (o.events true ((List.range s.length).flatMap destructEvents)).isSome = true ↔ _
  rw [clear_events _ List.nodup_range, g.live, size_occupied]
  rw [← occupied_length e s, List.countP_eq_length]
  constructor
  · intro hall a ha
    obtain ⟨i, hi, rfl⟩ := List.mem_iff_getElem.mp ha
    have := hall i (by simpa using hi)
    rw [List.getElem?_eq_getElem hi] at this
    simpa using this
  · intro hall i hi
    have hi' : i < (occupied e s).length := by simpa using hi
    rw [List.getElem?_eq_getElem hi']
    simpa using hall _ (List.getElem_mem hi')

example : (lrun true (intEnv (some ⟨0, 0⟩) none) (fresh (intEnv (some ⟨0, 0⟩) none) 8, start 8)
    [.insert 2 20, .clear]) = none := by decide +kernel

/-- The end of the map's life: neither `unordered_map` nor `unordered_base` declares a destructor, and `container_` is an array of
pairs of a key and a union of bytes (unordered/base.h:61, unordered/traits.h:83-104), whose destruction does nothing to a mapped
value. -/
def endEvents : List Ev := []

/-- **Violation.**  The mapped values still in a map when it is destroyed are never destroyed: what was constructed exceeds what
was destroyed or lost by `size()`. -/
theorem end_of_map_leaks (e : Env K V) (raws : List V) (hr : raws ≠ []) (ops : List (Op K V))
    (hp : ∀ op ∈ ops, Op.plain op = true) (s : Slots K V) (outs : List (Out V))
    (h : run e (init e raws) ops = some (s, outs)) :
    ∃ o o', lrun true e (init e raws, start raws.length) ops = some (s, o) ∧ o.events true endEvents = some o' ∧
      o'.made - (o'.gone + o'.lost) = size e s := by
  obtain ⟨o, e1, -, h1, -⟩ := map_lifetimes_partial e raws hr ops hp s outs h
  exact ⟨o, o, e1, rfl, by omega⟩

/-! ## Insertions that throw -/

/-- `emplace` / `insert` / `try_emplace`, unordered_map.h:196-274, whose mapped value's constructor throws: the pair's
constructor has written the key (`new (ret.first) value_type(…)`, 202, 218, 242, 257, 271), which is trivial and stays; `w` is
what the failed constructor left. -/
def insertThrows (e : Env K V) (x : Slots K V × Objs) (k : K) (w : V) : Option (Slots K V × Objs) :=
  match precheck e x.1 k with
  | some (.fresh i) => if i < x.1.length then some (x.1.set i ⟨k, w⟩, x.2) else none
  | some _ => some x
  | none => none

/-- **Violation.**  An insertion that throws leaves an element without a mapped value: `size()` is one more, a lookup finds the
key, but looking at its value or erasing it is undefined. -/
theorem throwing_insert_dead_element (e : Env K V) (raws : List V) (hr : raws ≠ []) (ops : List (Op K V))
    (hp : ∀ op ∈ ops, Op.plain op = true) (s : Slots K V) (outs : List (Out V)) (h : run e (init e raws) ops = some (s, outs))
    (k : K) (w : V) (i : Nat) (hf : precheck e s k = some (.fresh i)) (hi : i < s.length) :
    ∃ o, lrun true e (init e raws, start raws.length) ops = some (s, o) ∧
      ∃ s', insertThrows e (s, o) k w = some (s', o) ∧ size e s' = size e s + 1 ∧ contains e s' k = some true ∧
        lstep true e (s', o) (.find k) = none ∧ lstep true e (s', o) (.erase k) = none := by
  obtain ⟨o, e1, g, hs⟩ := good_run ops (by simpa [init] using List.length_pos_iff.mpr hr) (good_start e raws) hp h
  obtain ⟨hk, x, hx, hn⟩ := (precheck_at hs k).1 i hf hi
  have hl : o.live[i]? = some false := by rw [g.live, occupied_get hx]; simp [hn]
  have hfind : find e (s.set i ⟨k, w⟩) k = some (some i) := by
    obtain ⟨j, h1, h2, h3, h4⟩ := precheck_cases e s k hs hk
    have hj : j = i := by
      rcases h4 with ⟨h4, h5⟩ | ⟨y, hy, hn, h5⟩ | ⟨y, hy, hn, hne, h5⟩ | ⟨y, hy, hyk, h5⟩
      · rw [h5] at hf
        cases hh : e.hi with
        | none => rw [hh] at hf; cases hf
        | some z =>
          rw [hh] at hf
          simp only [Option.map_some, Option.some.injEq] at hf
          split at hf <;> cases hf
          rfl
      · rw [h5] at hf; cases hf; rfl
      · rw [h5] at hf; cases hf
      · rw [h5] at hf; cases hf
    subst hj
    have hd : index e s.length k + (j - index e s.length k) = j := by omega
    rw [find, if_neg hk]
    simp only [List.length_set]
    have hsk := find_skip e s.length (index e s.length k) k (s.set j ⟨k, w⟩) (j - index e s.length k)
      (index e s.length k) (by
        rw [hd]
        intro q hq1 hq2
        obtain ⟨y, hy, a, b, c⟩ := h3 q hq1 hq2
        exact ⟨y, by rw [List.getElem?_set_ne (by omega)]; exact hy, Or.inr ⟨a, b, c⟩⟩)
    rw [hd] at hsk
    rw [hsk, drop_of_get (x := ⟨k, w⟩) (by simp [hi]), findScan, if_neg (by simp [isSparse_false_of_active (e := e) (x := ⟨k, w⟩) hk]),
      if_neg (by simp [isEmpty, hk]), if_neg (by simp), if_pos rfl]
  have hev : ∀ l, o.events true (.use i :: l) = none ∧ o.events true (.kdtor i :: .dtor i :: l) = none := by
    intro l
    simp [Objs.events, Objs.event, hl]
  refine ⟨o, e1, s.set i ⟨k, w⟩, by simp [insertThrows, hf, hi], ?_, by simp [contains, hfind], ?_, ?_⟩
  · rw [size_occupied, size_occupied, occupied_set, List.countP_set (by rw [occupied_length]; exact hi)]
    have : (occupied e s)[i]'(by rw [occupied_length]; exact hi) = false := by
      have := (List.getElem?_eq_some_iff.mp (occupied_get (e := e) hx)).2
      rw [this]; simp [hn]
    rw [this]
    simp [hk]
  · have : o.events true (opEvents e (s.set i ⟨k, w⟩) (.find k)) = none := by
      simp only [opEvents, hfind]; exact (hev []).1
    unfold lstep
    simp only [this]
    split <;> rfl
  · have : o.events true (opEvents e (s.set i ⟨k, w⟩) (.erase k)) = none := by
      simp only [opEvents, hfind]; exact (hev _).2
    unfold lstep
    simp only [this]
    split <;> rfl

example : precheck (intEnv (some ⟨0, 0⟩) none) (fresh (intEnv (some ⟨0, 0⟩) none) 8) 2 = some (.fresh 0) := by decide +kernel

/-! ## Moving elements -/

/-- `gc_active`, unordered_map.h:307-310 with 106-138: `traits::swap` (unordered/traits.h:107-112) of an empty slot and the
element uses both mapped values -/
def gcEvents (e : Env K V) (s : Slots K V) (p : Nat) : List Ev :=
  match gcActive e s p with
  | some (_, q) => if q = p then [] else [.use q, .use p]
  | none => []

/-- `erase_and_gc`, unordered_map.h:385-393 with unordered/base.h:449-470: the element is destroyed (453, the map's mapped value
through base.h:75-79), then swapped (469) with slot `pos` -/
def eraseGcEvents (e : Env K V) (s : Slots K V) (p : Nat) : List Ev :=
  [.dtor p, .kset p] ++
  match s[p + 1]? with
  | none => []
  | some y => if isEmpty e y then [] else
    match lastScan e s.length p (s.drop (p + 1)) (p + 1) with
    | none => []
    | some j => [.use (j - 1), .use p]

theorem gcTarget_empty (e : Env K V) (n : Nat) (s : Slots K V) : ∀ (l : Slots K V) (i : Nat),
    (∀ (j : Nat) y, l[j]? = some y → s[i + j]? = some y) → ∀ q, gcTarget e n l i = some q →
    ∃ y, s[q]? = some y ∧ y.key = e.null
  | [], i, _, q, h => by cases h
  | x :: xs, i, hl, q, h => by
    unfold gcTarget at h
    split at h
    · rename_i hx
      split at h
      · cases h
      · cases h
        exact ⟨x, hl 0 x rfl, by simpa [isEmpty] using hx⟩
    · refine gcTarget_empty e n s xs (i + 1) (fun j y hj => ?_) q h
      have := hl (j + 1) y (by simpa using hj)
      rwa [show i + 1 + j = i + (j + 1) by omega]

/-- **Violation.**  `gc_active` that moves an element swaps it with a mapped value that is not there; `erase_and_gc` of an element
whose next slot is taken swaps the mapped value it has just destroyed. -/
theorem moving_uses_dead (e : Env K V) (raws : List V) (hr : raws ≠ []) (ops : List (Op K V))
    (hp : ∀ op ∈ ops, Op.plain op = true) (s : Slots K V) (outs : List (Out V))
    (h : run e (init e raws) ops = some (s, outs)) :
    ∃ o, lrun true e (init e raws, start raws.length) ops = some (s, o) ∧
      (∀ p q s', gcActive e s p = some (s', q) → q ≠ p → o.events true (gcEvents e s p) = none) ∧
      (∀ (p : Nat) y s', s[p + 1]? = some y → y.key ≠ e.null → eraseGcAt e s p = some s' →
        o.events true (eraseGcEvents e s p) = none) := by
  obtain ⟨o, e1, g, hs⟩ := good_run ops (by simpa [init] using List.length_pos_iff.mpr hr) (good_start e raws) hp h
  refine ⟨o, e1, ?_, ?_⟩
  · intro p q s' hg hne
    have hq : o.live[q]? = some false := by
      unfold gcActive at hg
      split at hg
      · cases hg
      · rename_i x hx
        simp only at hg
        split at hg
        · cases hg; exact absurd rfl hne
        · rename_i r hr
          have hrq : r = q := by
            cases hsw : swapSlots s r p with
            | none => rw [hsw] at hg; cases hg
            | some t => rw [hsw] at hg; cases hg; rfl
          subst hrq
          obtain ⟨y, hy, hn⟩ := gcTarget_empty e _ s _ _ (by
            intro j y hj
            rw [List.getElem?_drop, List.getElem?_take] at hj
            split at hj
            · exact hj
            · cases hj) _ hr
          rw [g.live, occupied_get hy]
          simp [hn]
    simp [gcEvents, hg, hne, Objs.events, Objs.event, hq]
  · intro p y s' hy hn he
    unfold eraseGcAt at he
    split at he
    · cases he
    · rename_i x hx
      simp only [hy] at he
      have hne : isEmpty e y = false := by simp [isEmpty, hn]
      simp only [hne, Bool.false_eq_true, if_false] at he
      simp only [eraseGcEvents, hy, hne, Bool.false_eq_true, if_false]
      cases hls : lastScan e s.length p (s.drop (p + 1)) (p + 1) with
      | none => rw [hls] at he; cases he
      | some j =>
        by_cases hl : o.live[p]? = some true
        · have hi : p < o.live.length := (List.getElem?_eq_some_iff.mp hl).1
          have hd : (o.live.set p false)[p]? = some false := by simp [hi]
          simp only [List.cons_append, List.nil_append, Objs.events, Objs.event, hl, if_true, Option.bind_some]
          cases (o.live.set p false)[j - 1]? with
          | none => simp
          | some b => cases b <;> simp [hd]
        · simp [Objs.events, Objs.event, hl]

/-! ## Keys with destructors -/

theorem size_fill {e : Env K V} {s : Slots K V} {i : Nat} {x y : Slot K V} (hx : s[i]? = some x) (he : x.key = e.null)
    (hy : y.key ≠ e.null) : size e (s.set i y) = size e s + 1 := by
  have hi : i < (occupied e s).length := by rw [occupied_length]; exact get_lt hx
  rw [size_occupied, size_occupied, occupied_set, List.countP_set hi]
  have : (occupied e s)[i] = false := by
    have := (List.getElem?_eq_some_iff.mp (occupied_get (e := e) hx)).2
    rw [this]; simp [he]
  rw [this]
  simp [hy]

/-- erasing the element in slot `p` -/
theorem destruct_dead_key (o : Objs) (p : Nat) : o.events false (destructEvents p) = none := by
  simp only [destructEvents, Objs.events, Objs.event, Bool.false_eq_true, if_false]
  by_cases hk : o.keys[p]? = some true
  · have hi : p < o.keys.length := (List.getElem?_eq_some_iff.mp hk).1
    simp only [hk, if_true, Option.bind_some]
    by_cases hl : o.live[p]? = some true
    · simp [hl, hi]
    · simp [hl]
  · simp [hk]

theorem keys_event {o o' : Objs} {i : Nat} {n : Nat} (hk : o.keys = List.replicate n true) (hi : i < n)
    (h : o.events false [.kctor i, .ctor i, .use i] = some o') :
    o'.keys = List.replicate n true ∧ o'.lostKeys = o.lostKeys + 1 := by
  have h1 : o.keys[i]? = some true := by rw [hk]; simp [hi]
  simp only [Objs.events, Objs.event, Bool.false_eq_true, if_false, h1, if_true, Option.bind_some] at h
  split at h
  · cases h
    exact ⟨by rw [← hk]; exact set_same h1, rfl⟩
  · cases h

theorem use_event {o o' : Objs} {t : Bool} {i : Nat} (h : o.events t [.use i] = some o') : o' = o := by
  simp only [Objs.events, Objs.event] at h
  split at h <;> cases h
  rfl

theorem over_event {o o' : Objs} {t : Bool} {i : Nat} (h : o.events t [.ctor i, .use i] = some o') :
    o'.keys = o.keys ∧ o'.lostKeys = o.lostKeys := by
  simp only [Objs.events, Objs.event, Option.bind_some] at h
  split at h <;> cases h
  exact ⟨rfl, rfl⟩

theorem keys_insert {e : Env K V} {s s' : Slots K V} {o o' : Objs} {k : K} {v : V} {r : InsRes} (hs : 0 < s.length)
    (hk : o.keys = List.replicate s.length true) (hi : insert e s k v = some (s', r))
    (h : o.events false (insertEvents e s k) = some o') :
    s'.length = s.length ∧ o'.keys = List.replicate s.length true ∧ o'.lostKeys + size e s = o.lostKeys + size e s' := by
  obtain ⟨h1, h2⟩ := precheck_at (e := e) hs k
  unfold insert at hi
  unfold insertEvents at h
  split at hi
  · cases hi
  · rename_i i hp
    split at hi
    · rename_i hlt
      cases hi
      obtain ⟨hkn, x, hx, he⟩ := h1 i hp hlt
      rw [hp] at h
      obtain ⟨a, b⟩ := keys_event hk hlt h
      refine ⟨by simp, a, ?_⟩
      rw [size_fill hx he (y := ⟨k, v⟩) hkn, b]
      omega
    · cases hi
  · rename_i i hp
    cases hi
    rw [hp] at h
    cases use_event h
    exact ⟨rfl, hk, rfl⟩
  · rename_i hp
    cases hi
    rw [hp] at h
    cases h
    exact ⟨rfl, hk, rfl⟩

theorem keys_step {e : Env K V} {s s' : Slots K V} {o o' : Objs} {op : Op K V} (hs : 0 < s.length)
    (hk : o.keys = List.replicate s.length true) (hp : Op.plain op = true)
    (h : lstep false e (s, o) op = some (s', o')) :
    s'.length = s.length ∧ o'.keys = List.replicate s.length true ∧ o'.lostKeys + size e s = o.lostKeys + size e s' := by
  unfold lstep at h
  simp only at h
  split at h
  · cases h
  · rename_i a r hst
    cases hev : o.events false (opEvents e s op) with
    | none => rw [hev] at h; cases h
    | some o1 =>
      rw [hev] at h
      cases h
      cases op with
      | insert k v =>
        simp only [step] at hst
        split at hst
        · cases hst
        · rename_i a b hq
          have : a = s' := by
            cases hsn : seen a b with
            | none => rw [hsn] at hst; cases hst
            | some y => rw [hsn] at hst; cases hst; rfl
          subst this
          exact keys_insert hs hk hq hev
      | assign k v =>
        simp only [step] at hst
        split at hst
        · cases hst
        · rename_i a b hq
          have : a = s' := by
            cases hsn : seen a b with
            | none => rw [hsn] at hst; cases hst
            | some y => rw [hsn] at hst; cases hst; rfl
          subst this
          simp only [opEvents, assignEvents] at hev
          unfold insertOrAssign at hq
          cases hf : find e s k with
          | none => rw [hf] at hq; cases hq
          | some f =>
            rw [hf] at hq hev
            cases f with
            | none => exact keys_insert hs hk hq hev
            | some i =>
              obtain ⟨u, hu⟩ := find_sound e s k hs i hf
              simp only [hu.1, Option.some.injEq, Prod.mk.injEq] at hq
              obtain ⟨c, d⟩ := over_event hev
              rw [← hq.1]
              refine ⟨by simp, by rw [c]; exact hk, ?_⟩
              have : occupied e (s.set i ⟨k, v⟩) = occupied e s := by
                rw [occupied_set]; exact set_same (by rw [occupied_get hu.1])
              rw [d, size_occupied, size_occupied, this]
      | sub k => cases hp
      | clear => cases hp
      | erase k =>
        simp only [step, erase] at hst
        simp only [opEvents] at hev
        cases hf : find e s k with
        | none => rw [hf] at hst; cases hst
        | some f =>
          rw [hf] at hst hev
          cases f with
          | none => cases hst; cases hev; exact ⟨rfl, hk, rfl⟩
          | some p =>
            simp only at hev
            rw [destruct_dead_key] at hev
            cases hev
      | find k =>
        simp only [step] at hst
        cases hq : lookup e s k with
        | none => rw [hq] at hst; cases hst
        | some b =>
          rw [hq] at hst
          cases hst
          simp only [opEvents] at hev
          split at hev
          · cases use_event hev; exact ⟨rfl, hk, rfl⟩
          · cases hev; exact ⟨rfl, hk, rfl⟩
      | contains k =>
        simp only [step] at hst
        cases hq : contains e s k with
        | none => rw [hq] at hst; cases hst
        | some b => rw [hq] at hst; cases hst; cases hev; exact ⟨rfl, hk, rfl⟩
      | count k =>
        simp only [step] at hst
        cases hq : count e s k with
        | none => rw [hq] at hst; cases hst
        | some b => rw [hq] at hst; cases hst; cases hev; exact ⟨rfl, hk, rfl⟩
      | size => cases hst; cases hev; exact ⟨rfl, hk, rfl⟩
      | isEmpty => cases hst; cases hev; exact ⟨rfl, hk, rfl⟩

theorem keys_run {e : Env K V} : ∀ (ops : List (Op K V)) {s s' : Slots K V} {o o' : Objs}, 0 < s.length →
    o.keys = List.replicate s.length true → (∀ op ∈ ops, Op.plain op = true) → lrun false e (s, o) ops = some (s', o') →
    o'.lostKeys + size e s = o.lostKeys + size e s'
  | [], s, s', o, o', _, _, _, h => by cases h; rfl
  | op :: ops, s, s', o, o', hs, hk, hp, h => by
    simp only [lrun] at h
    cases hst : lstep false e (s, o) op with
    | none => rw [hst] at h; cases h
    | some q =>
      obtain ⟨s1, o1⟩ := q
      rw [hst] at h
      obtain ⟨a, b, c⟩ := keys_step hs hk (hp op (by simp)) hst
      have := keys_run ops (by omega) (by rw [a]; exact b) (fun x hx => hp x (by simp [hx])) h
      omega

/-- **Violation.**  With keys that have destructors: every element inserted loses a key object (the one that was in the slot),
and erasing an element is undefined always, since the key is assigned to after it was destroyed. -/
theorem class_keys_broken (e : Env K V) (raws : List V) (hr : raws ≠ []) (ops : List (Op K V))
    (hp : ∀ op ∈ ops, Op.plain op = true) (s : Slots K V) (o : Objs)
    (h : lrun false e (init e raws, start raws.length) ops = some (s, o)) :
    o.lostKeys = size e s ∧ ∀ k p, find e s k = some (some p) → lstep false e (s, o) (.erase k) = none := by
  constructor
  · have h0 : size e (init e raws) = 0 := by
      rw [size_occupied, ← (good_start e raws).live]
      simp [start, List.countP_replicate]
    have := keys_run ops (by simpa [init] using List.length_pos_iff.mpr hr) (by simp [start, init]) hp h
    rw [h0] at this
    simpa [start] using this
  · intro k p hf
    have : o.events false (opEvents e s (.erase k)) = none := by
      simp only [opEvents, hf]; exact destruct_dead_key o p
    unfold lstep
    simp only [this]
    split <;> rfl

example : (lrun false (intEnv (some ⟨0, 0⟩) none) (fresh (intEnv (some ⟨0, 0⟩) none) 8, start 8)
      [.insert 2 20, .insert 4 40, .find 4]).map (·.2.lostKeys) = some 2 := by decide +kernel

end Verif.Unordered.Life
