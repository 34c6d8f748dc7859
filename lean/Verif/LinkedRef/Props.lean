import Verif.LinkedRef.Spec
import Mathlib.Data.List.Nodup
import Mathlib.Tactic.Tauto

/-!
# C30: the ring of linked references
-/
namespace Verif.LinkedRef
open Spec (Ref Refs)

/-! ## Rings -/

/-- each node's `next` is the following node of the list, the last one's is `b` -/
def Link (f : Nat → Option (Option Nat)) : List Nat → Nat → Prop
  | [], _ => True
  | a :: l, b => f a = some (some (l.headD b)) ∧ Link f l b

def Ring (f : Nat → Option (Option Nat)) : List Nat → Prop
  | [] => False
  | a :: t => Link f (a :: t) a

theorem link_append {f : Nat → Option (Option Nat)} {l1 l2 : List Nat} {b : Nat} :
    Link f (l1 ++ l2) b ↔ Link f l1 (l2.headD b) ∧ Link f l2 b := by
  induction l1 with
  | nil => simp [Link]
  | cons a l1 ih =>
    simp only [List.cons_append, Link, ih]
    have : (l1 ++ l2).headD b = l1.headD (l2.headD b) := by cases l1 <;> rfl
    rw [this]
    exact ⟨fun ⟨h1, h2, h3⟩ => ⟨⟨h1, h2⟩, h3⟩, fun ⟨⟨h1, h2⟩, h3⟩ => ⟨h1, h2, h3⟩⟩

theorem link_congr {f f' : Nat → Option (Option Nat)} {l : List Nat} {b : Nat} (h : ∀ a ∈ l, f' a = f a) :
    Link f l b → Link f' l b := by
  induction l with
  | nil => exact id
  | cons a l ih =>
    rintro ⟨h1, h2⟩
    exact ⟨by rw [h a (by simp)]; exact h1, ih (fun x hx => h x (by simp [hx])) h2⟩

theorem ring_congr {f f' : Nat → Option (Option Nat)} {l : List Nat} (h : ∀ a ∈ l, f' a = f a) :
    Ring f l → Ring f' l := by
  cases l with
  | nil => exact id
  | cons a t => exact link_congr h

/-- a ring can be read from any of its nodes -/
theorem ring_rotate {f : Nat → Option (Option Nat)} {l : List Nat} {x : Nat} (h : Ring f l) (hnd : l.Nodup)
    (hx : x ∈ l) : ∃ t, Ring f (x :: t) ∧ (x :: t).Nodup ∧ ∀ a, a ∈ x :: t ↔ a ∈ l := by
  obtain ⟨l1, l2, rfl⟩ := List.append_of_mem hx
  cases l1 with
  | nil => exact ⟨l2, h, hnd, fun _ => Iff.rfl⟩
  | cons c l1 =>
    refine ⟨l2 ++ c :: l1, ?_, ?_, ?_⟩
    · have h' : Link f ((c :: l1) ++ (x :: l2)) c := h
      obtain ⟨h1, h2⟩ := link_append.mp h'
      show Link f ((x :: l2) ++ (c :: l1)) x
      exact link_append.mpr ⟨h2, h1⟩
    · have := List.nodup_append_comm.mp hnd
      simpa using this
    · intro a
      simp only [List.mem_cons, List.mem_append]
      tauto

theorem link_last {f : Nat → Option (Option Nat)} {l : List Nat} {p b : Nat} (h : Link f (l ++ [p]) b) :
    f p = some (some b) := by
  obtain ⟨-, h2⟩ := link_append.mp h
  exact h2.1

/-! ## Abstraction -/

def refOf : Option Node → Ref
  | none => .gone
  | some ⟨_, none⟩ => .moved
  | some ⟨o, some _⟩ => .shares o

def State.refs (s : State) : Refs := ⟨s.nodes.map refOf, s.log⟩

structure Inv (s : State) : Prop where
  fresh : ∀ (a o : Nat), s.refs.refs[a]? = some (.shares o) → o < s.nodes.length
  ring : ∀ (x o : Nat), s.refs.refs[x]? = some (.shares o) →
    ∃ l, Ring s.nextOf l ∧ l.Nodup ∧ ∀ a, a ∈ l ↔ s.refs.refs[a]? = some (.shares o)

theorem refs_get (s : State) (a : Nat) : s.refs.refs[a]? = (s.nodes[a]?).map refOf := by
  simp [State.refs]

theorem refs_length (s : State) : s.refs.refs.length = s.nodes.length := by simp [State.refs]

theorem shares_get {s : State} {x o : Nat} (h : s.refs.refs[x]? = some (.shares o)) :
    ∃ n, s.nodes[x]? = some (some ⟨o, some n⟩) := by
  rw [refs_get] at h
  cases e : s.nodes[x]? with
  | none => simp [e] at h
  | some v =>
    rw [e] at h
    match v with
    | none => simp [refOf] at h
    | some ⟨_, none⟩ => simp [refOf] at h
    | some ⟨o', some n⟩ => simp [refOf] at h; subst h; exact ⟨n, rfl⟩

theorem nextOf_eq {s : State} {x o : Nat} {n : Option Nat} (h : s.nodes[x]? = some (some ⟨o, n⟩)) :
    s.nextOf x = some n := by simp [State.nextOf, State.get, rd, h]

theorem get_eq {s : State} {x : Nat} {n : Node} (h : s.nodes[x]? = some (some n)) :
    s.get x = some n := by simp [State.get, rd, h]

theorem nextOf_congr {s s' : State} {a : Nat} (h : s'.nodes[a]? = s.nodes[a]?) : s'.nextOf a = s.nextOf a := by
  simp [State.nextOf, State.get, rd, h]

/-- the ring read from a given reference -/
theorem Inv.ring_at {s : State} (hi : Inv s) {x o : Nat} (h : s.refs.refs[x]? = some (.shares o)) :
    ∃ t, Ring s.nextOf (x :: t) ∧ (x :: t).Nodup ∧ ∀ a, a ∈ x :: t ↔ s.refs.refs[a]? = some (.shares o) := by
  obtain ⟨l, h1, h2, h3⟩ := hi.ring x o h
  obtain ⟨t, g1, g2, g3⟩ := ring_rotate h1 h2 ((h3 x).mpr h)
  exact ⟨t, g1, g2, fun a => by rw [g3, h3]⟩

/-- distinct indices holding the value `r`, all of them, number `count r` -/
theorem nodup_count {α} [BEq α] [LawfulBEq α] (m : List α) (r : α) (l : List Nat) (hnd : l.Nodup)
    (hm : ∀ a, a ∈ l ↔ m[a]? = some r) : l.length = m.count r := by
  induction m generalizing l with
  | nil =>
    cases l with
    | nil => rfl
    | cons a l => exact absurd ((hm a).mp (by simp)) (by simp)
  | cons b m ih =>
    -- the indices other than 0, shifted down
    let l' := (l.erase 0).map (· - 1)
    have hmem : ∀ a, a ∈ l.erase 0 ↔ a ≠ 0 ∧ a ∈ l := fun a => List.Nodup.mem_erase_iff hnd
    have hnd' : l'.Nodup := by
      refine List.Nodup.map_on ?_ (hnd.erase 0)
      intro x hx y hy hxy
      have := (hmem x).mp hx
      have := (hmem y).mp hy
      omega
    have hm' : ∀ a, a ∈ l' ↔ m[a]? = some r := by
      intro a
      simp only [l', List.mem_map]
      constructor
      · rintro ⟨c, hc, rfl⟩
        obtain ⟨h0, hc⟩ := (hmem c).mp hc
        have := (hm c).mp hc
        obtain ⟨k, rfl⟩ : ∃ k, c = k + 1 := ⟨c - 1, by omega⟩
        simpa using this
      · intro h
        exact ⟨a + 1, (hmem _).mpr ⟨by omega, (hm _).mpr (by simpa using h)⟩, by omega⟩
    have hl := ih l' hnd' hm'
    simp only [l', List.length_map, List.length_erase] at hl
    rw [List.count_cons, ← hl]
    have h0 : 0 ∈ l ↔ b = r := by rw [hm 0]; simp
    by_cases hb : b = r
    · have h0' := h0.mpr hb
      have : 0 < l.length := List.length_pos_of_mem h0'
      simp [hb, h0']
      omega
    · have h0' : 0 ∉ l := fun h => hb (h0.mp h)
      simp [hb, h0']

theorem Inv.ring_length {s : State} {o : Nat} {l : List Nat} (hnd : l.Nodup)
    (hm : ∀ a, a ∈ l ↔ s.refs.refs[a]? = some (.shares o)) :
    l.length = s.refs.sharing o ∧ l.length ≤ s.nodes.length := by
  have h := nodup_count s.refs.refs (Ref.shares o) l hnd hm
  refine ⟨h, ?_⟩
  rw [h, ← refs_length]
  exact List.count_le_length

/-! ## Loops -/

theorem beforeBegin_ring (s : State) (x p : Nat) (t : List Nat) (c fuel : Nat) (hx : x ∉ t)
    (h : Link s.nextOf (c :: t) x) (hp : (c :: t).getLast? = some p) (hf : t.length < fuel) :
    beforeBegin s x fuel c = some p := by
  induction t generalizing c fuel with
  | nil =>
    obtain ⟨fuel, rfl⟩ : ∃ k, fuel = k + 1 := ⟨fuel - 1, by omega⟩
    simp at hp; subst hp
    obtain ⟨h1, -⟩ := h
    simp only [List.headD_nil] at h1
    simp [beforeBegin, h1]
  | cons d t ih =>
    obtain ⟨fuel, rfl⟩ : ∃ k, fuel = k + 1 := ⟨fuel - 1, by omega⟩
    obtain ⟨h1, h2⟩ := h
    simp only [List.headD_cons] at h1
    have hne : d ≠ x := fun h => hx (by simp [h])
    simp only [beforeBegin, h1, Option.some.injEq, if_neg hne]
    exact ih d fuel (fun h => hx (by simp [h])) h2 (by simpa using hp) (by simpa using hf)

theorem circle_ring (s : State) (x p : Nat) (t : List Nat) (c fuel k : Nat) (hx : x ∉ t)
    (h : Link s.nextOf (c :: t) x) (hp : (c :: t).getLast? = some p) (hf : t.length < fuel) :
    circle s x fuel c k = some (p, k + t.length) := by
  induction t generalizing c fuel k with
  | nil =>
    obtain ⟨fuel, rfl⟩ : ∃ k, fuel = k + 1 := ⟨fuel - 1, by omega⟩
    simp at hp; subst hp
    obtain ⟨h1, -⟩ := h
    simp only [List.headD_nil] at h1
    simp [circle, h1]
  | cons d t ih =>
    obtain ⟨fuel, rfl⟩ : ∃ k, fuel = k + 1 := ⟨fuel - 1, by omega⟩
    obtain ⟨h1, h2⟩ := h
    simp only [List.headD_cons] at h1
    have hne : d ≠ x := fun h => hx (by simp [h])
    simp only [circle, h1, Option.some.injEq, if_neg hne]
    rw [ih d fuel (k + 1) (fun h => hx (by simp [h])) h2 (by simpa using hp) (by simpa using hf)]
    simp; omega

theorem count_ring (s : State) (x : Nat) (t : List Nat) (c fuel k : Nat) (hx : x ∉ t)
    (h : Link s.nextOf (c :: t) x) (hf : t.length < fuel) :
    countLoop s x fuel c k = some (k + t.length) := by
  induction t generalizing c fuel k with
  | nil =>
    obtain ⟨fuel, rfl⟩ : ∃ k, fuel = k + 1 := ⟨fuel - 1, by omega⟩
    obtain ⟨h1, -⟩ := h
    simp only [List.headD_nil] at h1
    simp [countLoop, h1]
  | cons d t ih =>
    obtain ⟨fuel, rfl⟩ : ∃ k, fuel = k + 1 := ⟨fuel - 1, by omega⟩
    obtain ⟨h1, h2⟩ := h
    simp only [List.headD_cons] at h1
    have hne : d ≠ x := fun h => hx (by simp [h])
    simp only [countLoop, h1, if_neg hne]
    rw [ih d fuel (k + 1) (fun h => hx (by simp [h])) h2 (by simpa using hf)]
    simp; omega

theorem setNext_eq {s : State} {a : Nat} {n : Node} (v : Option Nat) (h : s.nodes[a]? = some (some n)) :
    s.setNext a v = some { s with nodes := s.nodes.set a (some { n with next := v }) } := by
  have hl : a < s.nodes.length := (List.getElem?_eq_some_iff.mp h).1
  simp [State.setNext, get_eq h, wr_lt hl]

/-! ## Rebuilding the invariant -/

/-- An operation that changes only the ring of object `o` and produces the ring `l` for it. -/
theorem inv_rebuild {s s' : State} {o : Nat} {l : List Nat} (hi : Inv s)
    (hlen : s.nodes.length ≤ s'.nodes.length) (ho : o < s'.nodes.length)
    (hring : l ≠ [] → Ring s'.nextOf l) (hnd : l.Nodup)
    (hmem : ∀ a, a ∈ l ↔ s'.refs.refs[a]? = some (.shares o))
    (hother : ∀ (a o' : Nat), o' ≠ o → (s'.refs.refs[a]? = some (.shares o') ↔ s.refs.refs[a]? = some (.shares o')))
    (hsame : ∀ a o', o' ≠ o → s.refs.refs[a]? = some (.shares o') → s'.nextOf a = s.nextOf a) : Inv s' := by
  constructor
  · intro a o' h
    by_cases he : o' = o
    · subst he; exact ho
    · have := hi.fresh a o' ((hother a o' he).mp h); omega
  · intro x o' h
    by_cases he : o' = o
    · subst he
      have hx := (hmem x).mpr h
      exact ⟨l, hring (List.ne_nil_of_mem hx), hnd, hmem⟩
    · obtain ⟨l', h1, h2, h3⟩ := hi.ring x o' ((hother x o' he).mp h)
      refine ⟨l', ring_congr (fun a ha => hsame a o' he ((h3 a).mp ha)) h1, h2, fun a => ?_⟩
      rw [h3, hother a o' he]

def StepOk (s : State) (op : Op) : Prop := ∃ s', step s op = some s' ∧ Inv s' ∧ s'.refs = s.refs.next op

theorem shares_of_some {s : State} {x : Nat} (h : s.refs.sharesSome x) :
    ∃ o, s.refs.refs[x]? = some (.shares o) ∧ s.refs.objectOf x = .shares o := by
  unfold Refs.sharesSome at h
  cases e : s.refs.objectOf x with
  | shares o =>
    refine ⟨o, ?_, rfl⟩
    unfold Refs.objectOf at e
    cases e2 : s.refs.refs[x]? with
    | none => simp [e2] at e
    | some r => simp [e2] at e; rw [e]
  | moved => simp [e] at h
  | gone => simp [e] at h

theorem create_ok (s : State) (hi : Inv s) : StepOk s .create := by
  refine ⟨create s, rfl, ?_, ?_⟩
  · have hr : (create s).refs.refs = s.refs.refs ++ [Ref.shares s.nodes.length] := by
      simp [create, State.refs, refOf]
    have hold : ∀ o' : Nat, s.refs.refs[s.nodes.length]? ≠ some (.shares o') := by
      intro o'
      rw [List.getElem?_eq_none (by rw [refs_length]; omega)]; simp
    have hnone : ∀ a : Nat, s.refs.refs[a]? ≠ some (.shares s.nodes.length) := by
      intro a h; have := hi.fresh a _ h; omega
    have hget : ∀ (a o' : Nat), (create s).refs.refs[a]? = some (.shares o') ↔
        (s.refs.refs[a]? = some (.shares o') ∨ (a = s.nodes.length ∧ o' = s.nodes.length)) := by
      intro a o'
      rw [hr, List.getElem?_append, refs_length]
      by_cases ha : a < s.nodes.length
      · rw [if_pos ha]
        constructor
        · exact Or.inl
        · rintro (h | ⟨h, -⟩)
          · exact h
          · omega
      · rw [if_neg ha]
        have : s.refs.refs[a]? = none := List.getElem?_eq_none (by rw [refs_length]; omega)
        rw [this]
        by_cases he : a = s.nodes.length
        · subst he; simp [eq_comm]
        · have : a - s.nodes.length ≠ 0 := by omega
          obtain ⟨k, hk⟩ : ∃ k, a - s.nodes.length = k + 1 := ⟨a - s.nodes.length - 1, by omega⟩
          simp [hk, he]
    have hnx : ∀ a, a < s.nodes.length → (create s).nextOf a = s.nextOf a := by
      intro a ha
      apply nextOf_congr
      simp only [create]
      exact List.getElem?_append_left ha
    refine inv_rebuild (o := s.nodes.length) (l := [s.nodes.length]) hi (by simp [create]) (by simp [create]) ?_ (by simp) ?_ ?_ ?_
    · intro _
      refine ⟨?_, trivial⟩
      exact nextOf_eq (o := s.nodes.length) (by simp [create])
    · intro a
      rw [hget]
      have := hnone a
      simp [this]
    · intro a o' ho'
      rw [hget]
      simp [ho']
    · intro a o' _ h
      have hl : a < s.refs.refs.length := (List.getElem?_eq_some_iff.mp h).1
      exact hnx a (by rwa [refs_length] at hl)
  · simp [create, State.refs, refOf, Refs.next]

theorem copy_ok (s : State) (x : Nat) (hi : Inv s) (hl : s.refs.sharesSome x) : StepOk s (.copy x) := by
  obtain ⟨o, ho, hobj⟩ := shares_of_some hl
  obtain ⟨n, hn⟩ := shares_get ho
  obtain ⟨t, hring, hnd, hmem⟩ := hi.ring_at ho
  have hx : x < s.nodes.length := (List.getElem?_eq_some_iff.mp hn).1
  let y := s.nodes.length
  let s' : State := { s with nodes := s.nodes.set x (some ⟨o, some y⟩) ++ [some ⟨o, some n⟩] }
  have hstep : step s (.copy x) = some s' := by
    have e1 : (s.nodes ++ [some ⟨o, none⟩])[x]? = some (some ⟨o, some n⟩) := by
      rw [List.getElem?_append_left hx]; exact hn
    simp only [step, copy, alloc, get_eq hn, insertAfter]
    rw [nextOf_eq (s := { s with nodes := s.nodes ++ [some ⟨o, none⟩] }) e1]
    simp only
    rw [setNext_eq (s := { s with nodes := s.nodes ++ [some ⟨o, none⟩] }) _ e1]
    simp only
    have e2 : ((s.nodes ++ [some (Node.mk o none)]).set x (some ⟨o, some s.nodes.length⟩))[s.nodes.length]? =
        some (some ⟨o, none⟩) := by
      rw [List.getElem?_set_ne (by omega)]; simp
    rw [setNext_eq (s := { s with nodes := (s.nodes ++ [some (Node.mk o none)]).set x (some ⟨o, some s.nodes.length⟩) }) _ e2]
    simp only [Option.some.injEq, s', y]
    congr 1
    rw [List.set_append_left _ _ hx, List.set_append_right _ _ (by simp)]
    simp
  have hget : ∀ a, s'.nodes[a]? = if a = y then some (some ⟨o, some n⟩) else if a = x then some (some ⟨o, some y⟩)
      else s.nodes[a]? := by
    intro a
    simp only [s', List.getElem?_append, List.length_set]
    by_cases ha : a < s.nodes.length
    · have : a ≠ y := by simp only [y]; omega
      rw [if_pos ha, if_neg this, List.getElem?_set]
      by_cases hax : x = a
      · subst hax; simp [hx]
      · have : ¬ a = x := fun h => hax h.symm
        simp [hax, this]
    · rw [if_neg ha]
      by_cases hay : a = y
      · subst hay; simp [y]
      · have : a ≠ x := by omega
        rw [if_neg hay, if_neg this, List.getElem?_eq_none (show s.nodes.length ≤ a by omega)]
        have : y < a := by simp only [y] at hay ⊢; omega
        apply List.getElem?_eq_none
        simp only [y] at this
        simp; omega
  have hxy : x ≠ y := by simp only [y]; omega
  have hrefs : s'.refs = s.refs.next (.copy x) := by
    simp only [Refs.next, hobj]
    simp only [State.refs, s', List.map_append, List.map_set]
    congr 1
    have : (s.nodes.map refOf).set x (refOf (some ⟨o, some y⟩)) = s.nodes.map refOf := by
      apply List.ext_getElem?
      intro i
      rw [List.getElem?_set]
      split
      · rename_i h; subst h
        simp [hx]
        have := (List.getElem?_eq_some_iff.mp hn).2
        rw [this]; rfl
      · rfl
    rw [this]; rfl
  have hrget : ∀ (a o' : Nat), s'.refs.refs[a]? = some (.shares o') ↔
      (s.refs.refs[a]? = some (.shares o') ∨ (a = y ∧ o' = o)) := by
    intro a o'
    rw [refs_get, refs_get, hget a]
    by_cases hay : a = y
    · subst hay
      rw [if_pos rfl]
      have : s.nodes[y]? = none := List.getElem?_eq_none (by simp [y])
      simp [this, refOf, eq_comm]
    · rw [if_neg hay]
      by_cases hax : a = x
      · subst hax
        rw [if_pos rfl, hn]
        simp [refOf, hay]
      · rw [if_neg hax]; simp [hay]
  refine ⟨s', hstep, ?_, hrefs⟩
  have hyt : y ∉ x :: t := by
    intro h
    have := (hmem y).mp h
    have := (List.getElem?_eq_some_iff.mp this).1
    rw [refs_length] at this
    simp only [y] at this; omega
  have hxt : x ∉ t := (List.nodup_cons.mp hnd).1
  have hnx : n = t.headD x := by
    have := hring.1
    rw [nextOf_eq hn] at this
    simpa using this
  refine inv_rebuild (o := o) (l := x :: y :: t) hi (by simp [s']) (by
      have := hi.fresh x o ho; simp [s']; omega) ?_ ?_ ?_ ?_ ?_
  · intro _
    refine ⟨?_, ?_, ?_⟩
    · exact nextOf_eq (o := o) (by rw [hget, if_neg hxy, if_pos rfl]; rfl)
    · exact nextOf_eq (o := o) (by rw [hget, if_pos rfl, hnx])
    · refine link_congr (f := s.nextOf) ?_ hring.2
      intro a ha
      apply nextOf_congr
      rw [hget, if_neg (fun h => hyt (by rw [← h]; simp [ha])), if_neg (fun h => hxt (by rw [← h]; exact ha))]
  · simp only [List.nodup_cons, List.mem_cons] at hnd hyt ⊢
    refine ⟨?_, ?_, hnd.2⟩
    · rintro (h | h)
      · exact hxy h
      · exact hxt h
    · exact fun h => hyt (Or.inr h)
  · intro a
    rw [hrget, ← hmem]
    simp only [List.mem_cons, and_true]
    constructor
    · rintro (h | h | h) <;> simp [h]
    · rintro ((h | h) | h) <;> simp [h]
  · intro a o' ho'
    rw [hrget]; simp [ho']
  · intro a o' ho' h
    apply nextOf_congr
    have ha : a ≠ x := by intro he; rw [he, ho] at h; simp at h; exact ho' h.symm
    have hay : a ≠ y := by
      intro he; rw [he] at h
      have := (List.getElem?_eq_some_iff.mp h).1
      rw [refs_length] at this; simp only [y] at this; omega
    rw [hget, if_neg hay, if_neg ha]

theorem notSole_tail {s : State} {x o : Nat} {t : List Nat} (hobj : s.refs.objectOf x = .shares o)
    (hnd : (x :: t).Nodup) (hmem : ∀ a, a ∈ x :: t ↔ s.refs.refs[a]? = some (.shares o)) :
    s.refs.sole x ↔ t = [] := by
  have h := (Inv.ring_length hnd hmem).1
  simp only [Refs.sole, hobj]
  rw [← h]
  cases t <;> simp

/-- the predecessor of `x` in its ring, when there is another reference -/
theorem pred_of_ring {s : State} {x o : Nat} {t : List Nat} (hring : Ring s.nextOf (x :: t)) (hnd : (x :: t).Nodup)
    (hmem : ∀ a, a ∈ x :: t ↔ s.refs.refs[a]? = some (.shares o)) (ht : t ≠ []) :
    ∃ t' p, t = t' ++ [p] ∧ p ≠ x ∧ p ∉ t' ∧ s.nodes[p]? = some (some ⟨o, some x⟩) := by
  obtain ⟨t', p, rfl⟩ : ∃ t' p, t = t' ++ [p] := ⟨t.dropLast, t.getLast ht, (List.dropLast_append_getLast ht).symm⟩
  have hp : p ∈ x :: (t' ++ [p]) := by simp
  obtain ⟨n, hn⟩ := shares_get ((hmem p).mp hp)
  have h1 := link_last hring.2
  rw [nextOf_eq hn] at h1
  refine ⟨t', p, rfl, ?_, ?_, by rw [hn]; simpa using h1⟩
  · rintro rfl; simp at hnd
  · intro h
    have := (List.nodup_cons.mp hnd).2
    exact (List.nodup_append.mp this).2.2 p h p (by simp) rfl

theorem move_ok (s : State) (x : Nat) (hi : Inv s) (hl : s.refs.sharesSome x) (hs : ¬ s.refs.sole x) :
    StepOk s (.move x) := by
  obtain ⟨o, ho, hobj⟩ := shares_of_some hl
  obtain ⟨n, hn⟩ := shares_get ho
  obtain ⟨t, hring, hnd, hmem⟩ := hi.ring_at ho
  have ht : t ≠ [] := fun h => hs ((notSole_tail hobj hnd hmem).mpr h)
  obtain ⟨t', p, hte, hpx, hpt, hp⟩ := pred_of_ring hring hnd hmem ht
  have hx : x < s.nodes.length := (List.getElem?_eq_some_iff.mp hn).1
  have hpl : p < s.nodes.length := (List.getElem?_eq_some_iff.mp hp).1
  have hxt : x ∉ t := (List.nodup_cons.mp hnd).1
  have hnx : n = t.headD x := by
    have := hring.1
    rw [nextOf_eq hn] at this
    simpa using this
  let y := s.nodes.length
  have hxy : x ≠ y := by simp only [y]; omega
  have hpy : p ≠ y := by simp only [y]; omega
  let A := s.nodes ++ [some (Node.mk o none)]
  have hA : ∀ a, a < s.nodes.length → A[a]? = s.nodes[a]? := fun a ha => List.getElem?_append_left ha
  have hAy : A[y]? = some (some ⟨o, none⟩) := by simp [A, y]
  have hAl : A.length = s.nodes.length + 1 := by simp [A]
  let B := A.set p (some (Node.mk o (some n)))
  let C := B.set p (some (Node.mk o (some y)))
  let D := C.set y (some (Node.mk o (some n)))
  let E := D.set x (some (Node.mk o none))
  have hBp : B[p]? = some (some ⟨o, some n⟩) := by
    simp only [B]; rw [List.getElem?_set_self (by omega)]
  have hCy : C[y]? = some (some ⟨o, none⟩) := by
    simp only [C, B]
    rw [List.getElem?_set_ne hpy, List.getElem?_set_ne hpy, hAy]
  have hDx : D[x]? = some (some ⟨o, some n⟩) := by
    simp only [D, C, B]
    rw [List.getElem?_set_ne (Ne.symm hxy), List.getElem?_set_ne hpx, List.getElem?_set_ne hpx, hA x hx, hn]
  have hloop : beforeBegin ⟨A, s.log⟩ x A.length x = some p := by
    refine beforeBegin_ring _ x p t x A.length hxt ?_ ?_ ?_
    · refine link_congr (f := s.nextOf) ?_ hring
      intro a ha
      apply nextOf_congr
      have := (List.getElem?_eq_some_iff.mp ((hmem a).mp ha)).1
      rw [refs_length] at this
      exact hA a this
    · rw [hte, ← List.cons_append, List.getLast?_append_cons]; rfl
    · have := (Inv.ring_length hnd hmem).2
      simp at this; omega
  have hstep : step s (.move x) = some ⟨E, s.log⟩ := by
    simp only [step, move, alloc, get_eq hn]
    rw [show (s.nodes ++ [some (Node.mk o none)]) = A from rfl, hloop]
    simp only [eraseAfter]
    rw [nextOf_eq (s := ⟨A, s.log⟩) ((hA p hpl).trans hp)]
    simp only
    rw [nextOf_eq (s := ⟨A, s.log⟩) ((hA x hx).trans hn)]
    simp only
    rw [setNext_eq (s := ⟨A, s.log⟩) _ ((hA p hpl).trans hp)]
    simp only [insertAfter]
    rw [nextOf_eq (s := ⟨B, s.log⟩) hBp]
    simp only
    rw [setNext_eq (s := ⟨B, s.log⟩) _ hBp]
    simp only
    rw [show s.nodes.length = y from rfl, setNext_eq (s := ⟨C, s.log⟩) _ hCy]
    simp only
    rw [setNext_eq (s := ⟨D, s.log⟩) _ hDx]
  have hEl : E.length = s.nodes.length + 1 := by simp [E, D, C, B, A]
  have hget : ∀ a, E[a]? = if a = x then some (some ⟨o, none⟩) else if a = y then some (some ⟨o, some n⟩)
      else if a = p then some (some ⟨o, some y⟩) else s.nodes[a]? := by
    intro a
    by_cases h1 : a = x
    · subst h1
      rw [if_pos rfl]
      simp only [E]
      rw [List.getElem?_set_self (by simp [D, C, B, A]; omega)]
    rw [if_neg h1]
    simp only [E]
    rw [List.getElem?_set_ne (fun h => h1 h.symm)]
    by_cases h2 : a = y
    · rw [if_pos h2, h2]
      simp only [D]
      rw [List.getElem?_set_self (by simp [C, B, A, y])]
    rw [if_neg h2]
    simp only [D]
    rw [List.getElem?_set_ne (fun h => h2 h.symm)]
    by_cases h3 : a = p
    · rw [if_pos h3, h3]
      simp only [C]
      rw [List.getElem?_set_self (by simp [B, A]; omega)]
    rw [if_neg h3]
    simp only [C, B]
    rw [List.getElem?_set_ne (fun h => h3 h.symm), List.getElem?_set_ne (fun h => h3 h.symm)]
    simp only [A]
    rw [List.getElem?_append]
    by_cases h4 : a < s.nodes.length
    · rw [if_pos h4]
    · rw [if_neg h4, List.getElem?_eq_none (show s.nodes.length ≤ a by omega)]
      apply List.getElem?_eq_none
      simp only [y] at h2
      simp; omega
  have hrefs : State.refs ⟨E, s.log⟩ = s.refs.next (.move x) := by
    simp only [Refs.next, hobj]
    simp only [State.refs]
    congr 1
    apply List.ext_getElem?
    intro i
    rw [List.getElem?_map, hget i]
    by_cases h1 : i = x
    · subst h1
      rw [if_pos rfl, List.getElem?_append_left (by simpa using hx), List.getElem?_set_self (by simpa using hx)]
      rfl
    rw [if_neg h1]
    by_cases h2 : i = y
    · rw [if_pos h2, h2]; simp [y, refOf]
    rw [if_neg h2]
    by_cases h4 : i < s.nodes.length
    · rw [List.getElem?_append_left (by simpa using h4), List.getElem?_set_ne (fun h => h1 h.symm), List.getElem?_map]
      by_cases h3 : i = p
      · rw [if_pos h3, h3, hp]; rfl
      · rw [if_neg h3]
    · have h3 : i ≠ p := by omega
      rw [if_neg h3, List.getElem?_eq_none (show s.nodes.length ≤ i by omega)]
      symm
      apply List.getElem?_eq_none
      simp only [y] at h2
      simp; omega
  refine ⟨⟨E, s.log⟩, hstep, ?_, hrefs⟩
  have hrget : ∀ (a o' : Nat), (State.refs ⟨E, s.log⟩).refs[a]? = some (.shares o') ↔
      (a ≠ x ∧ (s.refs.refs[a]? = some (.shares o') ∨ (a = y ∧ o' = o))) := by
    intro a o'
    rw [refs_get, refs_get]
    show Option.map refOf E[a]? = _ ↔ _
    rw [hget a]
    by_cases h1 : a = x
    · subst h1; simp [refOf]
    rw [if_neg h1]
    by_cases h2 : a = y
    · rw [if_pos h2, h2]
      have : s.nodes[y]? = none := List.getElem?_eq_none (by simp [y])
      rw [this]
      simp only [Option.map_some, refOf, Option.some.injEq, Spec.Ref.shares.injEq, Option.map_none, reduceCtorEq,
        false_or, true_and]
      exact ⟨fun h => ⟨Ne.symm hxy, h.symm⟩, fun h => h.2.symm⟩
    rw [if_neg h2]
    by_cases h3 : a = p
    · rw [if_pos h3, h3, hp]; simp [refOf, hpx, hpy]
    · rw [if_neg h3]; simp [h1, h2]
  have hmemt : ∀ a ∈ t, a ≠ x ∧ a ≠ y := by
    intro a ha
    refine ⟨fun h => hxt (h ▸ ha), fun h => ?_⟩
    have := (List.getElem?_eq_some_iff.mp ((hmem a).mp (by simp [ha]))).1
    rw [refs_length] at this
    simp only [y] at h; omega
  refine inv_rebuild (o := o) (l := y :: t) hi (by simp [hEl]) (by
      have := hi.fresh x o ho; simp [hEl]; omega) ?_ ?_ ?_ ?_ ?_
  · intro _
    refine ⟨?_, ?_⟩
    · have : n = t.headD y := by rw [hnx]; cases t with
        | nil => exact absurd rfl ht
        | cons => rfl
      refine nextOf_eq (s := ⟨E, s.log⟩) (o := o) ?_
      show E[y]? = _
      rw [hget, if_neg (Ne.symm hxy), if_pos rfl, this]
    · subst hte
      refine link_append.mpr ⟨?_, ?_, trivial⟩
      · refine link_congr (f := s.nextOf) ?_ (link_append.mp hring.2).1
        intro a ha
        apply nextOf_congr
        show E[a]? = _
        have h1 := hmemt a (by simp [ha])
        rw [hget, if_neg h1.1, if_neg h1.2, if_neg (fun h : a = p => hpt (h ▸ ha))]
      · refine nextOf_eq (s := ⟨E, s.log⟩) (o := o) ?_
        show E[p]? = _
        rw [hget, if_neg hpx, if_neg hpy, if_pos rfl]; rfl
  · refine List.nodup_cons.mpr ⟨fun h => (hmemt y h).2 rfl, (List.nodup_cons.mp hnd).2⟩
  · intro a
    rw [hrget, ← hmem]
    simp only [List.mem_cons, and_true]
    constructor
    · rintro (h | h)
      · exact ⟨by rw [h]; exact Ne.symm hxy, Or.inr h⟩
      · exact ⟨(hmemt a h).1, Or.inl (Or.inr h)⟩
    · rintro ⟨h1, (h | h) | h⟩
      · exact absurd h h1
      · exact Or.inr h
      · exact Or.inl h
  · intro a o' ho'
    rw [hrget]
    simp only [ho', and_false, or_false]
    constructor
    · exact fun h => h.2
    · exact fun h => ⟨fun he => by rw [he, ho] at h; simp at h; exact ho' h.symm, h⟩
  · intro a o' ho' h
    apply nextOf_congr
    show E[a]? = _
    have h1 : a ≠ x := by intro he; rw [he, ho] at h; simp at h; exact ho' h.symm
    have h2 : a ≠ y := by
      intro he
      have := (List.getElem?_eq_some_iff.mp h).1
      rw [refs_length] at this; simp only [y] at he; omega
    have h3 : a ≠ p := by
      intro he; rw [refs_get, he, hp] at h; simp [refOf] at h; exact ho' h.symm
    rw [hget, if_neg h1, if_neg h2, if_neg h3]

theorem destroy_ok (s : State) (x : Nat) (hi : Inv s) (hl : s.refs.objectOf x ≠ .gone) : StepOk s (.destroy x) := by
  obtain ⟨nd, hnode⟩ : ∃ nd, s.nodes[x]? = some (some nd) := by
    unfold Refs.objectOf at hl
    rw [refs_get] at hl
    cases e : s.nodes[x]? with
    | none => simp [e] at hl
    | some v => cases v with
      | none => simp [e, refOf] at hl
      | some nd => exact ⟨nd, rfl⟩
  have hx : x < s.nodes.length := (List.getElem?_eq_some_iff.mp hnode).1
  have hobjE : s.refs.objectOf x = refOf (some nd) := by
    unfold Refs.objectOf
    rw [refs_get, hnode]; rfl
  obtain ⟨o, nx⟩ := nd
  cases nx with
  | none =>
    -- moved from: nothing but the reference itself disappears
    have hstep : step s (.destroy x) = some ⟨s.nodes.set x none, s.log⟩ := by
      simp [step, destroy, get_eq hnode]
    have hrefs : State.refs ⟨s.nodes.set x none, s.log⟩ = s.refs.next (.destroy x) := by
      simp only [Refs.next, hobjE, refOf]
      simp [State.refs, refOf]
    refine ⟨_, hstep, ?_, hrefs⟩
    have hrget : ∀ (a o' : Nat), (State.refs ⟨s.nodes.set x none, s.log⟩).refs[a]? = some (.shares o') ↔
        s.refs.refs[a]? = some (.shares o') := by
      intro a o'
      rw [refs_get, refs_get]
      by_cases h : a = x
      · subst h
        show Option.map refOf (s.nodes.set a none)[a]? = _ ↔ _
        rw [List.getElem?_set_self hx, hnode]; simp [refOf]
      · show Option.map refOf (s.nodes.set x none)[a]? = _ ↔ _
        rw [List.getElem?_set_ne (fun e => h e.symm)]
    have hnx : ∀ (a o' : Nat), s.refs.refs[a]? = some (.shares o') →
        State.nextOf ⟨s.nodes.set x none, s.log⟩ a = s.nextOf a := by
      intro a o' h
      apply nextOf_congr
      refine List.getElem?_set_ne ?_
      intro he; rw [← he, refs_get, hnode] at h; simp [refOf] at h
    constructor
    · intro a o' h
      simpa using hi.fresh a o' ((hrget a o').mp h)
    · intro a o' h
      obtain ⟨l, h1, h2, h3⟩ := hi.ring a o' ((hrget a o').mp h)
      exact ⟨l, ring_congr (fun b hb => hnx b o' ((h3 b).mp hb)) h1, h2, fun b => by rw [h3, hrget]⟩
  | some n =>
    have ho : s.refs.refs[x]? = some (.shares o) := by rw [refs_get, hnode]; rfl
    have hobj : s.refs.objectOf x = .shares o := hobjE
    obtain ⟨t, hring, hnd, hmem⟩ := hi.ring_at ho
    have hxt : x ∉ t := (List.nodup_cons.mp hnd).1
    have hnx : n = t.headD x := by
      have := hring.1
      rw [nextOf_eq hnode] at this
      simpa using this
    by_cases ht : t = []
    · -- the last reference
      subst ht
      simp only [List.headD_nil] at hnx
      subst hnx
      have hcount : s.refs.sharing o = 1 := by rw [← (Inv.ring_length hnd hmem).1]; rfl
      have hstep : step s (.destroy n) = some ⟨s.nodes.set n none, s.log ++ [o]⟩ := by
        simp [step, destroy, get_eq hnode]
      have hrefs : State.refs ⟨s.nodes.set n none, s.log ++ [o]⟩ = s.refs.next (.destroy n) := by
        simp only [Refs.next, hobj]
        rw [if_pos hcount]
        simp [State.refs, refOf]
      refine ⟨_, hstep, ?_, hrefs⟩
      have hrget : ∀ (a o' : Nat), (State.refs ⟨s.nodes.set n none, s.log ++ [o]⟩).refs[a]? = some (.shares o') ↔
          (a ≠ n ∧ s.refs.refs[a]? = some (.shares o')) := by
        intro a o'
        rw [refs_get, refs_get]
        show Option.map refOf (s.nodes.set n none)[a]? = _ ↔ _
        by_cases h : a = n
        · subst h; rw [List.getElem?_set_self hx]; simp [refOf]
        · rw [List.getElem?_set_ne (fun e => h e.symm)]; simp [h]
      refine inv_rebuild (o := o) (l := []) hi (by simp) (by simpa using hi.fresh n o ho) (by simp) (by simp) ?_ ?_ ?_
      · intro a
        rw [hrget, ← hmem]; simp
      · intro a o' ho'
        rw [hrget]
        constructor
        · exact fun h => h.2
        · exact fun h => ⟨fun he => by rw [he, ho] at h; simp at h; exact ho' h.symm, h⟩
      · intro a o' ho' h
        apply nextOf_congr
        refine List.getElem?_set_ne ?_
        intro he; rw [← he, ho] at h; simp at h; exact ho' h.symm
    · obtain ⟨t', p, hte, hpx, hpt, hp⟩ := pred_of_ring hring hnd hmem ht
      have hpl : p < s.nodes.length := (List.getElem?_eq_some_iff.mp hp).1
      have hnne : n ≠ x := by
        rw [hnx]
        cases t with
        | nil => exact absurd rfl ht
        | cons b t => intro h; exact hxt (by simp at h; simp [h])
      have hcount : s.refs.sharing o ≠ 1 := by
        rw [← (Inv.ring_length hnd hmem).1]
        cases t with
        | nil => exact absurd rfl ht
        | cons b t => simp
      have hloop : circle s x s.nodes.length x 0 = some (p, 0 + t.length) := by
        refine circle_ring s x p t x s.nodes.length 0 hxt hring ?_ ?_
        · rw [hte, ← List.cons_append, List.getLast?_append_cons]; rfl
        · have := (Inv.ring_length hnd hmem).2
          simp at this; omega
      have hpos : 0 + t.length ≠ 0 := by
        have := List.length_pos_iff.mpr ht; omega
      let E := (s.nodes.set p (some (Node.mk o (some n)))).set x none
      have hstep : step s (.destroy x) = some ⟨E, s.log⟩ := by
        simp only [step, destroy, get_eq hnode]
        rw [if_neg (by simp), if_neg (by simpa using hnne), hloop]
        simp only [eraseAfter]
        rw [nextOf_eq hp]
        simp only
        rw [nextOf_eq hnode]
        simp only
        rw [setNext_eq _ hp]
        simp only
        rw [if_neg hpos]
      have hget : ∀ a, E[a]? = if a = x then some none else if a = p then some (some ⟨o, some n⟩) else s.nodes[a]? := by
        intro a
        by_cases h1 : a = x
        · rw [if_pos h1, h1]
          simp only [E]
          rw [List.getElem?_set_self (by simpa using hx)]
        rw [if_neg h1]
        simp only [E]
        rw [List.getElem?_set_ne (fun h => h1 h.symm)]
        by_cases h2 : a = p
        · rw [if_pos h2, h2, List.getElem?_set_self hpl]
        · rw [if_neg h2, List.getElem?_set_ne (fun h => h2 h.symm)]
      have hrget : ∀ (a o' : Nat), (State.refs ⟨E, s.log⟩).refs[a]? = some (.shares o') ↔
          (a ≠ x ∧ s.refs.refs[a]? = some (.shares o')) := by
        intro a o'
        rw [refs_get, refs_get]
        show Option.map refOf E[a]? = _ ↔ _
        rw [hget a]
        by_cases h1 : a = x
        · subst h1; simp [refOf]
        rw [if_neg h1]
        by_cases h2 : a = p
        · rw [if_pos h2, h2, hp]; simp [refOf, hpx]
        · rw [if_neg h2]; simp [h1]
      have hrefs : State.refs ⟨E, s.log⟩ = s.refs.next (.destroy x) := by
        simp only [Refs.next, hobj]
        rw [if_neg hcount]
        simp only [State.refs]
        congr 1
        apply List.ext_getElem?
        intro i
        rw [List.getElem?_map, hget i]
        by_cases h1 : i = x
        · rw [if_pos h1, h1, List.getElem?_set_self (by simpa using hx)]; rfl
        rw [if_neg h1, List.getElem?_set_ne (fun h => h1 h.symm), List.getElem?_map]
        by_cases h2 : i = p
        · rw [if_pos h2, h2, hp]; rfl
        · rw [if_neg h2]
      refine ⟨⟨E, s.log⟩, hstep, ?_, hrefs⟩
      refine inv_rebuild (o := o) (l := t) hi (by simp [E]) (by
        simpa [E] using hi.fresh x o ho) ?_ (List.nodup_cons.mp hnd).2 ?_ ?_ ?_
      · intro _
        have hring2 : Link (State.nextOf ⟨E, s.log⟩) t n := by
          subst hte
          refine link_append.mpr ⟨?_, ?_, trivial⟩
          · refine link_congr (f := s.nextOf) ?_ (link_append.mp hring.2).1
            intro a ha
            apply nextOf_congr
            show E[a]? = _
            rw [hget, if_neg (fun h : a = x => hxt (by rw [← h]; simp [ha])), if_neg (fun h : a = p => hpt (h ▸ ha))]
          · refine nextOf_eq (s := ⟨E, s.log⟩) (o := o) ?_
            show E[p]? = _
            rw [hget, if_neg hpx, if_pos rfl]; rfl
        cases t with
        | nil => exact absurd rfl ht
        | cons b t => rw [hnx] at hring2; exact hring2
      · intro a
        rw [hrget, ← hmem]
        simp only [List.mem_cons]
        constructor
        · exact fun h => ⟨fun he => hxt (he ▸ h), Or.inr h⟩
        · rintro ⟨h1, h | h⟩
          · exact absurd h h1
          · exact h
      · intro a o' ho'
        rw [hrget]
        constructor
        · exact fun h => h.2
        · exact fun h => ⟨fun he => by rw [he, ho] at h; simp at h; exact ho' h.symm, h⟩
      · intro a o' ho' h
        apply nextOf_congr
        show E[a]? = _
        have h1 : a ≠ x := by intro he; rw [he, ho] at h; simp at h; exact ho' h.symm
        have h2 : a ≠ p := by
          intro he; rw [refs_get, he, hp] at h; simp [refOf] at h; exact ho' h.symm
        rw [hget, if_neg h1, if_neg h2]

theorem step_ok (s : State) (op : Op) (hi : Inv s) (hl : s.refs.legal op) : StepOk s op := by
  cases op with
  | create => exact create_ok s hi
  | copy x => exact copy_ok s x hi hl
  | move x => exact move_ok s x hi hl.1 hl.2
  | destroy x => exact destroy_ok s x hi hl

theorem inv_init : Inv State.init := by
  constructor <;> intro x o h <;> simp [State.init, State.refs] at h

/-- On every ring, `count_shared` is the number of references to the object. -/
theorem count_ok (s : State) (hi : Inv s) (x o : Nat) (h : s.refs.objectOf x = .shares o) :
    countShared s x = some (s.refs.sharing o) := by
  obtain ⟨o', ho, hobj⟩ := shares_of_some (s := s) (x := x) (by unfold Refs.sharesSome; rw [h]; trivial)
  rw [h] at hobj
  injection hobj with hobj
  subst hobj
  obtain ⟨t, hring, hnd, hmem⟩ := hi.ring_at ho
  have hlen := Inv.ring_length hnd hmem
  unfold countShared
  rw [count_ring s x t x s.nodes.length 1 (List.nodup_cons.mp hnd).1 hring (by
    have := hlen.2; simp at this; omega), ← hlen.1]
  simp; omega

/-- **C30 (partial).** Over every history of creating, copying, moving and destroying references in which a *sole*
reference is not moved, nothing undefined happens; which reference shares which object, and which objects have been
destroyed and in what order, are exactly what the specification says: an object is destroyed when, and only when, the
last reference to it is destroyed; and `count_shared` of every reference is the number of references to its object.

Missing: moving the only reference to an object (see `move_sole`), and weak references, which cannot be created. -/
theorem linked_ref_history_partial (ops : List Op) (hl : Refs.init.legalRun ops) :
    ∃ s, run State.init ops = some s ∧ s.refs = Refs.init.after ops ∧
      ∀ (x o : Nat), (Refs.init.after ops).objectOf x = .shares o →
        countShared s x = some ((Refs.init.after ops).sharing o) := by
  have key : ∀ (ops : List Op) (s : State), Inv s → s.refs.legalRun ops →
      ∃ s', run s ops = some s' ∧ Inv s' ∧ s'.refs = s.refs.after ops := by
    intro ops
    induction ops with
    | nil => exact fun s hi _ => ⟨s, rfl, hi, rfl⟩
    | cons op ops ih =>
      intro s hi hl
      obtain ⟨s1, h1, h2, h3⟩ := step_ok s op hi hl.1
      obtain ⟨s2, g1, g2, g3⟩ := ih s1 h2 (by rw [h3]; exact hl.2)
      exact ⟨s2, by simp [run, h1, g1], g2, by rw [g3, h3]; rfl⟩
  have h0 : State.init.refs = Refs.init := rfl
  obtain ⟨s, h1, h2, h3⟩ := key ops State.init inv_init (by rw [h0]; exact hl)
  rw [h0] at h3
  exact ⟨s, h1, h3, fun x o hx => by rw [← h3] at hx ⊢; exact count_ok s h2 x o hx⟩

/-- Moving the only reference to an object breaks the ring: in every reachable state, the new reference's destructor
then dereferences a null pointer. -/
theorem move_sole (s : State) (hi : Inv s) (x : Nat) (hs : s.refs.sole x) :
    ∃ s', step s (.move x) = some s' ∧ step s' (.destroy s.nodes.length) = none := by
  obtain ⟨o, ho, hobj⟩ := shares_of_some (s := s) (x := x) (by
    unfold Refs.sole at hs
    unfold Refs.sharesSome
    revert hs
    cases s.refs.objectOf x <;> simp)
  obtain ⟨n, hn⟩ := shares_get ho
  obtain ⟨t, hring, hnd, hmem⟩ := hi.ring_at ho
  have ht := (notSole_tail hobj hnd hmem).mp hs
  subst ht
  have hnx : n = x := by
    have := hring.1
    rw [nextOf_eq hn] at this
    simpa using this
  subst hnx
  have hx : n < s.nodes.length := (List.getElem?_eq_some_iff.mp hn).1
  let y := s.nodes.length
  have hxy : n ≠ y := by simp only [y]; omega
  let A := s.nodes ++ [some (Node.mk o none)]
  have hAx : A[n]? = some (some ⟨o, some n⟩) := (List.getElem?_append_left hx).trans hn
  let B := A.set n (some (Node.mk o (some n)))
  have hBx : B[n]? = some (some ⟨o, some n⟩) := by
    simp only [B]; rw [List.getElem?_set_self (by simp [A]; omega)]
  let C := B.set n (some (Node.mk o (some y)))
  have hCy : C[y]? = some (some ⟨o, none⟩) := by
    simp only [C, B]
    rw [List.getElem?_set_ne hxy, List.getElem?_set_ne hxy]; simp [A, y]
  let D := C.set y (some (Node.mk o (some n)))
  have hDx : D[n]? = some (some ⟨o, some y⟩) := by
    simp only [D]
    rw [List.getElem?_set_ne (Ne.symm hxy)]
    simp only [C]
    rw [List.getElem?_set_self (by simp [B, A]; omega)]
  let E := D.set n (some (Node.mk o none))
  have hEx : E[n]? = some (some ⟨o, none⟩) := by
    simp only [E]; rw [List.getElem?_set_self (by simp [D, C, B, A]; omega)]
  have hEy : E[y]? = some (some ⟨o, some n⟩) := by
    simp only [E]
    rw [List.getElem?_set_ne hxy]
    simp only [D]
    rw [List.getElem?_set_self (by simp [C, B, A, y])]
  have hAl : A.length = s.nodes.length + 1 := by simp [A]
  have hloop : beforeBegin ⟨A, s.log⟩ n A.length n = some n := by
    refine beforeBegin_ring _ n n [] n A.length (by simp) ?_ (by simp) (by simp [hAl])
    exact ⟨nextOf_eq (s := ⟨A, s.log⟩) hAx, trivial⟩
  refine ⟨⟨E, s.log⟩, ?_, ?_⟩
  · simp only [step, move, alloc, get_eq hn]
    rw [show (s.nodes ++ [some (Node.mk o none)]) = A from rfl, hloop]
    simp only [eraseAfter]
    rw [nextOf_eq (s := ⟨A, s.log⟩) hAx]
    simp only
    rw [nextOf_eq (s := ⟨A, s.log⟩) hAx]
    simp only
    rw [setNext_eq (s := ⟨A, s.log⟩) _ hAx]
    simp only [insertAfter]
    rw [nextOf_eq (s := ⟨B, s.log⟩) hBx]
    simp only
    rw [setNext_eq (s := ⟨B, s.log⟩) _ hBx]
    simp only
    rw [show s.nodes.length = y from rfl, setNext_eq (s := ⟨C, s.log⟩) _ hCy]
    simp only
    rw [setNext_eq (s := ⟨D, s.log⟩) _ hDx]
  · have hEl : E.length = s.nodes.length + 1 := by simp [E, D, C, B, A]
    simp only [step, destroy]
    rw [get_eq (s := ⟨E, s.log⟩) hEy]
    simp only
    rw [if_neg (by simp), if_neg (by simpa using hxy)]
    have e1 : State.nextOf ⟨E, s.log⟩ s.nodes.length = some (some n) := nextOf_eq (s := ⟨E, s.log⟩) hEy
    have e2 : State.nextOf ⟨E, s.log⟩ n = some none := nextOf_eq (s := ⟨E, s.log⟩) hEx
    have : circle ⟨E, s.log⟩ s.nodes.length (s.nodes.length + 1) s.nodes.length 0 = none := by
      unfold circle
      simp only [e1]
      rw [if_neg (by simpa using hxy)]
      cases h : s.nodes.length with
      | zero => rfl
      | succ k => unfold circle; simp [e2]
    rw [hEl, this]

/-! ### The hypotheses are met -/

def sample : List Op :=
  [.create, .copy 0, .copy 0, .create, .copy 1, .move 0, .destroy 0, .destroy 2, .destroy 3, .destroy 5, .destroy 1]

example : Refs.init.legalRun sample := by decide

example : (Refs.init.after sample).refs = [.gone, .gone, .gone, .gone, .shares 0, .gone] ∧
    (Refs.init.after sample).destroyed = [3] := by decide

/-- counts along the way -/
example : (run State.init (sample.take 6)).bind (countShared · 4) = some 4 := by decide

/-- `move_sole` applies to the very first reference -/
example : (create State.init).refs.sole 0 ∧ Inv (create State.init) := by
  refine ⟨by decide, ?_⟩
  obtain ⟨s', h1, h2, -⟩ := create_ok State.init inv_init
  simp only [step, Option.some.injEq] at h1
  rw [h1]; exact h2

end Verif.LinkedRef
