import Verif.Sum.Spec

namespace Verif.Sum
open Spec (replay Content World)

theorem replay_append (c : Option Nat) (l l' : List Event) :
    replay c (l ++ l') = (replay c l).bind fun d => replay d l' := by
  induction l generalizing c with
  | nil => cases c <;> simp [replay]
  | cons e l ih =>
    cases c with
    | none => cases e <;> simp [replay, ih]
    | some j =>
      cases e with
      | ctor i => simp [replay]
      | dtor i => simp only [List.cons_append, replay]; split <;> simp [ih]
      | assign i => simp only [List.cons_append, replay]; split <;> simp [ih]

/-- the log accounts for what is alive -/
def Slot.good (s : Slot α) : Prop := replay none s.log = some (s.live.map Prod.fst)

theorem good_raw : (Slot.raw : Slot α).good := rfl

theorem construct_good {s : Slot α} (i : Nat) (v : α) (h : s.good) (hd : s.live = none) : (s.construct i v).good := by
  unfold Slot.good at *
  simp only [Slot.construct, replay_append, h, hd, Option.map_none, Option.bind_some, replay, Option.map_some]

theorem destroy_live {k : Nat → Kind} {s : Slot α} {i : Nat} {v : α} (h : s.good) (hl : s.live = some (i, v)) :
    s.destroy k i = some ⟨none, s.log ++ [.dtor i]⟩ ∧ (⟨none, s.log ++ [.dtor i]⟩ : Slot α).good := by
  refine ⟨by simp [Slot.destroy, hl], ?_⟩
  unfold Slot.good at *
  simp [replay_append, h, hl, replay]

theorem destroy_trivial_dead {k : Nat → Kind} {s : Slot α} {i : Nat} (hk : (k i).trivial = true) (hl : s.live = none) :
    s.destroy k i = some s := by simp [Slot.destroy, hl, hk]

theorem assign_live {k : Nat → Kind} {s : Slot α} {i : Nat} {w : α} (v : α) (h : s.good) (hl : s.live = some (i, w)) :
    ∃ s', s.assign k i v = some s' ∧ s'.good ∧ s'.live = some (i, v) := by
  refine ⟨⟨some (i, v), s.log ++ [.assign i]⟩, by simp [Slot.assign, hl], ?_, rfl⟩
  unfold Slot.good at *
  simp [replay_append, h, hl, replay]

/-- assigning an outside value, or the object itself when it is assignable, to a live alternative -/
theorem assignmentHelper_ok {k : Nat → Kind} {s : Slot α} {i : Nat} {w v : α} {src : Src α} {asg : Bool}
    (h : s.good) (hl : s.live = some (i, w)) (hr : src = .ext v ∨ (asg = true ∧ src = .own i ∧ v = w)) :
    ∃ s', s.assignmentHelper k i src asg true = some s' ∧ s'.good ∧ s'.live = some (i, v) := by
  unfold Slot.assignmentHelper
  cases asg with
  | true =>
    have hread : s.read src = some v := by
      rcases hr with rfl | ⟨-, rfl, rfl⟩
      · rfl
      · simp [Slot.read, hl]
    simp only [if_true, hread]
    exact assign_live v h hl
  | false =>
    obtain rfl : src = .ext v := by simpa using hr
    obtain ⟨h1, h2⟩ := destroy_live (k := k) h hl
    simp only [Bool.false_eq_true, if_false, h1]
    exact ⟨_, rfl, construct_good i v h2 rfl, rfl⟩

theorem directInit_ok {k : Nat → Kind} {s : Slot α} {i : Nat} {v : α} (h : s.good) (hl : s.live = none) :
    ∃ s', s.directInit k i (.ext v) true = some s' ∧ s'.good ∧ s'.live = some (i, v) := by
  unfold Slot.directInit
  refine ⟨s.construct i v, ?_, construct_good i v h hl, rfl⟩
  split
  · rename_i hk; simp [Slot.read, Slot.assign, hl, hk]
  · simp [Slot.emplaceHelper, Slot.read]

/-! ### Boxes and worlds -/

structure Box.ok (x : Box α) : Prop where
  good : x.slot.good
  tag : x.slot.live.map Prod.fst = x.tag

def State.world (s : State α) : World α := s.boxes.map (Option.map fun x => x.slot.live)

structure Inv (s : State α) : Prop where
  boxes : ∀ (b : Nat) (x : Box α), s.get b = some x → x.ok
  buried : ∀ l ∈ s.buried, replay none l = some none

theorem inv_init : Inv (State.init : State α) := ⟨by intro b x h; simp [State.get, State.init, rd] at h, by simp [State.init]⟩

theorem get_iff {s : State α} {b : Nat} {x : Box α} : s.get b = some x ↔ s.boxes[b]? = some (some x) := by
  unfold State.get rd
  cases h : s.boxes[b]? with
  | none => simp
  | some v => cases v <;> simp

theorem world_get (s : State α) (b : Nat) : s.world.at? b = (s.get b).map fun x => x.slot.live := by
  unfold World.at? State.world State.get rd
  rw [List.getElem?_map]
  cases h : s.boxes[b]? with
  | none => rfl
  | some v => cases v <;> rfl

theorem of_world {s : State α} {b : Nat} {c : Content α} (h : s.world.at? b = some c) :
    ∃ x, s.get b = some x ∧ x.slot.live = c := by
  rw [world_get] at h
  cases hx : s.get b with
  | none => simp [hx] at h
  | some x => simp [hx] at h; exact ⟨x, rfl, h⟩

theorem get_put {s : State α} {b : Nat} {x y : Box α} (h : s.get b = some x) (c : Nat) :
    (s.put b y).get c = if c = b then some y else s.get c := by
  have hl : b < s.boxes.length := (List.getElem?_eq_some_iff.mp (get_iff.mp h)).1
  unfold State.put State.get rd
  by_cases hc : c = b
  · subst hc; simp [hl]
  · simp [List.getElem?_set_ne (fun e => hc e.symm), hc]

theorem inv_put {s : State α} {b : Nat} {x y : Box α} (hi : Inv s) (h : s.get b = some x) (hy : y.ok) :
    Inv (s.put b y) := by
  refine ⟨fun c z hz => ?_, hi.buried⟩
  rw [get_put h] at hz
  split at hz
  · simp at hz; subst hz; exact hy
  · exact hi.boxes c z hz

theorem world_put (s : State α) (b : Nat) (y : Box α) :
    (s.put b y).world = s.world.set b (some y.slot.live) := by
  simp [State.put, State.world]

theorem inv_push {s : State α} {y : Box α} (hi : Inv s) (hy : y.ok) : Inv (s.push y) := by
  refine ⟨fun c z hz => ?_, hi.buried⟩
  rw [get_iff] at hz
  simp only [State.push, List.getElem?_append] at hz
  split at hz
  · exact hi.boxes c z (get_iff.mpr hz)
  · rename_i hc
    cases hn : c - s.boxes.length with
    | zero => simp [hn] at hz; subst hz; exact hy
    | succ n => simp [hn] at hz

theorem world_push (s : State α) (y : Box α) : (s.push y).world = s.world ++ [some y.slot.live] := by
  simp [State.push, State.world]

theorem inv_bury {s : State α} {b : Nat} {l : List Event} (hi : Inv s) (hl : replay none l = some none) :
    Inv (s.bury b l) := by
  constructor
  · intro c z hz
    rw [get_iff] at hz
    simp only [State.bury, List.getElem?_set] at hz
    split at hz
    · split at hz <;> simp at hz
    · exact hi.boxes c z (get_iff.mpr hz)
  · intro m hm
    simp only [State.bury, List.mem_append, List.mem_singleton] at hm
    rcases hm with hm | hm
    · exact hi.buried m hm
    · rw [hm]; exact hl

theorem world_bury (s : State α) (b : Nat) (l : List Event) : (s.bury b l).world = s.world.set b none := by
  simp [State.bury, State.world]

theorem gut_ok {x : Box α} (g : α → α) (h : x.ok) : (x.gut g).ok := by
  constructor
  · have := h.good
    unfold Slot.good Box.gut at *
    simp only [this, Option.map_map]; rfl
  · show _ = x.tag
    rw [← h.tag]; simp only [Box.gut, Option.map_map]; rfl

theorem gut_live (g : α → α) (x : Box α) : (x.gut g).slot.live = x.slot.live.map fun p => (p.1, g p.2) := rfl

end Verif.Sum
