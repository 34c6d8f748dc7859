import Verif.SharedPtr.Spec

/-!
# C29: shared ownership
-/
namespace Verif.SharedPtr
open Spec (Own)

/-- the ownership part of a state of the code -/
def masterOf (b : Block) : Option Bool := if b.alive then some b.active else none

def State.own (s : State) : Own := ⟨s.blocks.map masterOf, s.handles⟩

/-- the counters agree with an owner count `ow` -/
structure BInv (bs : List Block) (ow : Nat → Nat) : Prop where
  out : ∀ b, bs.length ≤ b → ow b = 0
  cnt : ∀ b blk, bs[b]? = some blk → blk.count = ow b ∧ ow b < 65536 ∧ (0 < ow b → blk.alive = true)

theorem BInv.lt {bs ow b} (h : BInv bs ow) (hb : 0 < ow b) : b < bs.length := by
  by_cases hl : b < bs.length
  · exact hl
  · have := h.out b (by omega); omega

/-- blocks persist, and `Deleter()` was called exactly for those whose owner count fell to zero -/
def Evo (bs : List Block) (ow : Nat → Nat) (bs' : List Block) (ow' : Nat → Nat) : Prop :=
  ∀ b blk, bs[b]? = some blk → ∃ blk', bs'[b]? = some blk' ∧
    blk'.deletes = blk.deletes + (if 0 < ow b ∧ ow' b = 0 then 1 else 0)

theorem Evo.trans {bs ow bs1 ow1 bs2 ow2} (h1 : Evo bs ow bs1 ow1) (h2 : Evo bs1 ow1 bs2 ow2)
    (h01 : ∀ b, ow b = 0 → ow1 b = 0) (h12 : ∀ b, ow1 b = 0 → ow2 b = 0) : Evo bs ow bs2 ow2 := by
  intro b blk hb
  obtain ⟨blk1, e1, d1⟩ := h1 b blk hb
  obtain ⟨blk2, e2, d2⟩ := h2 b blk1 e1
  refine ⟨blk2, e2, ?_⟩
  rw [d2, d1]
  have a1 := h01 b
  have a2 := h12 b
  by_cases c0 : 0 < ow b <;> by_cases c1 : ow1 b = 0 <;> by_cases c2 : ow2 b = 0 <;> simp_all <;> omega

theorem Evo.refl {bs ow ow'} (h : ∀ b, ow' b = 0 → ow b = 0) : Evo bs ow bs ow' := by
  intro b blk hb
  refine ⟨blk, hb, ?_⟩
  rw [if_neg]
  · rfl
  · rintro ⟨h1, h2⟩; have := h b h2; omega

def sub1 (ow : Nat → Nat) (p : Option Nat) (x : Nat) : Nat := ow x - (if p = some x then 1 else 0)
def add1 (ow : Nat → Nat) (p : Option Nat) (x : Nat) : Nat := ow x + (if p = some x then 1 else 0)

theorem masters_set_same {bs : List Block} {b : Nat} {blk blk' : Block} (h : bs[b]? = some blk)
    (hm : masterOf blk' = masterOf blk) : (bs.set b blk').map masterOf = bs.map masterOf := by
  apply List.ext_getElem?
  intro i
  rw [List.getElem?_map, List.getElem?_map, List.getElem?_set]
  by_cases hi : b = i
  · subst hi
    have : b < bs.length := (List.getElem?_eq_some_iff.mp h).1
    simp [this, h, hm]
    have := (List.getElem?_eq_some_iff.mp h).2
    rw [this]
  · simp [hi]

theorem deref_eq {bs : List Block} {b : Nat} {blk : Block} (h : bs[b]? = some blk) (ha : blk.alive = true) :
    deref bs b = some blk := by simp [deref, rd, h, ha]

theorem dropHandle_spec {bs ow p} (h : BInv bs ow) (hp : ∀ b, p = some b → 0 < ow b) :
    ∃ bs', dropHandle bs p = some bs' ∧ BInv bs' (sub1 ow p) ∧ bs'.map masterOf = bs.map masterOf ∧
      Evo bs ow bs' (sub1 ow p) := by
  cases p with
  | none =>
    have e : sub1 ow none = ow := by funext x; simp [sub1]
    rw [e]
    exact ⟨bs, rfl, h, rfl, Evo.refl fun _ h => h⟩
  | some b =>
    have hb := hp b rfl
    have hl := h.lt hb
    obtain ⟨blk, hblk⟩ : ∃ blk, bs[b]? = some blk := ⟨bs[b], by simp [hl]⟩
    obtain ⟨h1, h2, h3⟩ := h.cnt b blk hblk
    have hn : (blk.count + 65535) % 65536 = ow b - 1 := by rw [h1]; omega
    have e : dropHandle bs (some b) = some (bs.set b { blk with
          count := ow b - 1
          deletes := if ow b - 1 = 0 then blk.deletes + 1 else blk.deletes }) := by
      simp only [dropHandle, decRef, deref_eq hblk (h3 hb), hn, wr_lt hl]
    refine ⟨_, e, ⟨?_, ?_⟩, ?_, ?_⟩
    · intro x hx
      rw [List.length_set] at hx
      simp [sub1, h.out x hx]
    · intro x blk' hx
      rw [List.getElem?_set] at hx
      by_cases hxb : b = x
      · subst hxb
        simp [hl] at hx
        subst hx
        simp only [sub1, if_true]
        exact ⟨trivial, by omega, fun _ => h3 hb⟩
      · rw [if_neg hxb] at hx
        have := h.cnt x blk' hx
        simpa [sub1, hxb] using this
    · exact masters_set_same hblk rfl
    · intro x blk' hx
      rw [List.getElem?_set]
      by_cases hxb : b = x
      · subst hxb
        rw [hblk] at hx; cases hx
        simp only [hl, if_true, sub1]
        refine ⟨_, rfl, ?_⟩
        simp only
        by_cases h0 : ow b - 1 = 0
        · rw [if_pos h0, if_pos ⟨hb, h0⟩]
        · rw [if_neg h0, if_neg (by omega)]; rfl
      · rw [if_neg hxb]
        refine ⟨blk', hx, ?_⟩
        rw [if_neg]; · rfl
        simp [sub1, hxb]; omega

theorem incRef_spec {bs ow p} (h : BInv bs ow)
    (hp : ∀ b, p = some b → (bs.map masterOf)[b]? = some (some true) ∧ 0 < ow b ∧ ow b < 65535) :
    ∃ bs', incRef bs p = some bs' ∧ BInv bs' (add1 ow p) ∧ bs'.map masterOf = bs.map masterOf ∧
      Evo bs ow bs' (add1 ow p) := by
  cases p with
  | none =>
    have e : add1 ow none = ow := by funext x; simp [add1]
    rw [e]
    exact ⟨bs, rfl, h, rfl, Evo.refl fun _ h => h⟩
  | some b =>
    obtain ⟨hm, hb, hlt⟩ := hp b rfl
    have hl := h.lt hb
    obtain ⟨blk, hblk⟩ : ∃ blk, bs[b]? = some blk := ⟨bs[b], by simp [hl]⟩
    obtain ⟨h1, h2, h3⟩ := h.cnt b blk hblk
    have ha : blk.active = true := by
      rw [List.getElem?_map, hblk] at hm
      simp [masterOf, h3 hb] at hm
      exact hm
    have hn : (blk.count + 1) % 65536 = ow b + 1 := by rw [h1]; omega
    have e : incRef bs (some b) = some (bs.set b { blk with count := ow b + 1 }) := by
      simp only [incRef, deref_eq hblk (h3 hb), hn, wr_lt hl, ha, if_true]
    refine ⟨_, e, ⟨?_, ?_⟩, ?_, ?_⟩
    · intro x hx
      rw [List.length_set] at hx
      have : b ≠ x := by omega
      simp [add1, h.out x hx, this]
    · intro x blk' hx
      rw [List.getElem?_set] at hx
      by_cases hxb : b = x
      · subst hxb
        simp [hl] at hx
        subst hx
        simp only [add1, if_true]
        exact ⟨trivial, by omega, fun _ => h3 hb⟩
      · rw [if_neg hxb] at hx
        have := h.cnt x blk' hx
        simpa [add1, hxb] using this
    · exact masters_set_same hblk rfl
    · intro x blk' hx
      rw [List.getElem?_set]
      by_cases hxb : b = x
      · subst hxb
        rw [hblk] at hx; cases hx
        simp only [hl, if_true, add1]
        refine ⟨_, rfl, ?_⟩
        rw [if_neg (by omega)]; rfl
      · rw [if_neg hxb]
        refine ⟨blk', hx, ?_⟩
        rw [if_neg]; · rfl
        simp only [add1, Option.some.injEq, hxb, if_false]; omega

/-! ## Owner counts under handle updates -/

theorem count_set_add {α} [BEq α] [LawfulBEq α] [DecidableEq α] (l : List α) (i : Nat) (u v y : α) (h : l[i]? = some u) :
    (l.set i v).count y + (if u = y then 1 else 0) = l.count y + (if v = y then 1 else 0) := by
  induction l generalizing i with
  | nil => simp at h
  | cons a l ih =>
    cases i with
    | zero =>
      simp at h; subst h
      simp only [List.set_cons_zero, List.count_cons, beq_iff_eq]
      split <;> split <;> omega
    | succ i =>
      simp at h
      have := ih i h
      simp only [List.set_cons_succ, List.count_cons, beq_iff_eq]
      omega

theorem live_target {o : Own} {h : Nat} (hl : o.live h) : o.handles[h]? = some (some (o.target h)) := by
  unfold Own.live at hl
  unfold Own.target
  cases e : o.handles[h]? with
  | none => simp [e] at hl
  | some v =>
    cases v with
    | none => simp [e] at hl
    | some p => rfl

theorem target_owned {o : Own} {h b : Nat} (hl : o.live h) (hb : o.target h = some b) : 0 < o.owners b := by
  have := live_target hl
  rw [hb] at this
  have hm := List.mem_of_getElem? this
  have := List.count_pos_iff.mpr hm
  unfold Own.owners; omega

/-- replacing the target of handle `h` by `v` -/
theorem owners_set {o : Own} {h : Nat} (hl : o.live h) (v : Option (Option Nat)) (x : Nat) :
    ({ o with handles := o.handles.set h v } : Own).owners x + (if o.target h = some x then 1 else 0) =
      o.owners x + (if v = some (some x) then 1 else 0) := by
  have := count_set_add o.handles h _ v (some (some x)) (live_target hl)
  unfold Own.owners
  simp only [Option.some.injEq] at this
  simp only
  omega

theorem owners_push (o : Own) (v : Option (Option Nat)) (x : Nat) :
    ({ o with handles := o.handles ++ [v] } : Own).owners x =
      o.owners x + (if v = some (some x) then 1 else 0) := by
  unfold Own.owners
  simp only [List.count_append, List.count_singleton, beq_iff_eq]
  omega

/-! ## One operation -/

def Inv (s : State) : Prop := BInv s.blocks s.own.owners

theorem ptr_eq {s : State} {h : Nat} (hl : s.own.live h) : s.ptr h = some (s.own.target h) := by
  have := live_target hl
  unfold State.ptr rd
  rw [show s.handles[h]? = s.own.handles[h]? from rfl, this]

theorem deref_exists {s : State} {b : Nat} (hb : s.own.exists b) :
    ∃ blk, s.blocks[b]? = some blk ∧ blk.alive = true ∧ deref s.blocks b = some blk ∧
      s.own.masters[b]? = some (some blk.active) := by
  unfold Own.exists at hb
  have hm : s.own.masters[b]? = (s.blocks[b]?).map masterOf := by
    show (s.blocks.map masterOf)[b]? = _
    rw [List.getElem?_map]
  rw [hm] at hb ⊢
  cases e : s.blocks[b]? with
  | none => simp [e] at hb
  | some blk =>
    rw [e] at hb
    have ha : blk.alive = true := by
      cases h : blk.alive with
      | true => rfl
      | false => simp [masterOf, h] at hb
    exact ⟨blk, rfl, ha, deref_eq e ha, by simp [masterOf, ha]⟩

theorem share_eq {s : State} {b : Nat} (hb : s.own.exists b) : masterPtr s.blocks b = some (s.own.share b) := by
  obtain ⟨blk, e, ha, hd, hm⟩ := deref_exists hb
  unfold masterPtr Own.share
  rw [hd, hm]
  cases h : blk.active <;> simp [h]

theorem share_some {o : Own} {b x : Nat} (h : o.share b = some x) :
    x = b ∧ o.masters[b]? = some (some true) ∧ 0 < o.owners b := by
  unfold Own.share at h
  split at h
  · rename_i hm
    simp at h
    exact ⟨h.symm, hm, by simp [Own.owners, hm]; omega⟩
  · simp at h

/-- master flag updates: block `b` gets a new block, everything else is unchanged -/
theorem owners_master (o : Own) (b : Nat) (v : Option Bool) (hb : o.exists b) (x : Nat) :
    ({ o with masters := o.masters.set b v } : Own).owners x +
        (if x = b ∧ o.masters[b]? = some (some true) then 1 else 0) =
      o.owners x + (if x = b ∧ v = some true then 1 else 0) := by
  unfold Own.owners
  simp only [List.getElem?_set]
  have hl : b < o.masters.length := by
    unfold Own.exists at hb
    by_cases h : b < o.masters.length
    · exact h
    · rw [List.getElem?_eq_none (by omega)] at hb; simp at hb
  by_cases hx : x = b
  · subst hx
    simp only [hl, if_true, true_and, Option.some.injEq]
    split <;> split <;> omega
  · have : ¬ b = x := fun h => hx h.symm
    simp [this, hx]

theorem masters_set {bs : List Block} {b : Nat} {blk' : Block} :
    (bs.set b blk').map masterOf = (bs.map masterOf).set b (masterOf blk') := by
  rw [List.map_set]

/-- the claim for one operation -/
def StepOk (s : State) (op : Op) : Prop :=
  ∃ s', step s op = some s' ∧ Inv s' ∧ s'.own = s.own.next op ∧
    Evo s.blocks s.own.owners s'.blocks (s.own.next op).owners

/-- updating one block in place -/
theorem set_block {s : State} {b : Nat} {blk blk' : Block} (hi : Inv s) (hblk : s.blocks[b]? = some blk)
    {o' : Own} (ho : o' = ⟨s.own.masters.set b (masterOf blk'), s.handles⟩)
    (hc : blk'.count = o'.owners b ∧ o'.owners b < 65536 ∧ (0 < o'.owners b → blk'.alive = true))
    (hd : blk'.deletes = blk.deletes + (if 0 < s.own.owners b ∧ o'.owners b = 0 then 1 else 0))
    (hother : ∀ x, x ≠ b → o'.owners x = s.own.owners x) :
    Inv { s with blocks := s.blocks.set b blk' } ∧ ({ s with blocks := s.blocks.set b blk' } : State).own = o' ∧
      Evo s.blocks s.own.owners (s.blocks.set b blk') o'.owners := by
  have hl : b < s.blocks.length := (List.getElem?_eq_some_iff.mp hblk).1
  have hown : ({ s with blocks := s.blocks.set b blk' } : State).own = o' := by
    rw [ho]; simp only [State.own, masters_set]
  refine ⟨⟨?_, ?_⟩, hown, ?_⟩
  · intro x hx
    rw [hown]
    simp only [List.length_set] at hx
    rw [hother x (by omega)]
    exact hi.out x hx
  · intro x blk2 hx
    rw [hown]
    simp only [List.getElem?_set] at hx
    by_cases hxb : b = x
    · subst hxb
      simp [hl] at hx
      subst hx
      exact hc
    · rw [if_neg hxb] at hx
      rw [hother x (fun h => hxb h.symm)]
      exact hi.cnt x blk2 hx
  · intro x blk2 hx
    rw [List.getElem?_set]
    by_cases hxb : b = x
    · subst hxb
      rw [hblk] at hx; cases hx
      simp only [hl, if_true]
      exact ⟨_, rfl, hd⟩
    · rw [if_neg hxb]
      refine ⟨blk2, hx, ?_⟩
      rw [if_neg]; · rfl
      rw [hother x (fun h => hxb h.symm)]; omega

/-- appending a block -/
theorem push_block {s : State} {blk : Block} (hi : Inv s) (ha : blk.alive = true)
    (hc : blk.count = if blk.active then 1 else 0) :
    let s' : State := { s with blocks := s.blocks ++ [blk] }
    Inv s' ∧ s'.own = ⟨s.own.masters ++ [some blk.active], s.handles⟩ ∧
      Evo s.blocks s.own.owners s'.blocks s'.own.owners := by
  intro s'
  have hown : s'.own = ⟨s.own.masters ++ [some blk.active], s.handles⟩ := by
    simp [s', State.own, masterOf, ha]
  have hlen : s.own.masters.length = s.blocks.length := by simp [State.own]
  have hother : ∀ x, x ≠ s.blocks.length → s'.own.owners x = s.own.owners x := by
    intro x hx
    rw [hown]
    unfold Own.owners
    simp only [List.getElem?_append, hlen]
    split
    · rfl
    · rw [List.getElem?_eq_none (show s.own.masters.length ≤ x by omega)]
      rw [List.getElem?_eq_none (by simp; omega)]
      rfl
  have hnew : s'.own.owners s.blocks.length = if blk.active then 1 else 0 := by
    have h0 := hi.out s.blocks.length (Nat.le_refl _)
    rw [hown]
    unfold Own.owners at h0 ⊢
    simp only [List.getElem?_append, hlen, Nat.lt_irrefl, if_false, Nat.sub_self]
    simp
    have : List.count (some (some s.blocks.length)) s.handles = 0 := by
      have := h0; simp only [State.own] at this; omega
    rw [this]
  refine ⟨⟨?_, ?_⟩, hown, ?_⟩
  · intro x hx
    simp only [s', List.length_append, List.length_singleton] at hx
    rw [hother x (by omega)]
    exact hi.out x (by omega)
  · intro x blk2 hx
    simp only [s', List.getElem?_append] at hx
    by_cases hxl : x < s.blocks.length
    · rw [if_pos hxl] at hx
      rw [hother x (by omega)]
      exact hi.cnt x blk2 hx
    · rw [if_neg hxl] at hx
      have hx0 : x = s.blocks.length := by
        have := (List.getElem?_eq_some_iff.mp hx).1
        simp at this; omega
      subst hx0
      simp at hx
      subst hx
      rw [hnew]
      refine ⟨hc, by split <;> omega, fun _ => ha⟩
  · intro x blk2 hx
    have hxl := (List.getElem?_eq_some_iff.mp hx).1
    refine ⟨blk2, by simp only [s']; rw [List.getElem?_append_left hxl, hx], ?_⟩
    rw [hother x (by omega), if_neg (by omega)]; rfl

/-- moving handles around without touching blocks -/
theorem move_handles {s : State} (hi : Inv s) (hs : List (Option (Option Nat)))
    (h : ∀ x, (⟨s.own.masters, hs⟩ : Own).owners x = s.own.owners x) :
    let s' : State := { s with handles := hs }
    Inv s' ∧ s'.own = ⟨s.own.masters, hs⟩ ∧
      Evo s.blocks s.own.owners s'.blocks (⟨s.own.masters, hs⟩ : Own).owners := by
  intro s'
  have hown : s'.own = ⟨s.own.masters, hs⟩ := rfl
  have he : (⟨s.own.masters, hs⟩ : Own).owners = s.own.owners := funext h
  refine ⟨?_, rfl, ?_⟩
  · show BInv s.blocks s'.own.owners
    rw [hown, he]; exact hi
  · rw [he]; exact Evo.refl fun _ h => h

/-- finishing an operation that changed block counts to `ow'` and handles to `hs` -/
theorem finish {s : State} {bs : List Block} {ow' : Nat → Nat} {hs : List (Option (Option Nat))}
    (hb : BInv bs ow') (hm : bs.map masterOf = s.blocks.map masterOf) (he : Evo s.blocks s.own.owners bs ow')
    {o' : Own} (ho : o' = ⟨s.own.masters, hs⟩) (how : ∀ x, o'.owners x = ow' x) :
    Inv ⟨bs, hs⟩ ∧ (⟨bs, hs⟩ : State).own = o' ∧ Evo s.blocks s.own.owners bs o'.owners := by
  have hown : (⟨bs, hs⟩ : State).own = o' := by rw [ho]; simp [State.own, hm]
  have hf : o'.owners = ow' := funext how
  refine ⟨?_, hown, by rw [hf]; exact he⟩
  unfold Inv
  rw [hown, hf]; exact hb

theorem step_ok (s : State) (op : Op) (hi : Inv s) (hl : s.own.legal op) : StepOk s op := by
  cases op with
  | newLayer1 =>
    obtain ⟨h1, h2, h3⟩ := push_block (blk := ⟨0, false, true, 0, 0⟩) hi rfl rfl
    exact ⟨_, rfl, h1, h2, by rw [h2] at h3; exact h3⟩
  | newLayer2 =>
    obtain ⟨h1, h2, h3⟩ := push_block (blk := ⟨1, true, true, 1, 0⟩) hi rfl rfl
    exact ⟨_, rfl, h1, h2, by rw [h2] at h3; exact h3⟩
  | construct b =>
    obtain ⟨hb, h0⟩ := hl
    obtain ⟨blk, e, ha, hd, hm⟩ := deref_exists hb
    have hlen : b < s.blocks.length := (List.getElem?_eq_some_iff.mp e).1
    have how : ∀ x, (s.own.next (.construct b)).owners x +
        (if x = b ∧ s.own.masters[b]? = some (some true) then 1 else 0) =
        s.own.owners x + (if x = b then 1 else 0) := by
      intro x
      have := owners_master s.own b (some true) hb x
      simpa [Own.next] using this
    have hb1 := how b
    have hna : s.own.masters[b]? ≠ some (some true) := by
      intro h
      simp [Own.owners, h] at h0
    simp only [hna, and_false, if_false, if_true] at hb1
    have hc := (hi.cnt b blk e).1
    have hstep : step s (.construct b) = some { s with blocks := s.blocks.set b { blk with active := true, count := (blk.count + 1) % 65536, constructs := blk.constructs + 1 } } := by
      simp only [step, hd, wr_lt hlen, Option.map_some]
    have := set_block (s := s) (b := b) (blk := blk) (blk' := { blk with active := true, count := (blk.count + 1) % 65536, constructs := blk.constructs + 1 }) hi e
      (o' := s.own.next (.construct b)) (by simp [Own.next, masterOf, ha]; rfl)
      ⟨by simp only [hc]; omega, by omega, fun _ => ha⟩
      (by simp only; rw [if_neg (by omega)]; rfl)
      (by intro x hx; have := how x; simp [hx] at this; exact this)
    exact ⟨_, hstep, this⟩
  | fromMaster b =>
    obtain ⟨hb, hr⟩ := hl
    obtain ⟨bs, e1, e2, e3, e4⟩ := incRef_spec (p := s.own.share b) hi (by
      intro x hx
      obtain ⟨rfl, h1, h2⟩ := share_some hx
      exact ⟨h1, h2, hr⟩)
    refine ⟨⟨bs, s.handles ++ [some (s.own.share b)]⟩, ?_, ?_⟩
    · simp only [step, share_eq hb, e1, Option.map_some]
    · refine finish e2 e3 e4 rfl (fun x => ?_)
      show (⟨s.own.masters, s.own.handles ++ [some (s.own.share b)]⟩ : Own).owners x = _
      rw [owners_push]
      simp [add1]
  | copy h =>
    obtain ⟨hh, hc⟩ := hl
    obtain ⟨bs, e1, e2, e3, e4⟩ := incRef_spec (p := s.own.target h) hi (by
      intro x hx
      unfold Own.copyable at hc
      rw [hx] at hc
      exact ⟨hc.1, target_owned hh hx, hc.2⟩)
    refine ⟨⟨bs, s.handles ++ [some (s.own.target h)]⟩, ?_, ?_⟩
    · simp only [step, ptr_eq hh, e1, Option.map_some]
    · refine finish e2 e3 e4 rfl (fun x => ?_)
      show (⟨s.own.masters, s.own.handles ++ [some (s.own.target h)]⟩ : Own).owners x = _
      rw [owners_push]
      simp [add1]
  | move h =>
    have hh : s.own.live h := hl
    have := move_handles hi (s.handles.set h (some none) ++ [some (s.own.target h)]) (by
      intro x
      have h1 := owners_set hh (some none) x
      have h2 := owners_push (⟨s.own.masters, s.own.handles.set h (some none)⟩ : Own)
        (some (s.own.target h)) x
      simp only [reduceCtorEq, Option.some.injEq, if_false] at h1 h2
      show (⟨s.own.masters, s.own.handles.set h (some none) ++ [some (s.own.target h)]⟩ : Own).owners x = _
      omega)
    exact ⟨_, by simp only [step, ptr_eq hh], this⟩
  | reset h =>
    have hh : s.own.live h := hl
    obtain ⟨bs, e1, e2, e3, e4⟩ := dropHandle_spec (p := s.own.target h) hi (fun x hx => target_owned hh hx)
    refine ⟨⟨bs, s.handles.set h (some none)⟩, ?_, ?_⟩
    · simp only [step, ptr_eq hh, e1, Option.map_some]
    · refine finish e2 e3 e4 rfl (fun x => ?_)
      have h1 := owners_set hh (some none) x
      simp only [reduceCtorEq, Option.some.injEq, if_false] at h1
      show (⟨s.own.masters, s.own.handles.set h (some none)⟩ : Own).owners x = _
      unfold sub1; omega
  | resetMaster b =>
    have hb : s.own.exists b := hl
    obtain ⟨blk, e, ha, hd, hm⟩ := deref_exists hb
    have hlen : b < s.blocks.length := (List.getElem?_eq_some_iff.mp e).1
    have how : ∀ x, (s.own.next (.resetMaster b)).owners x +
        (if x = b ∧ s.own.masters[b]? = some (some true) then 1 else 0) = s.own.owners x := by
      intro x
      have := owners_master s.own b (some false) hb x
      simpa [Own.next] using this
    have hc := hi.cnt b blk e
    cases hact : blk.active with
    | false =>
      have hsame : s.own.next (.resetMaster b) = s.own := by
        simp only [Own.next]
        have : s.own.masters.set b (some false) = s.own.masters := by
          apply List.ext_getElem?
          intro i
          rw [List.getElem?_set]
          split
          · rename_i hbi
            subst hbi
            rw [hm, hact]
            have : b < s.own.masters.length := by simpa [State.own] using hlen
            simp [this]
          · rfl
        rw [this]
      refine ⟨s, by simp [step, hd, hact], hi, hsame.symm, ?_⟩
      rw [hsame]
      exact Evo.refl fun _ h => h
    | true =>
      rw [hact] at hm
      have hb1 := how b
      simp only [hm, and_true, if_true] at hb1
      have hstep : step s (.resetMaster b) = some { s with blocks := s.blocks.set b { blk with
          active := false, count := (blk.count + 65535) % 65536,
          deletes := if (blk.count + 65535) % 65536 = 0 then blk.deletes + 1 else blk.deletes } } := by
        have hdr : deref (s.blocks.set b { blk with active := false }) b = some { blk with active := false } :=
          deref_eq (by simp [hlen]) ha
        simp only [step, hd, hact, if_true, decRef, hdr, wr_lt (show b < (s.blocks.set b { blk with active := false }).length by simpa using hlen), List.set_set, Option.map_some]
      have := set_block (s := s) (b := b) (blk := blk) (blk' := { blk with
          active := false, count := (blk.count + 65535) % 65536,
          deletes := if (blk.count + 65535) % 65536 = 0 then blk.deletes + 1 else blk.deletes }) hi e
        (o' := s.own.next (.resetMaster b)) (by simp [Own.next, masterOf, ha]; rfl)
        ⟨by simp only [hc.1]; omega, by omega, fun _ => ha⟩
        (by
          simp only
          by_cases h0 : (blk.count + 65535) % 65536 = 0
          · rw [if_pos h0, if_pos (by omega)]
          · rw [if_neg h0, if_neg (by omega)]; rfl)
        (by intro x hx; have := how x; simp [hx] at this; exact this)
      exact ⟨_, hstep, this⟩
  | destroy h =>
    have hh : s.own.live h := hl
    obtain ⟨bs, e1, e2, e3, e4⟩ := dropHandle_spec (p := s.own.target h) hi (fun x hx => target_owned hh hx)
    refine ⟨⟨bs, s.handles.set h none⟩, ?_, ?_⟩
    · simp only [step, ptr_eq hh, e1, Option.map_some]
    · refine finish e2 e3 e4 rfl (fun x => ?_)
      have h1 := owners_set hh none x
      simp only [reduceCtorEq, if_false] at h1
      show (⟨s.own.masters, s.own.handles.set h none⟩ : Own).owners x = _
      unfold sub1; omega
  | destroyMaster b =>
    obtain ⟨hb, hz⟩ := hl
    obtain ⟨blk, e, ha, hd, hm⟩ := deref_exists hb
    have hlen : b < s.blocks.length := (List.getElem?_eq_some_iff.mp e).1
    have how : ∀ x, (s.own.next (.destroyMaster b)).owners x +
        (if x = b ∧ s.own.masters[b]? = some (some true) then 1 else 0) = s.own.owners x := by
      intro x
      have := owners_master s.own b none hb x
      simpa [Own.next] using this
    have hc := hi.cnt b blk e
    have hb1 := how b
    have hob : s.own.owners b = if blk.active then 1 else 0 := by
      unfold Own.owners
      rw [hm, hz]
      cases blk.active <;> simp
    cases hact : blk.active with
    | false =>
      rw [hact] at hm hob
      simp only [hm, Option.some.injEq, Bool.false_eq_true, and_false, if_false] at hb1 hob
      have hstep : step s (.destroyMaster b) = some { s with blocks := s.blocks.set b { blk with
          active := false, alive := false } } := by
        simp [step, hd, hact, rd, e]
      have := set_block (s := s) (b := b) (blk := blk) (blk' := { blk with active := false, alive := false }) hi e
        (o' := s.own.next (.destroyMaster b)) (by simp [Own.next, masterOf]; rfl)
        ⟨by simp only [hc.1]; omega, by omega, fun _ => by omega⟩
        (by simp only; rw [if_neg (by omega)]; rfl)
        (by intro x hx; have := how x; simp [hx] at this; exact this)
      exact ⟨_, hstep, this⟩
    | true =>
      rw [hact] at hm hob
      simp only [hm, and_true, if_true] at hb1 hob
      have hstep : step s (.destroyMaster b) = some { s with blocks := s.blocks.set b { blk with
          active := false, alive := false, count := (blk.count + 65535) % 65536,
          deletes := if (blk.count + 65535) % 65536 = 0 then blk.deletes + 1 else blk.deletes } } := by
        simp [step, hd, hact, decRef, rd, wr, hlen, List.set_set]
      have := set_block (s := s) (b := b) (blk := blk) (blk' := { blk with
          active := false, alive := false, count := (blk.count + 65535) % 65536,
          deletes := if (blk.count + 65535) % 65536 = 0 then blk.deletes + 1 else blk.deletes }) hi e
        (o' := s.own.next (.destroyMaster b)) (by simp [Own.next, masterOf]; rfl)
        ⟨by simp only [hc.1]; omega, by omega, fun _ => by omega⟩
        (by
          simp only
          rw [if_pos (by omega), if_pos (by omega)])
        (by intro x hx; have := how x; simp [hx] at this; exact this)
      exact ⟨_, hstep, this⟩
  | assign h h' =>
    obtain ⟨hh, hh', hne, hc⟩ := hl
    obtain ⟨bs, e1, e2, e3, e4⟩ := dropHandle_spec (p := s.own.target h) hi (fun x hx => target_owned hh hx)
    have hown1 : ∀ x, s.own.target h' = some x → 0 < sub1 s.own.owners (s.own.target h) x := by
      intro x hx
      unfold sub1
      split
      · rename_i hx2
        -- two distinct handles point to x
        have h1 := owners_set hh (some none) x
        simp only [hx2, if_true, reduceCtorEq, Option.some.injEq, if_false] at h1
        have : 0 < (⟨s.own.masters, s.own.handles.set h (some none)⟩ : Own).owners x := by
          have hm : (⟨s.own.masters, s.own.handles.set h (some none)⟩ : Own).live h' := by
            unfold Own.live
            simp only [List.getElem?_set, hne, if_false]
            exact hh'
          refine target_owned hm ?_
          unfold Own.target
          simp only [List.getElem?_set, hne, if_false]
          exact hx
        omega
      · have := target_owned hh' hx; omega
    obtain ⟨bs', f1, f2, f3, f4⟩ := incRef_spec (p := s.own.target h') e2 (by
      intro x hx
      unfold Own.copyable at hc
      rw [hx] at hc
      refine ⟨by rw [e3]; exact hc.1, hown1 x hx, ?_⟩
      have := hc.2
      unfold Own.room at this
      unfold sub1; omega)
    have hptr : (⟨bs, s.handles.set h (some none)⟩ : State).ptr h' = some (s.own.target h') := by
      have := ptr_eq hh'
      unfold State.ptr rd at this ⊢
      simp only [List.getElem?_set, hne, if_false]
      exact this
    refine ⟨⟨bs', s.handles.set h (some (s.own.target h'))⟩, ?_, ?_⟩
    · simp only [step, ptr_eq hh, e1, hptr, f1, Option.map_some, List.set_set]
    · have hev := e4.trans f4 (by intro x hx; unfold sub1; omega) (by
        intro x hx
        unfold add1
        by_cases hx2 : s.own.target h' = some x
        · have := hown1 x hx2; omega
        · rw [if_neg hx2]; omega)
      refine finish f2 (by rw [f3, e3]) hev rfl (fun x => ?_)
      have h1 := owners_set hh (some (s.own.target h')) x
      simp only [Option.some.injEq] at h1
      show (⟨s.own.masters, s.own.handles.set h (some (s.own.target h'))⟩ : Own).owners x = _
      have h2 : (if s.own.target h = some x then 1 else 0) ≤ s.own.owners x := by
        split
        · rename_i hx; exact target_owned hh hx
        · omega
      unfold add1 sub1; omega
  | assignMaster h b =>
    obtain ⟨hh, hb, hr⟩ := hl
    obtain ⟨bs, e1, e2, e3, e4⟩ := dropHandle_spec (p := s.own.target h) hi (fun x hx => target_owned hh hx)
    have hb' : (⟨bs, s.handles⟩ : State).own.exists b := by
      unfold Own.exists
      show (bs.map masterOf)[b]?.join ≠ none
      rw [e3]; exact hb
    have hsh : masterPtr bs b = some (s.own.share b) := by
      have := share_eq hb'
      simp only [Own.share, State.own, e3] at this
      exact this
    have hown1 : ∀ x, s.own.share b = some x → 0 < sub1 s.own.owners (s.own.target h) x := by
      intro x hx
      obtain ⟨rfl, hm, _⟩ := share_some hx
      unfold sub1
      split
      · rename_i hx2
        have hmem := List.mem_of_getElem? (live_target hh)
        rw [hx2] at hmem
        have := List.count_pos_iff.mpr hmem
        unfold Own.owners
        rw [if_pos hm]; omega
      · have := (share_some hx).2.2; omega
    obtain ⟨bs', f1, f2, f3, f4⟩ := incRef_spec (p := s.own.share b) e2 (by
      intro x hx
      obtain ⟨rfl, hm, _⟩ := share_some hx
      refine ⟨by rw [e3]; exact hm, hown1 x hx, ?_⟩
      unfold Own.room at hr
      unfold sub1; omega)
    refine ⟨⟨bs', s.handles.set h (some (s.own.share b))⟩, ?_, ?_⟩
    · simp only [step, ptr_eq hh, e1, hsh, f1, Option.map_some]
    · have hev := e4.trans f4 (by intro x hx; unfold sub1; omega) (by
        intro x hx
        unfold add1
        by_cases hx2 : s.own.share b = some x
        · have := hown1 x hx2; omega
        · rw [if_neg hx2]; omega)
      refine finish f2 (by rw [f3, e3]) hev rfl (fun x => ?_)
      have h1 := owners_set hh (some (s.own.share b)) x
      simp only [Option.some.injEq] at h1
      show (⟨s.own.masters, s.own.handles.set h (some (s.own.share b))⟩ : Own).owners x = _
      have h2 : (if s.own.target h = some x then 1 else 0) ≤ s.own.owners x := by
        split
        · rename_i hx; exact target_owned hh hx
        · omega
      unfold add1 sub1; omega
  | swap h h' =>
    obtain ⟨hh, hh'⟩ := hl
    have := move_handles hi ((s.handles.set h (some (s.own.target h'))).set h' (some (s.own.target h))) (by
      intro x
      have h1 := owners_set hh (some (s.own.target h')) x
      by_cases hne : h = h'
      · subst hne
        simp only [List.set_set]
        simp only [Option.some.injEq] at h1
        have : (⟨s.own.masters, s.handles.set h (some (s.own.target h))⟩ : Own).owners x =
          (⟨s.own.masters, s.own.handles.set h (some (s.own.target h))⟩ : Own).owners x := rfl
        rw [this]; omega
      · have hm : (⟨s.own.masters, s.own.handles.set h (some (s.own.target h'))⟩ : Own).live h' := by
          unfold Own.live
          simp only [List.getElem?_set, hne, if_false]
          exact hh'
        have h2 := owners_set hm (some (s.own.target h)) x
        have ht : (⟨s.own.masters, s.own.handles.set h (some (s.own.target h'))⟩ : Own).target h' =
            s.own.target h' := by
          unfold Own.target
          simp only [List.getElem?_set, hne, if_false]
        rw [ht] at h2
        simp only [Option.some.injEq] at h1 h2
        show (⟨s.own.masters, (s.own.handles.set h (some (s.own.target h'))).set h' (some (s.own.target h))⟩ : Own).owners x = _
        omega)
    exact ⟨_, by simp only [step, ptr_eq hh, ptr_eq hh'], this⟩

theorem inv_init : Inv State.init := by
  constructor
  · intro b _; simp [State.init, State.own, Own.owners]
  · intro b blk h; simp [State.init] at h

/-- number of `Deleter()` calls for master `b` so far (0 for one that does not exist yet) -/
def State.deletes (s : State) (b : Nat) : Nat := (s.blocks[b]?).elim 0 (·.deletes)

theorem new_block_deletes (s s' : State) (op : Op) (hi : Inv s) (hl : s.own.legal op) (hs : step s op = some s')
    (b : Nat) : s'.deletes b = s.deletes b +
      (if 0 < s.own.owners b ∧ (s.own.next op).owners b = 0 then 1 else 0) := by
  obtain ⟨s2, h1, h2, h3, h4⟩ := step_ok s op hi hl
  rw [hs] at h1; cases h1
  unfold State.deletes
  cases hb : s.blocks[b]? with
  | some blk =>
    obtain ⟨blk', e, d⟩ := h4 b blk hb
    simp [e, d]
  | none =>
    have hlen : s.blocks.length ≤ b := by
      by_cases h : b < s.blocks.length
      · simp [h] at hb
      · omega
    have h0 := hi.out b hlen
    rw [if_neg (by omega)]
    cases hb' : s'.blocks[b]? with
    | none => rfl
    | some blk' =>
      -- a block that was not there before is fresh
      have : s'.blocks.length ≤ s.blocks.length ∨ ∃ blk, s'.blocks = s.blocks ++ [blk] ∧ blk.deletes = 0 := by
        have hown := congrArg (fun o => o.masters.length) h3
        simp only [State.own, List.length_map] at hown
        cases op <;> simp only [Own.next, List.length_set, List.length_append, List.length_map, State.own,
          List.length_singleton] at hown <;> first
          | (left; omega)
          | (right
             simp only [step, Option.some.injEq] at hs
             subst hs
             exact ⟨_, rfl, rfl⟩)
      rcases this with h | ⟨blk, h, hd⟩
      · rw [List.getElem?_eq_none (by omega)] at hb'; simp at hb'
      · rw [h, List.getElem?_append, if_neg (by omega)] at hb'
        have := List.mem_of_getElem? hb'
        simp at this
        subst this
        simp [hd]

/-- C29 over every legal history: no operation is undefined; who owns what is what the API says; `use_count()` asked
of any handle or owning master is the number of owners; and the deleter of each object has been called exactly once
for every time its last owner went away — in particular never while an owner remains, and never twice for one object.

Missing: copying a handle whose master has been reset, and self-assignment (both wrong in the code, see
`copy_after_master_reset`, `self_assign_releases`). -/
theorem shared_ptr_history_partial (ops : List Op) (hl : State.init.own.legalRun ops) :
    ∃ s, run State.init ops = some s ∧
      s.own = State.init.own.after ops ∧
      (∀ h b, s.own.live h → s.own.target h = some b → s.useCount h = some (s.own.owners b)) ∧
      (∀ h, s.own.live h → s.own.target h = none → s.useCount h = some 0) ∧
      (∀ b, s.own.masters[b]? = some (some true) → s.useCountMaster b = some (s.own.owners b)) ∧
      (∀ b, s.own.masters[b]? = some (some false) → s.useCountMaster b = some 0) ∧
      (∀ b, s.deletes b = State.init.own.releases b ops) := by
  suffices H : ∀ (ops : List Op) (s0 : State), Inv s0 → s0.own.legalRun ops → ∃ s, run s0 ops = some s ∧ Inv s ∧
      s.own = s0.own.after ops ∧ ∀ b, s.deletes b = s0.deletes b + s0.own.releases b ops by
    obtain ⟨s, h1, h2, h3, h4⟩ := H ops State.init inv_init hl
    refine ⟨s, h1, h3, ?_, ?_, ?_, ?_, ?_⟩
    · intro h b hh ht
      have ho := target_owned hh ht
      have hlen := h2.lt ho
      have hb : s.blocks[b]? = some s.blocks[b] := by simp [hlen]
      obtain ⟨c1, _, c3⟩ := h2.cnt b _ hb
      unfold State.useCount
      rw [ptr_eq hh, ht]
      simp only [deref_eq hb (c3 ho), Option.map_some, c1]
    · intro h hh ht
      unfold State.useCount
      rw [ptr_eq hh, ht]
    · intro b hb
      have he : s.own.exists b := by unfold Own.exists; rw [hb]; simp
      obtain ⟨blk, e, ha, hd, hm⟩ := deref_exists he
      rw [hm] at hb
      unfold State.useCountMaster
      rw [hd]
      simp at hb
      simp [hb, (h2.cnt b blk e).1]
    · intro b hb
      have he : s.own.exists b := by unfold Own.exists; rw [hb]; simp
      obtain ⟨blk, e, ha, hd, hm⟩ := deref_exists he
      rw [hm] at hb
      unfold State.useCountMaster
      rw [hd]
      simp at hb
      simp [hb]
    · intro b
      rw [h4 b]
      simp [State.deletes, State.init]
  intro ops
  induction ops with
  | nil =>
    intro s0 hi _
    exact ⟨s0, rfl, hi, rfl, fun b => rfl⟩
  | cons op ops ih =>
    intro s0 hi hl
    obtain ⟨hop, hrest⟩ := hl
    obtain ⟨s1, h1, h2, h3, h4⟩ := step_ok s0 op hi hop
    rw [← h3] at hrest
    obtain ⟨s, g1, g2, g3, g4⟩ := ih s1 h2 hrest
    refine ⟨s, by simp only [run, h1, g1], g2, ?_, ?_⟩
    · rw [g3, h3]; rfl
    · intro b
      rw [g4 b, new_block_deletes s0 s1 op hi hop h1 b, h3]
      simp only [Own.releases]
      omega

/-- A history using every kind of operation: both objects are deleted exactly once. -/
def sample : List Op :=
  [.newLayer2, .newLayer1, .construct 1, .fromMaster 0, .copy 0, .move 1, .resetMaster 0, .swap 0 2, .fromMaster 1,
   .assign 0 3, .reset 3, .destroy 2, .assignMaster 0 1, .reset 0, .destroyMaster 1]

example : State.init.own.legalRun sample ∧
    (run State.init sample).map (fun s => (s.deletes 0, s.deletes 1)) = some (1, 1) ∧
    (run State.init (sample.take 10)).map (fun s => (s.deletes 0, s.deletes 1, s.useCount 0, s.useCount 2)) =
      some (0, 0, some 3, some 1) := by decide +kernel

/-! ## The two defects -/

/-- Copying a handle after its master was reset does not count the new owner: in *every* reachable state where a
handle points to an object whose master no longer owns it, the copy succeeds and `use_count()` is one less than the
number of owners. -/
theorem copy_after_master_reset (s : State) (hi : Inv s) (h b : Nat) (hh : s.own.live h) (ht : s.own.target h = some b)
    (hm : s.own.masters[b]? = some (some false)) :
    ∃ s', step s (.copy h) = some s' ∧ s'.own = s.own.next (.copy h) ∧
      s'.useCount h = some (s'.own.owners b - 1) ∧ 2 ≤ s'.own.owners b := by
  have ho := target_owned hh ht
  have hlen := hi.lt ho
  have hb : s.blocks[b]? = some s.blocks[b] := by simp [hlen]
  obtain ⟨c1, _, c3⟩ := hi.cnt b _ hb
  have hal := c3 ho
  have hact : s.blocks[b].active = false := by
    have : s.own.masters[b]? = (s.blocks[b]?).map masterOf := by
      show (s.blocks.map masterOf)[b]? = _
      rw [List.getElem?_map]
    rw [this, hb] at hm
    simp [masterOf, hal] at hm
    exact hm
  refine ⟨⟨s.blocks, s.handles ++ [some (some b)]⟩, ?_, ?_, ?_, ?_⟩
  · simp only [step, ptr_eq hh, ht, incRef, deref_eq hb hal, hact, Bool.false_eq_true, if_false, Option.map_some]
  · simp only [Own.next, ht]; rfl
  · have hown : (⟨s.blocks, s.handles ++ [some (some b)]⟩ : State).own.owners b = s.own.owners b + 1 := by
      have := owners_push s.own (some (some b)) b
      simp only [if_true] at this
      exact this
    have hptr : (⟨s.blocks, s.handles ++ [some (some b)]⟩ : State).ptr h = some (some b) := by
      have h1 := live_target hh
      have h2 : h < s.handles.length := (List.getElem?_eq_some_iff.mp h1).1
      have h3 := ptr_eq hh
      unfold State.ptr rd at h3 ⊢
      simp only [List.getElem?_append, h2, if_true]
      rw [h3, ht]
    unfold State.useCount
    rw [hptr, hown]
    simp only [deref_eq hb hal, Option.map_some, c1]
    rfl
  · have := owners_push s.own (some (some b)) b
    have h2 : (⟨s.blocks, s.handles ++ [some (some b)]⟩ : State).own.owners b = s.own.owners b + 1 := by
      simp only [if_true] at this
      exact this
    omega

/-- **Violation.** … with the consequence that the deleter runs while an owner remains: in *every* reachable state where one
handle owns an object whose master has given it up, copy the handle and destroy the first — the object is deleted although
the copy still points to it. -/
theorem premature_delete (s : State) (hi : Inv s) (h b : Nat) (hh : s.own.live h) (ht : s.own.target h = some b)
    (hm : s.own.masters[b]? = some (some false)) (h1 : s.own.owners b = 1) :
    ∃ s', run s [.copy h, .destroy h] = some s' ∧ s'.own.target s.handles.length = some b ∧ s'.own.owners b = 1 ∧
      s'.deletes b = s.deletes b + 1 := by
  have ho := target_owned hh ht
  have hlen := hi.lt ho
  have hb : s.blocks[b]? = some s.blocks[b] := by simp [hlen]
  obtain ⟨c1, _, c3⟩ := hi.cnt b _ hb
  have hal := c3 ho
  have hact : s.blocks[b].active = false := by
    have : s.own.masters[b]? = (s.blocks[b]?).map masterOf := by
      show (s.blocks.map masterOf)[b]? = _
      rw [List.getElem?_map]
    rw [this, hb] at hm
    simp [masterOf, hal] at hm
    exact hm
  have hlt : h < s.handles.length := (List.getElem?_eq_some_iff.mp (live_target hh)).1
  have hcopy : step s (.copy h) = some ⟨s.blocks, s.handles ++ [some (some b)]⟩ := by
    simp only [step, ptr_eq hh, ht, incRef, deref_eq hb hal, hact, Bool.false_eq_true, if_false, Option.map_some]
  have hptr : (⟨s.blocks, s.handles ++ [some (some b)]⟩ : State).ptr h = some (some b) := by
    have h3 := ptr_eq hh
    unfold State.ptr rd at h3 ⊢
    simp only [List.getElem?_append, hlt, if_true]
    rw [h3, ht]
  have hcnt : s.blocks[b].count = 1 := by rw [c1]; exact h1
  have hd : decRef s.blocks b = some (s.blocks.set b { s.blocks[b] with count := 0, deletes := s.blocks[b].deletes + 1 }) := by
    simp only [decRef, deref_eq hb hal, hcnt, wr_lt hlen]
    simp
  refine ⟨⟨s.blocks.set b { s.blocks[b] with count := 0, deletes := s.blocks[b].deletes + 1 },
    (s.handles ++ [some (some b)]).set h none⟩, ?_, ?_, ?_, ?_⟩
  · simp only [run, hcopy]
    simp only [step, hptr, dropHandle, hd, Option.map_some]
  · simp only [Own.target, State.own]
    rw [List.getElem?_set_ne (by omega)]
    simp
  · have hget : s.handles[h]? = some (some (some b)) := by
      have := live_target hh
      rw [ht] at this
      exact this
    have hm' : (s.blocks.set b { s.blocks[b] with count := 0, deletes := s.blocks[b].deletes + 1 }).map masterOf =
        s.blocks.map masterOf := by
      rw [List.map_set]
      apply List.ext_getElem?
      intro i
      by_cases hib : b = i
      · subst hib
        simp [masterOf, hlen]
      · rw [List.getElem?_set_ne hib]
    have hown : s.own.owners b = 1 := h1
    unfold Own.owners at hown ⊢
    simp only [State.own, hm'] at hown ⊢
    have hc := count_set_add (s.handles ++ [some (some b)]) h (some (some b)) none (some (some b))
      (by rw [List.getElem?_append_left hlt]; exact hget)
    simp only [List.count_append, List.count_singleton, beq_self_eq_true, if_true, reduceCtorEq, if_false] at hc
    exact (congrArg (_ + ·) (Nat.add_right_cancel hc)).trans hown
  · simp [State.deletes, hlen]

example :
    ∃ s, run State.init [.newLayer2, .fromMaster 0, .resetMaster 0, .copy 0, .destroy 0] = some s ∧
      s.deletes 0 = 1 ∧ s.own.owners 0 = 1 ∧ s.own.target 1 = some 0 :=
  ⟨_, rfl, by decide +kernel⟩

/-- Assigning a handle to itself gives up its ownership: in every reachable state, a live non-null handle is null after
`h = h`. -/
theorem self_assign_releases (s : State) (hi : Inv s) (h b : Nat) (hh : s.own.live h) (ht : s.own.target h = some b) :
    ∃ s', step s (.assign h h) = some s' ∧ s'.own.target h = none ∧ s'.own.owners b + 1 = s.own.owners b := by
  obtain ⟨bs, e1, e2, e3, e4⟩ := dropHandle_spec (p := s.own.target h) hi (fun x hx => target_owned hh hx)
  have hlt : h < s.handles.length := (List.getElem?_eq_some_iff.mp (live_target hh)).1
  have hptr : (⟨bs, s.handles.set h (some none)⟩ : State).ptr h = some none := by
    simp [State.ptr, rd, hlt]
  refine ⟨⟨bs, s.handles.set h (some none)⟩, ?_, ?_, ?_⟩
  · simp only [step, ptr_eq hh, e1, hptr, incRef, Option.map_some, List.set_set]
  · simp [Own.target, State.own, hlt]
  · have h1 := owners_set hh (some none) b
    simp only [ht, if_true, reduceCtorEq, Option.some.injEq, if_false] at h1
    have : (⟨bs, s.handles.set h (some none)⟩ : State).own =
        (⟨s.own.masters, s.own.handles.set h (some none)⟩ : Own) := by
      simp only [State.own, e3]
    rw [this]; omega

example : ∃ s, run State.init [.newLayer2, .fromMaster 0, .resetMaster 0, .assign 0 0] = some s ∧ s.deletes 0 = 1 :=
  ⟨_, rfl, by decide +kernel⟩

end Verif.SharedPtr
