import Verif.SharedPtr.Props

/-!
# C29: what `get()`, `*`, `->`, `==` and `owner_before` of a `shared_ptr` give

Objects are named by their masters.
-/
namespace Verif.SharedPtr
open Spec

/-- `get()` of a handle, memory.h:266-273: `control().shared`, where `control()` (212-214) is what the handle points to.
`none`: a null pointer is dereferenced, or the control block is gone. -/
def State.get (s : State) (h : Nat) : Option Nat :=
  match s.ptr h with
  | some (some b) => (deref s.blocks b).map fun _ => b
  | _ => none

/-- `get()` of a master, memory.h:266-273: the control block is its own, and `shared` never changes (62). -/
def State.getMaster (s : State) (b : Nat) : Option Nat := (deref s.blocks b).map fun _ => b

/-- `operator ==` of two handles, memory.h:618-623 -/
def State.equal (s : State) (h h' : Nat) : Option Bool :=
  match s.get h, s.get h' with
  | some x, some y => some (x == y)
  | _, _ => none

/-- `owner_before` of two handles, memory.h:244-247; control blocks are ordered as they were made (simplification: any order
of addresses would do). -/
def State.ownerBefore (s : State) (h h' : Nat) : Option Bool :=
  match s.ptr h, s.ptr h' with
  | some (some b), some (some b') => some (decide (b < b'))
  | _, _ => none

/-! ## Which objects exist -/

/-- number of objects put under the management of `b` so far -/
def State.constructs (s : State) (b : Nat) : Nat := (s.blocks[b]?).elim 0 (·.constructs)

theorem cons_wr {bs bs' : List Block} {b : Nat} {blk blk' : Block} (hd : deref bs b = some blk) (hw : wr bs b blk' = some bs')
    (hc : blk'.constructs = blk.constructs) : bs'.map (·.constructs) = bs.map (·.constructs) := by
  have hb : bs[b]? = some blk := by
    unfold deref rd at hd
    cases e : bs[b]? with
    | none => simp [e] at hd
    | some x => rw [e] at hd; simp only at hd; split at hd <;> simp_all
  unfold wr at hw
  split at hw
  · cases hw
    apply List.ext_getElem?
    intro i
    simp only [List.getElem?_map, List.getElem?_set]
    by_cases hi : b = i
    · subst hi
      have hl := (List.getElem?_eq_some_iff.mp hb).1
      simp [hl, hb, hc]
      have := (List.getElem?_eq_some_iff.mp hb).2
      rw [this]
    · simp [hi]
  · cases hw

theorem cons_dec {bs bs' : List Block} {b : Nat} (h : decRef bs b = some bs') : bs'.map (·.constructs) = bs.map (·.constructs) := by
  unfold decRef at h
  cases hd : deref bs b with
  | none => rw [hd] at h; cases h
  | some blk => rw [hd] at h; exact cons_wr hd h rfl

theorem cons_drop {bs bs' : List Block} {p : Option Nat} (h : dropHandle bs p = some bs') :
    bs'.map (·.constructs) = bs.map (·.constructs) := by
  cases p with
  | none => simp only [dropHandle, Option.some.injEq] at h; rw [h]
  | some b => exact cons_dec h

theorem cons_inc {bs bs' : List Block} {p : Option Nat} (h : incRef bs p = some bs') :
    bs'.map (·.constructs) = bs.map (·.constructs) := by
  cases p with
  | none => simp only [incRef, Option.some.injEq] at h; rw [h]
  | some b =>
    simp only [incRef] at h
    cases hd : deref bs b with
    | none => rw [hd] at h; cases h
    | some blk =>
      rw [hd] at h; simp only at h
      split at h
      · exact cons_wr hd h rfl
      · cases h; rfl

/-- how many objects an operation puts under the management of `b`; `n` masters have been made so far -/
def news (n b : Nat) : Op → Nat
  | .construct b' => if b = b' then 1 else 0
  | .newLayer2 => if b = n then 1 else 0
  | _ => 0

theorem cons_set {bs : List Block} {b : Nat} {blk blk' : Block} (hb : bs[b]? = some blk) (hc : blk'.constructs = blk.constructs) :
    (bs.set b blk').map (·.constructs) = bs.map (·.constructs) := by
  apply List.ext_getElem?
  intro i
  simp only [List.getElem?_map, List.getElem?_set]
  by_cases hi : b = i
  · subst hi
    obtain ⟨hl, e⟩ := List.getElem?_eq_some_iff.mp hb
    simp [hl, e, hc]
  · simp [hi]

theorem deref_get {bs : List Block} {b : Nat} {blk : Block} (hd : deref bs b = some blk) : bs[b]? = some blk := by
  unfold deref rd at hd
  cases e : bs[b]? with
  | none => simp [e] at hd
  | some x => rw [e] at hd; simp only at hd; split at hd <;> simp_all

theorem cons_step {s s' : State} {op : Op} (h : step s op = some s') (b : Nat) :
    s'.constructs b = s.constructs b + news s.blocks.length b op := by
  have keep : ∀ {bs : List Block}, s'.blocks = bs → bs.map (·.constructs) = s.blocks.map (·.constructs) →
      news s.blocks.length b op = 0 → s'.constructs b = s.constructs b + news s.blocks.length b op := by
    intro bs e e' e''
    have := congrArg (fun l => (l[b]?).getD 0) e'
    simp only [List.getElem?_map] at this
    unfold State.constructs
    rw [e, e'']
    cases h1 : bs[b]? <;> cases h2 : s.blocks[b]? <;> simp_all
  have push : ∀ blk : Block, s'.blocks = s.blocks ++ [blk] →
      s'.constructs b = s.constructs b + if b = s.blocks.length then blk.constructs else 0 := by
    intro blk e
    unfold State.constructs
    rw [e]
    rcases Nat.lt_trichotomy b s.blocks.length with hl | rfl | hl
    · rw [List.getElem?_append_left hl, if_neg (by omega)]; rfl
    · simp
    · rw [List.getElem?_eq_none (by simp; omega), List.getElem?_eq_none (by omega), if_neg (by omega)]; rfl
  cases op with
  | newLayer1 =>
    simp only [step, Option.some.injEq] at h; subst h
    have := push _ rfl
    simpa [news] using this
  | newLayer2 =>
    simp only [step, Option.some.injEq] at h; subst h
    exact push _ rfl
  | construct c =>
    simp only [step] at h
    cases hd : deref s.blocks c with
    | none => rw [hd] at h; cases h
    | some blk =>
      rw [hd] at h
      simp only [Option.map_eq_some_iff] at h
      obtain ⟨bs, hw, rfl⟩ := h
      have hg := deref_get hd
      unfold wr at hw
      split at hw
      · cases hw
        simp only [State.constructs, List.getElem?_set, news]
        by_cases hc : c = b
        · subst hc; obtain ⟨hl, e⟩ := List.getElem?_eq_some_iff.mp hg; simp [hl, e]
        · simp only [if_neg hc, if_neg (Ne.symm hc)]; rfl
      · cases hw
  | fromMaster c =>
    simp only [step] at h
    cases hm : masterPtr s.blocks c with
    | none => rw [hm] at h; cases h
    | some p =>
      rw [hm] at h; simp only [Option.map_eq_some_iff] at h
      obtain ⟨bs, hi, rfl⟩ := h
      exact keep rfl (cons_inc hi) rfl
  | copy g =>
    simp only [step] at h
    cases hm : s.ptr g with
    | none => rw [hm] at h; cases h
    | some p =>
      rw [hm] at h; simp only [Option.map_eq_some_iff] at h
      obtain ⟨bs, hi, rfl⟩ := h
      exact keep rfl (cons_inc hi) rfl
  | move g =>
    simp only [step] at h
    cases hm : s.ptr g with
    | none => rw [hm] at h; cases h
    | some p => rw [hm] at h; cases h; exact keep rfl rfl rfl
  | reset g =>
    simp only [step] at h
    cases hm : s.ptr g with
    | none => rw [hm] at h; cases h
    | some p =>
      rw [hm] at h; simp only [Option.map_eq_some_iff] at h
      obtain ⟨bs, hi, rfl⟩ := h
      exact keep rfl (cons_drop hi) rfl
  | resetMaster c =>
    simp only [step] at h
    cases hd : deref s.blocks c with
    | none => rw [hd] at h; cases h
    | some blk =>
      rw [hd] at h; simp only at h
      split at h
      · simp only [Option.map_eq_some_iff] at h
        obtain ⟨bs, hi, rfl⟩ := h
        exact keep rfl ((cons_dec hi).trans (cons_set (deref_get hd) rfl)) rfl
      · cases h; exact keep rfl rfl rfl
  | destroy g =>
    simp only [step] at h
    cases hm : s.ptr g with
    | none => rw [hm] at h; cases h
    | some p =>
      rw [hm] at h; simp only [Option.map_eq_some_iff] at h
      obtain ⟨bs, hi, rfl⟩ := h
      exact keep rfl (cons_drop hi) rfl
  | destroyMaster c =>
    simp only [step] at h
    cases hd : deref s.blocks c with
    | none => rw [hd] at h; cases h
    | some blk =>
      rw [hd] at h; simp only at h
      cases hx : (if blk.active = true then decRef s.blocks c else some s.blocks) with
      | none => rw [hx] at h; cases h
      | some bs =>
        rw [hx] at h; simp only at h
        have hbs : bs.map (·.constructs) = s.blocks.map (·.constructs) := by
          split at hx
          · exact cons_dec hx
          · cases hx; rfl
        cases hr : rd bs c with
        | none => rw [hr] at h; cases h
        | some blk' =>
          rw [hr] at h; cases h
          exact keep rfl ((cons_set (blk' := { blk' with active := false, alive := false }) hr rfl).trans hbs) rfl
  | assign g g' =>
    simp only [step] at h
    cases hm : s.ptr g with
    | none => rw [hm] at h; cases h
    | some p =>
      rw [hm] at h; simp only at h
      cases hx : dropHandle s.blocks p with
      | none => rw [hx] at h; cases h
      | some bs =>
        rw [hx] at h; simp only at h
        split at h
        · simp only [Option.map_eq_some_iff] at h
          obtain ⟨bs', hi, rfl⟩ := h
          exact keep rfl ((cons_inc hi).trans (cons_drop hx)) rfl
        · cases h
  | assignMaster g c =>
    simp only [step] at h
    cases hm : s.ptr g with
    | none => rw [hm] at h; cases h
    | some p =>
      rw [hm] at h; simp only at h
      cases hx : dropHandle s.blocks p with
      | none => rw [hx] at h; cases h
      | some bs =>
        rw [hx] at h; simp only at h
        split at h
        · simp only [Option.map_eq_some_iff] at h
          obtain ⟨bs', hi, rfl⟩ := h
          exact keep rfl ((cons_inc hi).trans (cons_drop hx)) rfl
        · cases h
  | swap g g' =>
    simp only [step] at h
    split at h
    · cases h; exact keep rfl rfl rfl
    · cases h

/-- the number of owners rises from zero exactly when an object is put under management -/
theorem owners_rise (o : Own) (op : Op) (hl : o.legal op) (b : Nat) (h0 : o.owners b = 0) :
    (if 0 < (o.next op).owners b then 1 else 0) = news o.masters.length b op := by
  have hm0 : o.masters[b]? ≠ some (some true) := by
    intro h; simp [Own.owners, h] at h0
  have hh0 : ∀ g, o.live g → o.target g ≠ some b := fun g hg h => by have := target_owned hg h; omega
  have push : ∀ (p : Option Nat), p ≠ some b → ({ o with handles := o.handles ++ [some p] } : Own).owners b = 0 := by
    intro p hp
    rw [owners_push, h0, if_neg (by simpa using hp)]
  have set : ∀ (g : Nat) (v : Option (Option Nat)), o.live g → v ≠ some (some b) →
      ({ o with handles := o.handles.set g v } : Own).owners b = 0 := by
    intro g v hg hv
    have := owners_set hg v b
    rw [if_neg hv, h0] at this; omega
  have master : ∀ (c : Nat) (v : Option Bool), o.exists c → v ≠ some true →
      ({ o with masters := o.masters.set c v } : Own).owners b = 0 := by
    intro c v hc hv
    have := owners_master o c v hc b
    have e : (if b = c ∧ v = some true then 1 else 0) = 0 := if_neg fun h => hv h.2
    rw [h0, e] at this; omega
  have shr : ∀ c, o.share c ≠ some b := fun c h => by
    obtain ⟨rfl, -, h⟩ := share_some h; omega
  have zero : ∀ {n m : Nat}, n = 0 → m = 0 → (if 0 < n then 1 else 0) = m := by intro n m h h'; simp [h, h']
  cases op with
  | newLayer1 =>
    refine zero ?_ rfl
    unfold Own.owners at h0 ⊢
    simp only [Own.next]
    have : (o.masters ++ [some false])[b]? ≠ some (some true) := by
      rw [List.getElem?_append]
      split
      · exact hm0
      · rw [List.getElem?_singleton]; split <;> simp
    simp only [this, if_false]; rw [if_neg hm0] at h0; omega
  | newLayer2 =>
    have hc : o.handles.count (some (some b)) = 0 := by unfold Own.owners at h0; omega
    simp only [Own.next, Own.owners, hc, news, List.getElem?_append]
    rcases Nat.lt_trichotomy b o.masters.length with h | h | h
    · simp only [if_pos h, hm0, if_false, show ¬ b = o.masters.length by omega]; rfl
    · subst h; simp
    · have e : ([some true] : List (Option Bool))[b - o.masters.length]? = none := List.getElem?_eq_none (by simp; omega)
      simp [show ¬ b < o.masters.length by omega, show ¬ b = o.masters.length by omega, e]
  | construct c =>
    obtain ⟨h1, h2⟩ := hl
    have := owners_master o c (some true) h1 b
    have e : ({ o with masters := o.masters.set c (some true) } : Own).owners b = if b = c then 1 else 0 := by
      by_cases hb : b = c
      · subst hb
        rw [if_neg (by simp [hm0])] at this
        simp at this ⊢; omega
      · simp [hb] at this ⊢; omega
    show (if 0 < ({ o with masters := o.masters.set c (some true) } : Own).owners b then 1 else 0) = _
    rw [e]; simp only [news]; split <;> rfl
  | fromMaster c => exact zero (push _ (shr c)) rfl
  | copy g => exact zero (push _ (hh0 g hl.1)) rfl
  | move g =>
    refine zero ?_ rfl
    have h1 := set g (some none) hl (by simp)
    have h2 := owners_push { o with handles := o.handles.set g (some none) } (some (o.target g)) b
    simp only [Own.next]
    rw [h2, h1, if_neg (by simpa using hh0 g hl)]
  | reset g => exact zero (set g _ hl (by simp)) rfl
  | resetMaster c => exact zero (master c _ hl (by simp)) rfl
  | destroy g => exact zero (set g _ hl (by simp)) rfl
  | destroyMaster c => exact zero (master c _ hl.1 (by simp)) rfl
  | assign g g' => exact zero (set g _ hl.1 (by simpa using hh0 g' hl.2.1)) rfl
  | assignMaster g c => exact zero (set g _ hl.1 (by simpa using shr c)) rfl
  | swap g g' =>
    refine zero ?_ rfl
    have h1 := set g (some (o.target g')) hl.1 (by simpa using hh0 g' hl.2)
    have hlive : ({ o with handles := o.handles.set g (some (o.target g')) } : Own).live g' := by
      have := hl.2
      unfold Own.live at this ⊢
      simp only [List.getElem?_set]
      by_cases hgg : g = g'
      · subst hgg
        have := (List.getElem?_eq_some_iff.mp (live_target hl.1)).1
        simp [this]
      · rw [if_neg hgg]; exact this
    have h2 := owners_set hlive (some (o.target g)) b
    simp only [Own.next]
    have e : (if (some (o.target g) : Option (Option Nat)) = some (some b) then 1 else 0) = 0 := if_neg (by simpa using hh0 g hl.1)
    rw [e, h1] at h2
    exact Nat.eq_zero_of_add_eq_zero_right h2

/-- objects under management, after every legal history: one while there are owners, none otherwise -/
theorem objects_run (ops : List Op) (s0 : State) (hi : Inv s0) (hl : s0.own.legalRun ops)
    (h0 : ∀ b, s0.constructs b = s0.deletes b + if 0 < s0.own.owners b then 1 else 0) :
    ∃ s, run s0 ops = some s ∧ Inv s ∧ s.own = s0.own.after ops ∧
      ∀ b, s.constructs b = s.deletes b + if 0 < s.own.owners b then 1 else 0 := by
  induction ops generalizing s0 with
  | nil => exact ⟨s0, rfl, hi, rfl, h0⟩
  | cons op ops ih =>
    obtain ⟨hop, hrest⟩ := hl
    obtain ⟨s1, h1, h2, h3, h4⟩ := step_ok s0 op hi hop
    rw [← h3] at hrest
    obtain ⟨s, g1, g2, g3, g4⟩ := ih s1 h2 hrest (by
      intro b
      have e1 := cons_step h1 b
      have e2 := new_block_deletes s0 s1 op hi hop h1 b
      have e3 := h0 b
      rw [h3]
      have hlen : s0.own.masters.length = s0.blocks.length := by simp [State.own]
      by_cases hb : s0.own.owners b = 0
      · have e4 := owners_rise s0.own op hop b hb
        rw [hlen] at e4
        rw [if_neg (by omega)] at e2 e3
        omega
      · have hn : news s0.blocks.length b op = 0 := by
          cases op <;> simp only [news]
          · rw [if_neg]; rintro rfl; exact hb (hi.out _ (Nat.le_refl _))
          · rename_i c
            rw [if_neg]; rintro rfl; exact hb hop.2
        rw [if_pos (by omega)] at e3
        by_cases hb' : (s0.own.next op).owners b = 0
        · rw [if_pos ⟨by omega, hb'⟩] at e2; rw [if_neg (by omega)]; omega
        · rw [if_neg (by omega)] at e2; rw [if_pos (by omega)]; omega)
    exact ⟨s, by simp only [run, h1, g1], g2, by rw [g3, h3]; rfl, g4⟩

/-- C29, access: after every legal history, `get()`, `*` and `->` of a handle that points to something give the object of its
master, which exists (it has been put under management once more often than it was deleted), and `==` tells whether two
handles point to the same object.

Missing: handles that point to nothing (`get_null_ub`) and masters after `reset()` (`reset_master_dangles`). -/
theorem access_history_partial (ops : List Op) (hl : State.init.own.legalRun ops) :
    ∃ s, run State.init ops = some s ∧ s.own = State.init.own.after ops ∧
      (∀ h b, s.own.live h → s.own.target h = some b → s.get h = some b ∧ s.constructs b = s.deletes b + 1) ∧
      (∀ h h' b b', s.own.live h → s.own.live h' → s.own.target h = some b → s.own.target h' = some b' →
        s.equal h h' = some (decide (b = b')) ∧
        (s.ownerBefore h h' = some false ∧ s.ownerBefore h' h = some false ↔ b = b')) ∧
      (∀ b, s.own.masters[b]? = some (some true) → s.getMaster b = some b ∧ s.constructs b = s.deletes b + 1) ∧
      (∀ b, s.own.owners b = 0 → s.constructs b = s.deletes b) := by
  obtain ⟨s, h1, h2, h3, h4⟩ := objects_run ops State.init inv_init hl (by
    intro b; simp [State.constructs, State.deletes, State.init, State.own, Own.owners])
  have hget : ∀ h b, s.own.live h → s.own.target h = some b → s.get h = some b := by
    intro h b hh ht
    have ho := target_owned hh ht
    have hlen := h2.lt ho
    have hb : s.blocks[b]? = some s.blocks[b] := by simp [hlen]
    obtain ⟨-, -, c3⟩ := h2.cnt b _ hb
    simp [State.get, ptr_eq hh, ht, deref_eq hb (c3 ho)]
  refine ⟨s, h1, h3, ?_, ?_, ?_, ?_⟩
  · intro h b hh ht
    refine ⟨hget h b hh ht, ?_⟩
    rw [h4 b, if_pos (target_owned hh ht)]
  · intro h h' b b' hh hh' ht ht'
    refine ⟨?_, ?_⟩
    · simp only [State.equal, hget h b hh ht, hget h' b' hh' ht']
      rfl
    · simp only [State.ownerBefore, ptr_eq hh, ptr_eq hh', ht, ht', Option.some.injEq, decide_eq_false_iff_not]
      omega
  · intro b hb
    have he : s.own.exists b := by unfold Own.exists; rw [hb]; simp
    obtain ⟨blk, e, ha, hd, hm⟩ := deref_exists he
    refine ⟨by simp [State.getMaster, hd], ?_⟩
    rw [h4 b, if_pos (by simp [Own.owners, hb]; omega)]
  · intro b hb
    rw [h4 b, if_neg (by omega)]; rfl

example : State.init.own.legalRun [.newLayer2, .fromMaster 0, .copy 0, .newLayer1, .construct 1, .fromMaster 1, .resetMaster 0,
      .swap 0 2] ∧
    (run State.init [.newLayer2, .fromMaster 0, .copy 0, .newLayer1, .construct 1, .fromMaster 1, .resetMaster 0, .swap 0 2]).map
      (fun s => (s.get 0, s.get 1, s.equal 0 1, s.equal 1 2)) = some (some 1, some 0, some false, some true) := by decide +kernel

/-- **Violation.** `get()`, `*`, `->` and `==` of a handle that points to nothing (never given anything, reset or moved from)
dereference a null pointer, in every state; `std::shared_ptr` returns null and compares equal to null. -/
theorem get_null_ub (s : State) (h h' : Nat) (hh : s.own.live h) (ht : s.own.target h = none) :
    s.get h = none ∧ s.equal h h' = none ∧ s.equal h' h = none ∧ s.ownerBefore h h' = none := by
  have e : s.get h = none := by simp [State.get, ptr_eq hh, ht]
  refine ⟨e, by simp [State.equal, e], ?_, by simp [State.ownerBefore, ptr_eq hh, ht]⟩
  unfold State.equal
  rw [e]
  split
  · rename_i h2; cases h2
  · rfl

/-- so after `reset()`, and after a move, in every legal history -/
theorem moved_from_get_ub (ops : List Op) (h : Nat) (op : Op) (hop : op = .reset h ∨ op = .move h)
    (hl : State.init.own.legalRun (ops ++ [op])) : ∃ s, run State.init (ops ++ [op]) = some s ∧ s.get h = none := by
  obtain ⟨s, h1, h3, -⟩ := access_history_partial (ops ++ [op]) hl
  have legal_app : ∀ (ops : List Op) (o : Own), o.legalRun (ops ++ [op]) → (o.after ops).legal op := by
    intro ops
    induction ops with
    | nil => intro o h; exact h.1
    | cons x xs ih => intro o h; exact ih _ h.2
  have hop' := legal_app ops _ hl
  generalize ho : State.init.own.after ops = o at hop'
  have hs : s.own = o.next op := by rw [h3, ← ho]; simp [Own.after]
  refine ⟨s, h1, ?_⟩
  have key : ∀ (v : List (Option (Option Nat))), s.handles = o.handles.set h (some none) ++ v → o.live h → s.get h = none := by
    intro v hv hlive
    have hlt := (List.getElem?_eq_some_iff.mp (live_target hlive)).1
    have : s.handles[h]? = some (some none) := by
      rw [hv, List.getElem?_append_left (by simpa using hlt)]; simp [hlt]
    simp [State.get, State.ptr, rd, this]
  rcases hop with rfl | rfl
  · exact key [] (by have := congrArg Own.handles hs; simpa [State.own, Own.next] using this) hop'
  · exact key [some (o.target h)] (by have := congrArg Own.handles hs; simpa [State.own, Own.next] using this) hop'

/-- **Violation.** A master that has been reset still returns the address of its former object from `get()`, even when that
object has been deleted. -/
theorem reset_master_dangles (ops : List Op) (hl : State.init.own.legalRun ops) :
    ∃ s, run State.init ops = some s ∧ ∀ b, s.own.masters[b]? = some (some false) →
      s.getMaster b = some b ∧ (s.own.owners b = 0 → s.constructs b = s.deletes b) := by
  obtain ⟨s, h1, -, -, -, -, h⟩ := access_history_partial ops hl
  refine ⟨s, h1, fun b hb => ⟨?_, h b⟩⟩
  have he : s.own.exists b := by unfold Own.exists; rw [hb]; simp
  obtain ⟨blk, e, ha, hd, hm⟩ := deref_exists he
  simp [State.getMaster, hd]

example : State.init.own.legalRun [.newLayer2, .resetMaster 0] ∧
    (run State.init [.newLayer2, .resetMaster 0]).map (fun s => (s.getMaster 0, s.constructs 0, s.deletes 0)) =
      some (some 0, 1, 1) := by decide +kernel

end Verif.SharedPtr
