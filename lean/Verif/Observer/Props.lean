import Verif.Observer.Spec

/-!
# C93: every observer that has a function for an event is called once, in order
-/
namespace Verif.Observer
open Spec (Place Obs way calls replay effect)
variable {σ ε γ : Type}

/-- the list of observers a subject stands for -/
def flat : Sub σ ε γ → List (Obs σ ε γ)
  | .nil => []
  | .ref c a r => ⟨c, .shared a, []⟩ :: flat r
  | .val c s r => ⟨c, .own s, []⟩ :: flat r
  | .proxy ks i r => (flat i).map (fun o => { o with gates := ks :: o.gates }) ++ flat r

/-- the state of a program as the specification sees it -/
def World.abs (w : World σ ε γ) : Spec.World σ ε γ := ⟨w.subs.map flat, w.heap⟩

theorem flat_length (s : Sub σ ε γ) : (flat s).length = s.count := by
  induction s with
  | nil => rfl
  | ref c a r ih => simp [flat, Sub.count, ih]
  | val c a r ih => simp [flat, Sub.count, ih]
  | proxy ks i r ih1 ih2 => simp [flat, Sub.count, ih1, ih2]

/-- `Spec.calls` with the observers numbered from `j` -/
def callsFrom (i j : Nat) (ctx : Bool) (ev : Ev ε) (l : List (Obs σ ε γ)) : List (Call σ ε γ) :=
  (l.zipIdx j).filterMap fun p => (way ctx p.1 ev.kind).map fun b =>
    ⟨match p.1.place with | .shared a => .at_ a | .own _ => .own i p.2, p.1.cls, b, ev⟩

theorem callsFrom_append (i j : Nat) (ctx : Bool) (ev : Ev ε) (l m : List (Obs σ ε γ)) :
    callsFrom i j ctx ev (l ++ m) = callsFrom i j ctx ev l ++ callsFrom i (j + l.length) ctx ev m := by
  simp [callsFrom, List.zipIdx_append]

theorem callsFrom_cons (i j : Nat) (ctx : Bool) (ev : Ev ε) (o : Obs σ ε γ) (m : List (Obs σ ε γ)) :
    callsFrom i j ctx ev (o :: m) = (match way ctx o ev.kind with
      | none => []
      | some b => [⟨match o.place with | .shared a => .at_ a | .own _ => .own i j, o.cls, b, ev⟩]) ++ callsFrom i (j + 1) ctx ev m := by
  simp only [callsFrom, List.zipIdx_cons, List.filterMap_cons]
  cases way ctx o ev.kind <;> rfl

theorem way_gate (ctx : Bool) (o : Obs σ ε γ) (ks : List Nat) (k : Nat) :
    way ctx { o with gates := ks :: o.gates } k = if k ∈ ks then way false o k else none := by
  unfold way
  by_cases hk : k ∈ ks
  · by_cases hg : o.gates = []
    · simp [hk, hg]
      cases o.cls.has k <;> rfl
    · simp [hk, hg]
  · simp [hk]

theorem callsFrom_gate (i : Nat) (ctx : Bool) (ev : Ev ε) (ks : List Nat) : ∀ (l : List (Obs σ ε γ)) (j : Nat),
    callsFrom i j ctx ev (l.map fun o => { o with gates := ks :: o.gates }) =
      if ev.kind ∈ ks then callsFrom i j false ev l else [] := by
  intro l
  induction l with
  | nil => intro j; simp [callsFrom]
  | cons o l ih =>
    intro j
    rw [List.map_cons, callsFrom_cons, ih, way_gate, callsFrom_cons]
    by_cases hk : ev.kind ∈ ks
    · simp only [hk, if_true]
    · simp only [hk, if_false, List.append_nil]

/-- what `st` must say of the observers of `s`, numbered from `j` in subject `i` -/
def Fits (i j : Nat) (l : List (Obs σ ε γ)) (h : Nat → σ) (st : Who → Option σ) : Prop :=
  (∀ a, st (.at_ a) = some (h a)) ∧
  ∀ k o, l[k]? = some o → st (.own i (j + k)) = match o.place with | .own s => some s | .shared _ => none

/-- nothing but the observers numbered from `j` to `j + n` in subject `i`, and those with names, differ -/
def Frame (i j n : Nat) (st st' : Who → Option σ) : Prop :=
  ∀ i' j', (i' ≠ i ∨ j' < j ∨ j + n ≤ j') → st' (.own i' j') = st (.own i' j')

theorem Frame.trans {i j n m : Nat} {st st' st'' : Who → Option σ} (h1 : Frame i j n st st') (h2 : Frame i (j + n) m st' st'') :
    Frame i j (n + m) st st'' := by
  intro i' j' h
  rw [h2 i' j' (by omega), h1 i' j' (by omega)]

theorem fits_append {i j : Nat} {l m : List (Obs σ ε γ)} {h : Nat → σ} {st : Who → Option σ} :
    Fits i j (l ++ m) h st ↔ Fits i j l h st ∧ Fits i (j + l.length) m h st := by
  constructor
  · rintro ⟨h1, h2⟩
    refine ⟨⟨h1, fun k o hk => h2 k o ?_⟩, ⟨h1, fun k o hk => ?_⟩⟩
    · rw [List.getElem?_append_left (List.getElem?_eq_some_iff.mp hk).1, hk]
    · rw [Nat.add_assoc]
      apply h2
      rw [List.getElem?_append_right (by omega), ← hk]
      congr 1; omega
  · rintro ⟨⟨h1, h2⟩, -, h3⟩
    refine ⟨h1, fun k o hk => ?_⟩
    by_cases hc : k < l.length
    · rw [List.getElem?_append_left hc] at hk; exact h2 k o hk
    · rw [List.getElem?_append_right (by omega)] at hk
      have := h3 _ o hk
      rw [← this]; congr 2; omega

theorem fits_gate {i j : Nat} {l : List (Obs σ ε γ)} {h : Nat → σ} {st : Who → Option σ} (ks : List Nat) :
    Fits i j (l.map fun o => { o with gates := ks :: o.gates }) h st ↔ Fits i j l h st := by
  unfold Fits
  simp only [List.getElem?_map, Option.map_eq_some_iff]
  constructor
  · rintro ⟨h1, h2⟩
    exact ⟨h1, fun k o hk => h2 k { o with gates := ks :: o.gates } ⟨o, hk, rfl⟩⟩
  · rintro ⟨h1, h2⟩
    refine ⟨h1, ?_⟩
    rintro k o ⟨p, hp, rfl⟩
    exact h2 k p hp

theorem fits_cons {i j : Nat} {o : Obs σ ε γ} {m : List (Obs σ ε γ)} {h : Nat → σ} {st : Who → Option σ} :
    Fits i j (o :: m) h st ↔ st (.own i j) = (match o.place with | .own s => some s | .shared _ => none) ∧ Fits i (j + 1) m h st := by
  have := fits_append (i := i) (j := j) (l := [o]) (m := m) (h := h) (st := st)
  rw [List.singleton_append] at this
  rw [this]
  constructor
  · rintro ⟨h1, h2⟩; exact ⟨h1.2 0 o rfl, h2⟩
  · rintro ⟨h1, h2⟩
    refine ⟨⟨h2.1, fun k p hk => ?_⟩, h2⟩
    cases k with
    | zero => simp only [List.getElem?_cons_zero, Option.some.injEq] at hk; subst hk; exact h1
    | succ k => simp at hk

/-- the frame rule: states outside do not matter for `Fits` -/
theorem Fits.mono {i j n : Nat} {l : List (Obs σ ε γ)} {h h' : Nat → σ} {st st' : Who → Option σ} {j0 : Nat} (hf : Fits i j l h st)
    (hfr : Frame i j0 n st st') (hd : j0 + n ≤ j ∨ j + l.length ≤ j0) (hh : ∀ a, st' (.at_ a) = some (h' a)) : Fits i j l h' st' := by
  refine ⟨hh, fun k o hk => ?_⟩
  have := (List.getElem?_eq_some_iff.mp hk).1
  rw [hfr i (j + k) (by omega), hf.2 k o hk]

theorem replay_append (a b : List (Call σ ε γ)) (st : Who → Option σ) (x : γ) :
    replay (a ++ b) st x = replay b (replay a st x).1 (replay a st x).2 := by
  induction a generalizing st x with
  | nil => rfl
  | cons c cs ih =>
    simp only [List.cons_append, replay]
    split <;> exact ih _ _

theorem forall₂_refl_like (l : List (Obs σ ε γ)) : List.Forall₂ Obs.Like l l := by
  induction l with
  | nil => exact .nil
  | cons o l ih =>
    refine .cons ⟨rfl, rfl, ?_⟩ ih
    cases o.place <;> simp

theorem like_gate {l m : List (Obs σ ε γ)} (ks : List Nat) (h : List.Forall₂ Obs.Like l m) :
    List.Forall₂ Obs.Like (l.map fun o => { o with gates := ks :: o.gates }) (m.map fun o => { o with gates := ks :: o.gates }) := by
  induction h with
  | nil => exact .nil
  | cons h _ ih => exact .cons ⟨h.1, by simp only [h.2.1], h.2.2⟩ ih

theorem like_append {l m l' m' : List (Obs σ ε γ)} (h : List.Forall₂ Obs.Like l m) (h' : List.Forall₂ Obs.Like l' m') :
    List.Forall₂ Obs.Like (l ++ l') (m ++ m') := by
  induction h with
  | nil => exact h'
  | cons h _ ih => exact .cons h ih

/-- the effect of notifying one observer, as the specification sees it -/
theorem notify_flat (i : Nat) (ev : Ev ε) (s : Sub σ ε γ) : ∀ (j : Nat) (h : Nat → σ) (st : Who → Option σ) (x : γ),
    Fits i j (flat s) h st →
    (notify i ev j s h).2.2 = callsFrom i j false ev (flat s) ∧
    List.Forall₂ Obs.Like (flat s) (flat (notify i ev j s h).1) ∧
    Fits i j (flat (notify i ev j s h).1) (notify i ev j s h).2.1 (replay (notify i ev j s h).2.2 st x).1 ∧
    Frame i j (flat s).length st (replay (notify i ev j s h).2.2 st x).1 ∧
    (replay (notify i ev j s h).2.2 st x).2 = x := by
  induction s with
  | nil =>
    intro j h st x hf
    exact ⟨rfl, .nil, hf, fun _ _ _ => rfl, rfl⟩
  | ref c a r ih =>
    intro j h st x hf
    rw [flat] at hf
    obtain ⟨h1, h2⟩ := fits_cons.mp hf
    have hl : Obs.Like (⟨c, .shared a, []⟩ : Obs σ ε γ) ⟨c, .shared a, []⟩ := ⟨rfl, rfl, rfl⟩
    have hno : helper c (h a) ev = none → way false (⟨c, .shared a, []⟩ : Obs σ ε γ) ev.kind = none := by
      unfold helper way
      cases c.has ev.kind <;> simp
    have hyes : ∀ s, helper c (h a) ev = some s → s = c.plain (h a) ev ∧ way false (⟨c, .shared a, []⟩ : Obs σ ε γ) ev.kind = some false := by
      intro s
      unfold helper way
      cases c.has ev.kind <;> simp [eq_comm]
    rw [notify]
    cases hh : helper c (h a) ev with
    | none =>
      dsimp only
      obtain ⟨a1, a2, a3, a4, a5⟩ := ih (j + 1) h st x h2
      refine ⟨?_, .cons hl a2, ?_, ?_, a5⟩
      · rw [a1, flat, callsFrom_cons, hno hh]; rfl
      · rw [flat]
        refine fits_cons.mpr ⟨?_, a3⟩
        rw [a4 i j (by omega), h1]
      · intro i' j' hij
        exact a4 i' j' (by simp only [flat, List.length_cons] at hij; omega)
    | some s =>
      dsimp only
      obtain ⟨rfl, hw⟩ := hyes s hh
      have hst : st (.at_ a) = some (h a) := hf.1 a
      have h3 : Fits i (j + 1) (flat r) (upd h a (c.plain (h a) ev))
          (fun w => if w = .at_ a then some (c.plain (h a) ev) else st w) := by
        refine ⟨fun b => ?_, fun k o hk => ?_⟩
        · by_cases hb : b = a
          · subst hb; simp [upd]
          · simp [hb, upd, h2.1 b]
        · simp [h2.2 k o hk]
      obtain ⟨a1, a2, a3, a4, a5⟩ := ih (j + 1) _ _ x h3
      have hrep : ∀ cs : List (Call σ ε γ), replay (⟨.at_ a, c, false, ev⟩ :: cs) st x =
          replay cs (fun w => if w = .at_ a then some (c.plain (h a) ev) else st w) x := by
        intro cs
        rw [replay]
        simp [hst, effect]
      rw [hrep]
      refine ⟨?_, .cons hl a2, ?_, ?_, a5⟩
      · rw [a1, flat, callsFrom_cons, hw]; rfl
      · rw [flat]
        refine fits_cons.mpr ⟨?_, a3⟩
        rw [a4 i j (by omega)]
        simp [h1]
      · intro i' j' hij
        rw [a4 i' j' (by simp only [flat, List.length_cons] at hij; omega)]
        simp
  | val c s r ih =>
    intro j h st x hf
    rw [flat] at hf
    obtain ⟨h1, h2⟩ := fits_cons.mp hf
    have hl : ∀ s', Obs.Like (⟨c, .own s, []⟩ : Obs σ ε γ) ⟨c, .own s', []⟩ := fun _ => ⟨rfl, rfl, trivial⟩
    have hno : helper c s ev = none → way false (⟨c, .own s, []⟩ : Obs σ ε γ) ev.kind = none := by
      unfold helper way
      cases c.has ev.kind <;> simp
    have hyes : ∀ s', helper c s ev = some s' → s' = c.plain s ev ∧ way false (⟨c, .own s, []⟩ : Obs σ ε γ) ev.kind = some false := by
      intro s'
      unfold helper way
      cases c.has ev.kind <;> simp [eq_comm]
    rw [notify]
    cases hh : helper c s ev with
    | none =>
      dsimp only
      obtain ⟨a1, a2, a3, a4, a5⟩ := ih (j + 1) h st x h2
      refine ⟨?_, .cons (hl s) a2, ?_, ?_, a5⟩
      · rw [a1, flat, callsFrom_cons, hno hh]; rfl
      · rw [flat]
        refine fits_cons.mpr ⟨?_, a3⟩
        rw [a4 i j (by omega), h1]
      · intro i' j' hij
        exact a4 i' j' (by simp only [flat, List.length_cons] at hij; omega)
    | some s' =>
      dsimp only
      obtain ⟨rfl, hw⟩ := hyes s' hh
      have h3 : Fits i (j + 1) (flat r) h (fun w => if w = .own i j then some (c.plain s ev) else st w) := by
        refine ⟨fun b => by simp [h2.1 b], fun k o hk => ?_⟩
        have : ¬ (j + 1 + k = j) := by omega
        simp [h2.2 k o hk, this]
      obtain ⟨a1, a2, a3, a4, a5⟩ := ih (j + 1) _ _ x h3
      have hrep : ∀ cs : List (Call σ ε γ), replay (⟨.own i j, c, false, ev⟩ :: cs) st x =
          replay cs (fun w => if w = .own i j then some (c.plain s ev) else st w) x := by
        intro cs
        rw [replay]
        simp [h1, effect]
      rw [hrep]
      refine ⟨?_, .cons (hl _) a2, ?_, ?_, a5⟩
      · rw [a1, flat, callsFrom_cons, hw]; rfl
      · rw [flat]
        refine fits_cons.mpr ⟨?_, a3⟩
        rw [a4 i j (by omega)]
        simp
      · intro i' j' hij
        simp only [flat, List.length_cons] at hij
        rw [a4 i' j' (by omega)]
        have : ¬ (i' = i ∧ j' = j) := by omega
        simp [this]
  | proxy ks inner r ih1 ih2 =>
    intro j h st x hf
    rw [flat] at hf
    obtain ⟨h1, h2⟩ := fits_append.mp hf
    rw [List.length_map] at h2
    rw [fits_gate] at h1
    rw [notify]
    by_cases hk : ev.kind ∈ ks
    · rw [if_pos hk]
      dsimp only
      obtain ⟨a1, a2, a3, a4, a5⟩ := ih1 j h st x h1
      have hlen : (flat (notify i ev j inner h).1).length = (flat inner).length := a2.length_eq.symm
      have h3 : Fits i (j + inner.count) (flat r) (notify i ev j inner h).2.1 (replay (notify i ev j inner h).2.2 st x).1 := by
        rw [← flat_length]
        exact h2.mono a4 (by omega) a3.1
      obtain ⟨b1, b2, b3, b4, b5⟩ := ih2 (j + inner.count) _ _ x h3
      rw [replay_append, a5]
      refine ⟨?_, ?_, ?_, ?_, b5⟩
      · rw [a1, b1, flat, callsFrom_append, callsFrom_gate, if_pos hk, List.length_map, flat_length]
      · rw [flat, flat]
        exact like_append (like_gate ks a2) b2
      · rw [flat]
        refine fits_append.mpr ⟨(fits_gate ks).mpr ?_, ?_⟩
        · exact a3.mono b4 (by have := flat_length inner; omega) b3.1
        · rw [List.length_map, hlen, flat_length]; exact b3
      · rw [flat, List.length_append, List.length_map]
        have e := flat_length inner
        intro i' j' hij
        rw [b4 i' j' (by omega), a4 i' j' (by omega)]
    · rw [if_neg hk]
      dsimp only
      rw [flat_length] at h2
      obtain ⟨b1, b2, b3, b4, b5⟩ := ih2 (j + inner.count) h st x h2
      refine ⟨?_, ?_, ?_, ?_, b5⟩
      · rw [b1, flat, callsFrom_append, callsFrom_gate, if_neg hk, List.length_map, flat_length, List.nil_append]
      · rw [flat, flat]
        exact like_append (forall₂_refl_like _) b2
      · rw [flat]
        refine fits_append.mpr ⟨(fits_gate ks).mpr ?_, ?_⟩
        · exact h1.mono b4 (by have := flat_length inner; omega) b3.1
        · rw [List.length_map, flat_length]; exact b3
      · intro i' j' hij
        rw [flat, List.length_append, List.length_map, flat_length] at hij
        exact b4 i' j' (by omega)

/-- no observer that is listed directly has both functions for this type of event -/
def Spec.Clear (kind : Nat) (l : List (Obs σ ε γ)) : Prop := ∀ o ∈ l, o.gates = [] → o.cls.has kind ≠ .both

theorem notifyCtx_flat (i : Nat) (ev : Ev ε) (s : Sub σ ε γ) : ∀ (j : Nat) (h : Nat → σ) (st : Who → Option σ) (x : γ),
    Fits i j (flat s) h st → Spec.Clear ev.kind (flat s) →
    ∃ t h' x' cs, notifyCtx i ev j s h x = some (t, h', x', cs) ∧
    cs = callsFrom i j true ev (flat s) ∧
    List.Forall₂ Obs.Like (flat s) (flat t) ∧
    Fits i j (flat t) h' (replay cs st x).1 ∧
    Frame i j (flat s).length st (replay cs st x).1 ∧
    (replay cs st x).2 = x' := by
  induction s with
  | nil =>
    intro j h st x hf _
    exact ⟨_, _, _, _, rfl, rfl, .nil, hf, fun _ _ _ => rfl, rfl⟩
  | ref c a r ih =>
    intro j h st x hf hcl
    rw [flat] at hf hcl
    obtain ⟨h1, h2⟩ := fits_cons.mp hf
    have hcl' : Spec.Clear ev.kind (flat r) := fun o ho => hcl o (by simp [ho])
    have hnb : c.has ev.kind ≠ .both := hcl ⟨c, .shared a, []⟩ (by simp) rfl
    have hl : Obs.Like (⟨c, .shared a, []⟩ : Obs σ ε γ) ⟨c, .shared a, []⟩ := ⟨rfl, rfl, rfl⟩
    rw [notifyCtx]
    cases hh : helperCtx c (h a) ev x with
    | none =>
      exfalso
      unfold helperCtx at hh
      cases hc : c.has ev.kind <;> simp_all
    | some y =>
      cases y with
      | none =>
        have hw : way true (⟨c, .shared a, []⟩ : Obs σ ε γ) ev.kind = none := by
          unfold helperCtx at hh
          unfold way
          cases hc : c.has ev.kind <;> simp_all
        obtain ⟨t, h', x', cs, e, a1, a2, a3, a4, a5⟩ := ih (j + 1) h st x h2 hcl'
        refine ⟨.ref c a t, h', x', cs, by simp [e], ?_, .cons hl a2, ?_, ?_, a5⟩
        · rw [a1, flat, callsFrom_cons, hw]; rfl
        · rw [flat]
          refine fits_cons.mpr ⟨?_, a3⟩
          rw [a4 i j (by omega), h1]
        · intro i' j' hij
          exact a4 i' j' (by simp only [flat, List.length_cons] at hij; omega)
      | some z =>
        obtain ⟨s, x1, b⟩ := z
        have hw : way true (⟨c, .shared a, []⟩ : Obs σ ε γ) ev.kind = some b ∧
            effect (⟨.at_ a, c, b, ev⟩ : Call σ ε γ) (h a) x = (s, x1) := by
          unfold helperCtx at hh
          unfold way effect
          cases hc : c.has ev.kind <;> simp_all
          obtain ⟨rfl, rfl, rfl⟩ := hh; simp
        have hst : st (.at_ a) = some (h a) := hf.1 a
        have h3 : Fits i (j + 1) (flat r) (upd h a s) (fun w => if w = .at_ a then some s else st w) := by
          refine ⟨fun b => ?_, fun k o hk => ?_⟩
          · by_cases hb : b = a
            · subst hb; simp [upd]
            · simp [hb, upd, h2.1 b]
          · simp [h2.2 k o hk]
        obtain ⟨t, h', x', cs, e, a1, a2, a3, a4, a5⟩ := ih (j + 1) _ _ x1 h3 hcl'
        have hrep : replay ((⟨.at_ a, c, b, ev⟩ : Call σ ε γ) :: cs) st x =
            replay cs (fun w => if w = .at_ a then some s else st w) x1 := by
          rw [replay]
          simp [hst, hw.2]
        refine ⟨.ref c a t, h', x', ⟨.at_ a, c, b, ev⟩ :: cs, by simp [e], ?_, .cons hl a2, ?_, ?_, by rw [hrep]; exact a5⟩
        · rw [a1, flat, callsFrom_cons, hw.1]; rfl
        · rw [flat, hrep]
          refine fits_cons.mpr ⟨?_, a3⟩
          rw [a4 i j (by omega)]
          simp [h1]
        · rw [hrep]
          intro i' j' hij
          rw [a4 i' j' (by simp only [flat, List.length_cons] at hij; omega)]
          simp
  | val c s r ih =>
    intro j h st x hf hcl
    rw [flat] at hf hcl
    obtain ⟨h1, h2⟩ := fits_cons.mp hf
    have hcl' : Spec.Clear ev.kind (flat r) := fun o ho => hcl o (by simp [ho])
    have hnb : c.has ev.kind ≠ .both := hcl ⟨c, .own s, []⟩ (by simp) rfl
    have hl : ∀ s', Obs.Like (⟨c, .own s, []⟩ : Obs σ ε γ) ⟨c, .own s', []⟩ := fun _ => ⟨rfl, rfl, trivial⟩
    rw [notifyCtx]
    cases hh : helperCtx c s ev x with
    | none =>
      exfalso
      unfold helperCtx at hh
      cases hc : c.has ev.kind <;> simp_all
    | some y =>
      cases y with
      | none =>
        have hw : way true (⟨c, .own s, []⟩ : Obs σ ε γ) ev.kind = none := by
          unfold helperCtx at hh
          unfold way
          cases hc : c.has ev.kind <;> simp_all
        obtain ⟨t, h', x', cs, e, a1, a2, a3, a4, a5⟩ := ih (j + 1) h st x h2 hcl'
        refine ⟨.val c s t, h', x', cs, by simp [e], ?_, .cons (hl s) a2, ?_, ?_, a5⟩
        · rw [a1, flat, callsFrom_cons, hw]; rfl
        · rw [flat]
          refine fits_cons.mpr ⟨?_, a3⟩
          rw [a4 i j (by omega), h1]
        · intro i' j' hij
          exact a4 i' j' (by simp only [flat, List.length_cons] at hij; omega)
      | some z =>
        obtain ⟨s', x1, b⟩ := z
        have hw : way true (⟨c, .own s, []⟩ : Obs σ ε γ) ev.kind = some b ∧
            effect (⟨.own i j, c, b, ev⟩ : Call σ ε γ) s x = (s', x1) := by
          unfold helperCtx at hh
          unfold way effect
          cases hc : c.has ev.kind <;> simp_all
          obtain ⟨rfl, rfl, rfl⟩ := hh; simp
        have h3 : Fits i (j + 1) (flat r) h (fun w => if w = .own i j then some s' else st w) := by
          refine ⟨fun b => by simp [h2.1 b], fun k o hk => ?_⟩
          have : ¬ (j + 1 + k = j) := by omega
          simp [h2.2 k o hk, this]
        obtain ⟨t, h', x', cs, e, a1, a2, a3, a4, a5⟩ := ih (j + 1) _ _ x1 h3 hcl'
        have hrep : replay ((⟨.own i j, c, b, ev⟩ : Call σ ε γ) :: cs) st x =
            replay cs (fun w => if w = .own i j then some s' else st w) x1 := by
          rw [replay]
          simp [h1, hw.2]
        refine ⟨.val c s' t, h', x', ⟨.own i j, c, b, ev⟩ :: cs, by simp [e], ?_, .cons (hl s') a2, ?_, ?_,
          by rw [hrep]; exact a5⟩
        · rw [a1, flat, callsFrom_cons, hw.1]; rfl
        · rw [flat, hrep]
          refine fits_cons.mpr ⟨?_, a3⟩
          rw [a4 i j (by omega)]
          simp
        · rw [hrep]
          intro i' j' hij
          simp only [flat, List.length_cons] at hij
          rw [a4 i' j' (by omega)]
          have : ¬ (i' = i ∧ j' = j) := by omega
          simp [this]
  | proxy ks inner r _ ih2 =>
    intro j h st x hf hcl
    rw [flat] at hf hcl
    have hcl' : Spec.Clear ev.kind (flat r) := fun o ho => hcl o (by simp [ho])
    obtain ⟨h1, h2⟩ := fits_append.mp hf
    rw [List.length_map] at h2
    rw [fits_gate] at h1
    have e0 := flat_length inner
    rw [notifyCtx]
    by_cases hk : ev.kind ∈ ks
    · rw [if_pos hk]
      obtain ⟨a1, a2, a3, a4, a5⟩ := notify_flat i ev inner j h st x h1
      have hlen : (flat (notify i ev j inner h).1).length = (flat inner).length := a2.length_eq.symm
      have h3 : Fits i (j + inner.count) (flat r) (notify i ev j inner h).2.1 (replay (notify i ev j inner h).2.2 st x).1 := by
        rw [← flat_length]
        exact h2.mono a4 (by omega) a3.1
      obtain ⟨t, h', x', cs, e, b1, b2, b3, b4, b5⟩ := ih2 (j + inner.count) _ _ x h3 hcl'
      refine ⟨.proxy ks (notify i ev j inner h).1 t, h', x', (notify i ev j inner h).2.2 ++ cs, by simp [e], ?_, ?_, ?_, ?_, ?_⟩
      · rw [a1, b1, flat, callsFrom_append, callsFrom_gate, if_pos hk, List.length_map, flat_length]
      · rw [flat, flat]
        exact like_append (like_gate ks a2) b2
      · rw [flat, replay_append, a5]
        refine fits_append.mpr ⟨(fits_gate ks).mpr ?_, ?_⟩
        · exact a3.mono b4 (by omega) b3.1
        · rw [List.length_map, hlen, flat_length]; exact b3
      · rw [flat, List.length_append, List.length_map, replay_append, a5]
        intro i' j' hij
        rw [b4 i' j' (by omega), a4 i' j' (by omega)]
      · rw [replay_append, a5]; exact b5
    · rw [if_neg hk]
      rw [flat_length] at h2
      obtain ⟨t, h', x', cs, e, b1, b2, b3, b4, b5⟩ := ih2 (j + inner.count) h st x h2 hcl'
      refine ⟨.proxy ks inner t, h', x', cs, by simp [e], ?_, ?_, ?_, ?_, b5⟩
      · rw [b1, flat, callsFrom_append, callsFrom_gate, if_neg hk, List.length_map, flat_length, List.nil_append]
      · rw [flat, flat]
        exact like_append (forall₂_refl_like _) b2
      · rw [flat]
        refine fits_append.mpr ⟨(fits_gate ks).mpr ?_, ?_⟩
        · exact h1.mono b4 (by omega) b3.1
        · rw [List.length_map, flat_length]; exact b3
      · intro i' j' hij
        rw [flat, List.length_append, List.length_map, flat_length] at hij
        exact b4 i' j' (by omega)

/-! ## Programs -/

theorem abs_fits (w : World σ ε γ) {i : Nat} {s : Sub σ ε γ} (hs : w.subs[i]? = some s) : Fits i 0 (flat s) w.heap w.abs.state := by
  refine ⟨fun a => rfl, fun k o hk => ?_⟩
  simp only [World.abs, Spec.World.state, List.getElem?_map, hs, Option.map_some, Option.bind_some, Nat.zero_add, hk]
  rfl

theorem state_of_fits {w : World σ ε γ} {i : Nat} {s t : Sub σ ε γ} {h : Nat → σ} {st : Who → Option σ} (hs : w.subs[i]? = some s)
    (hl : (flat s).length = (flat t).length) (hf : Fits i 0 (flat t) h st) (hfr : Frame i 0 (flat s).length w.abs.state st) :
    (⟨w.subs.set i t, h⟩ : World σ ε γ).abs.state = st := by
  have hi := (List.getElem?_eq_some_iff.mp hs).1
  funext who
  cases who with
  | at_ a => exact (hf.1 a).symm
  | own i' j' =>
    by_cases hii : i' = i
    · subst hii
      simp only [World.abs, Spec.World.state, List.getElem?_map, List.getElem?_set_self hi, Option.map_some, Option.bind_some]
      cases ho : (flat t)[j']? with
      | none =>
        have := List.getElem?_eq_none_iff.mp ho
        rw [hfr i' j' (by omega)]
        simp only [World.abs, Spec.World.state, List.getElem?_map, hs, Option.map_some, Option.bind_some]
        rw [List.getElem?_eq_none_iff.mpr (by omega)]
      | some o =>
        have := hf.2 j' o ho
        rw [Nat.zero_add] at this
        rw [this]
        rfl
    · rw [hfr i' j' (Or.inl hii)]
      simp only [World.abs, Spec.World.state, List.getElem?_map, List.getElem?_set_ne (Ne.symm hii)]

theorem like_set {l : List (List (Obs σ ε γ))} {i : Nat} {a b : List (Obs σ ε γ)} (ha : l[i]? = some a)
    (h : List.Forall₂ Obs.Like a b) : List.Forall₂ (List.Forall₂ Obs.Like) l (l.set i b) := by
  induction l generalizing i with
  | nil => simp at ha
  | cons c l ih =>
    cases i with
    | zero =>
      simp only [List.getElem?_cons_zero, Option.some.injEq] at ha
      subst ha
      refine .cons h ?_
      clear ih
      induction l with
      | nil => exact .nil
      | cons d l ih => exact .cons (forall₂_refl_like d) ih
    | succ i =>
      rw [List.getElem?_cons_succ] at ha
      exact .cons (forall₂_refl_like c) (ih ha)

theorem make_made (subs : List (Sub σ ε γ)) (as : List (Arg σ ε γ)) :
    Spec.made (subs.map flat) as = (make subs as).map flat := by
  induction as with
  | nil => rfl
  | cons a as ih =>
    cases a with
    | lval c a => simp only [Spec.made, make, ih, Option.map_map]; rfl
    | rval c s => simp only [Spec.made, make, ih, Option.map_map]; rfl
    | proxy ks i =>
      simp only [Spec.made, make, ih, List.getElem?_map, Option.map_map]
      cases subs[i]? with
      | none => rfl
      | some p => simp only [Option.map_some, Option.bind_some, Option.map_map]; rfl

/-- the operation is on a subject there is, and if it has a context no observer listed in the subject has both functions -/
def Spec.Allowed (w : Spec.World σ ε γ) : Op σ ε γ → Prop
  | .make as => ∃ l, Spec.made w.subs as = some l
  | .copy i => i < w.subs.length
  | .notify i _ => i < w.subs.length
  | .notifyCtx i ev _ => ∃ l, w.subs[i]? = some l ∧ Spec.Clear ev.kind l

theorem step_spec [Nonempty γ] (w : World σ ε γ) (o : Op σ ε γ) (ha : Spec.Allowed w.abs o) :
    ∃ v cs x, step w o = some (v, cs, x) ∧ Spec.Step w.abs o v.abs cs x := by
  cases o with
  | make as =>
    obtain ⟨l, hl⟩ := ha
    have hl' := hl
    simp only [World.abs, make_made, Option.map_eq_some_iff] at hl'
    obtain ⟨s, hs, rfl⟩ := hl'
    refine ⟨_, _, _, by rw [step, hs]; rfl, ?_⟩
    have := Spec.Step.make hl
    simpa [World.abs] using this
  | copy i =>
    have hi : i < w.subs.length := by simpa [Spec.Allowed, World.abs] using ha
    have hs := List.getElem?_eq_getElem hi
    refine ⟨_, _, _, by rw [step, hs]; rfl, ?_⟩
    have := Spec.Step.copy (w := w.abs) (i := i) (l := flat w.subs[i]) (by simp [World.abs, hs])
    simpa [World.abs] using this
  | notify i ev =>
    have hi : i < w.subs.length := by simpa [Spec.Allowed, World.abs] using ha
    have hs := List.getElem?_eq_getElem hi
    generalize w.subs[i] = s at hs
    have hsa : w.abs.subs[i]? = some (flat s) := by simp [World.abs, hs]
    refine ⟨_, _, _, by rw [step, hs]; rfl, ?_⟩
    have key := fun x => notify_flat i ev s 0 w.heap w.abs.state x (abs_fits w hs)
    have hcs : ∀ x : γ, (notify i ev 0 s w.heap).2.2 = calls i false ev (flat s) := fun x => (key x).1
    obtain ⟨x0⟩ := ‹Nonempty γ›
    have e := hcs x0
    rw [e]
    refine .notify hsa ?_ fun x => ?_
    · have := like_set hsa (key x0).2.1
      simpa [World.abs, Spec.World.Like, List.map_set] using this
    · obtain ⟨-, a2, a3, a4, -⟩ := key x
      rw [e] at a3 a4
      exact state_of_fits hs a2.length_eq a3 a4
  | notifyCtx i ev x =>
    obtain ⟨l, hl, hc⟩ := ha
    have hl' := hl
    simp only [World.abs, List.getElem?_map, Option.map_eq_some_iff] at hl'
    obtain ⟨s, hs, rfl⟩ := hl'
    obtain ⟨t, h', x', cs, e, a1, a2, a3, a4, a5⟩ := notifyCtx_flat i ev s 0 w.heap w.abs.state x (abs_fits w hs) hc
    refine ⟨⟨w.subs.set i t, h'⟩, cs, some x', by rw [step, hs]; simp only [Option.bind_some, e, Option.map_some], ?_⟩
    have e2 : cs = calls i true ev (flat s) := a1
    subst e2
    rw [← a5]
    refine .notifyCtx hl ?_ ?_
    · have := like_set hl a2
      simpa [World.abs, Spec.World.Like, List.map_set] using this
    · exact state_of_fits hs a2.length_eq a3 a4

/-- A program whose operations are all allowed, whatever states the earlier ones may lead to. -/
def Spec.Legal : Spec.World σ ε γ → List (Op σ ε γ) → Prop
  | _, [] => True
  | w, o :: os => Spec.Allowed w o ∧ ∀ v cs x, Spec.Step w o v cs x → Spec.Legal v os

/-- **C93, when no observer has both functions.**  A program may make subjects of named observers, temporaries and proxies of
other subjects, copy them and notify them of events, with and without a context, in any order.  Every event is brought to
exactly the observers of that subject that have a function for it and from which no proxy holds it back, once each and in the
order they were given; nothing else is called, and the observers' states and the contexts are what these calls make them:
named observers are shared by all the subjects they were given to, temporaries belong to the one. -/
theorem history_partial [Nonempty γ] (w : World σ ε γ) (os : List (Op σ ε γ)) (hL : Spec.Legal w.abs os) :
    ∃ v cs xs, run w os = some (v, cs, xs) ∧ Spec.Steps w.abs os v.abs cs xs := by
  induction os generalizing w with
  | nil => exact ⟨w, [], [], rfl, .nil _⟩
  | cons o os ih =>
    obtain ⟨v, cs, x, h1, h2⟩ := step_spec w o hL.1
    obtain ⟨u, ds, xs, h3, h4⟩ := ih v (hL.2 _ _ _ h2)
    exact ⟨u, cs ++ ds, x :: xs, by simp [run, h1, h3], .cons h2 h4⟩

/-! What the specification says, spelled out. -/

/-- C93: an event is brought to an observer at most once for each time it is listed: the calls are to different places of the
list, in order. -/
theorem calls_once (i : Nat) (ctx : Bool) (ev : Ev ε) (l : List (Obs σ ε γ)) :
    ∃ is : List Nat, is.Pairwise (· < ·) ∧ (∀ j, j ∈ is ↔ ∃ o, l[j]? = some o ∧ (way ctx o ev.kind).isSome) ∧
      List.Forall₂ (fun c j => ∃ o b, l[j]? = some o ∧ way ctx o ev.kind = some b ∧ c.cls = o.cls ∧ c.ctx = b ∧ c.ev = ev ∧
        c.who = match o.place with | .shared a => .at_ a | .own _ => .own i j) (calls i ctx ev l) is := by
  suffices H : ∀ (l : List (Obs σ ε γ)) (n : Nat), ∃ is : List Nat, is.Pairwise (· < ·) ∧
      (∀ j, j ∈ is ↔ n ≤ j ∧ ∃ o, l[j - n]? = some o ∧ (way ctx o ev.kind).isSome) ∧
      List.Forall₂ (fun c j => ∃ o b, l[j - n]? = some o ∧ way ctx o ev.kind = some b ∧ c.cls = o.cls ∧ c.ctx = b ∧ c.ev = ev ∧
        c.who = match o.place with | .shared a => .at_ a | .own _ => .own i j) (callsFrom i n ctx ev l) is by
    obtain ⟨is, h1, h2, h3⟩ := H l 0
    exact ⟨is, h1, by simpa using h2, h3⟩
  intro l
  induction l with
  | nil => intro n; exact ⟨[], .nil, by simp, by simp [callsFrom]⟩
  | cons o l ih =>
    intro n
    obtain ⟨is, h1, h2, h3⟩ := ih (n + 1)
    have hge : ∀ j ∈ is, n + 1 ≤ j := fun j hj => ((h2 j).mp hj).1
    have hsh : ∀ j, n + 1 ≤ j → (o :: l)[j - n]? = l[j - (n + 1)]? := by
      intro j hj
      obtain ⟨k, rfl⟩ : ∃ k, j = n + 1 + k := ⟨j - (n + 1), by omega⟩
      rw [show n + 1 + k - n = k + 1 by omega, List.getElem?_cons_succ, show n + 1 + k - (n + 1) = k by omega]
    have h3' : List.Forall₂ (fun c j => ∃ o' b, (o :: l)[j - n]? = some o' ∧ way ctx o' ev.kind = some b ∧ c.cls = o'.cls ∧
        c.ctx = b ∧ c.ev = ev ∧ c.who = match o'.place with | .shared a => .at_ a | .own _ => .own i j)
        (callsFrom i (n + 1) ctx ev l) is := by
      have : ∀ (cs : List (Call σ ε γ)) (js : List Nat), (∀ j ∈ js, n + 1 ≤ j) →
          List.Forall₂ (fun c j => ∃ o b, l[j - (n + 1)]? = some o ∧ way ctx o ev.kind = some b ∧ c.cls = o.cls ∧ c.ctx = b ∧
            c.ev = ev ∧ c.who = match o.place with | .shared a => .at_ a | .own _ => .own i j) cs js →
          List.Forall₂ (fun c j => ∃ o' b, (o :: l)[j - n]? = some o' ∧ way ctx o' ev.kind = some b ∧ c.cls = o'.cls ∧
            c.ctx = b ∧ c.ev = ev ∧ c.who = match o'.place with | .shared a => .at_ a | .own _ => .own i j) cs js := by
        intro cs js hj hf
        induction hf with
        | nil => exact .nil
        | @cons c j cs js hc _ ihf =>
          refine .cons ?_ (ihf fun j hj' => hj j (by simp [hj']))
          obtain ⟨o', b, g⟩ := hc
          exact ⟨o', b, by rw [hsh j (hj j (by simp))]; exact g.1, g.2⟩
      exact this _ _ hge h3
    cases hw : way ctx o ev.kind with
    | none =>
      refine ⟨is, h1, fun j => ?_, by rw [callsFrom_cons, hw]; exact h3'⟩
      rw [h2 j]
      constructor
      · rintro ⟨hj, o', ho', hs⟩
        exact ⟨by omega, o', by rw [hsh j hj]; exact ho', hs⟩
      · rintro ⟨hj, o', ho', hs⟩
        by_cases hjn : j = n
        · subst hjn
          simp only [Nat.sub_self, List.getElem?_cons_zero, Option.some.injEq] at ho'
          subst ho'
          rw [hw] at hs; cases hs
        · exact ⟨by omega, o', by rw [← hsh j (by omega)]; exact ho', hs⟩
    | some b =>
      refine ⟨n :: is, ?_, fun j => ?_, ?_⟩
      · refine List.pairwise_cons.mpr ⟨fun j hj => ?_, h1⟩
        have := hge j hj; omega
      · rw [List.mem_cons, h2 j]
        constructor
        · rintro (rfl | ⟨hj, o', ho', hs⟩)
          · exact ⟨Nat.le_refl _, o, by simp, by rw [hw]; rfl⟩
          · exact ⟨by omega, o', by rw [hsh j hj]; exact ho', hs⟩
        · rintro ⟨hj, o', ho', hs⟩
          by_cases hjn : j = n
          · exact Or.inl hjn
          · exact Or.inr ⟨by omega, o', by rw [← hsh j (by omega)]; exact ho', hs⟩
      · rw [callsFrom_cons, hw]
        exact .cons ⟨o, b, by simp, hw, rfl, rfl, rfl, rfl⟩ h3'

/-- C93: an observer that is not called is left as it was. -/
theorem not_called_unchanged (cs : List (Call σ ε γ)) (st : Who → Option σ) (x : γ) (who : Who) (h : ∀ c ∈ cs, c.who ≠ who) :
    (replay cs st x).1 who = st who := by
  induction cs generalizing st x with
  | nil => rfl
  | cons c cs ih =>
    rw [replay]
    have hc : who ≠ c.who := fun e => h c (by simp) e.symm
    cases hst : st c.who with
    | none => exact ih st x fun d hd => h d (by simp [hd])
    | some s =>
      dsimp only
      rw [ih _ _ fun d hd => h d (by simp [hd])]
      simp [hc]

theorem notifyCtx_none (i : Nat) (ev : Ev ε) (s : Sub σ ε γ) : ∀ (j : Nat) (h : Nat → σ) (x : γ),
    ¬ Spec.Clear ev.kind (flat s) → notifyCtx i ev j s h x = none := by
  induction s with
  | nil => intro j h x hc; exact absurd (fun o ho => by simp [flat] at ho) hc
  | ref c a r ih =>
    intro j h x hc
    rw [notifyCtx]
    by_cases hb : c.has ev.kind = .both
    · simp [helperCtx, hb]
    · have hr : ¬ Spec.Clear ev.kind (flat r) := by
        intro hr
        refine hc fun o ho => ?_
        rw [flat, List.mem_cons] at ho
        rcases ho with rfl | ho
        · exact fun _ => hb
        · exact hr o ho
      have := ih (j + 1)
      cases helperCtx c (h a) ev x with
      | none => rfl
      | some y =>
        cases y with
        | none => simp [this _ _ hr]
        | some z => simp [this _ _ hr]
  | val c s r ih =>
    intro j h x hc
    rw [notifyCtx]
    by_cases hb : c.has ev.kind = .both
    · simp [helperCtx, hb]
    · have hr : ¬ Spec.Clear ev.kind (flat r) := by
        intro hr
        refine hc fun o ho => ?_
        rw [flat, List.mem_cons] at ho
        rcases ho with rfl | ho
        · exact fun _ => hb
        · exact hr o ho
      have := ih (j + 1)
      cases helperCtx c s ev x with
      | none => rfl
      | some y =>
        cases y with
        | none => simp [this _ _ hr]
        | some z => simp [this _ _ hr]
  | proxy ks inner r _ ih2 =>
    intro j h x hc
    have hr : ¬ Spec.Clear ev.kind (flat r) := by
      intro hr
      refine hc fun o ho => ?_
      rw [flat, List.mem_append] at ho
      rcases ho with ho | ho
      · obtain ⟨p, -, rfl⟩ := List.mem_map.mp ho
        intro h; cases h
      · exact hr o ho
    rw [notifyCtx]
    split <;> simp [ih2 _ _ _ hr]

/-- **Violation.**  An observer that has both `on_notify(n)` and `on_notify(n, context)` for a type of event cannot be notified
with a context: whatever the subject and wherever in it the observer is, the call is ambiguous and does not compile. -/
theorem both_does_not_compile (w : World σ ε γ) (i : Nat) (ev : Ev ε) (x : γ) (l : List (Obs σ ε γ)) (o : Obs σ ε γ)
    (hl : w.abs.subs[i]? = some l) (ho : o ∈ l) (hg : o.gates = []) (hb : o.cls.has ev.kind = .both) :
    step w (.notifyCtx i ev x) = none := by
  simp only [World.abs, List.getElem?_map, Option.map_eq_some_iff] at hl
  obtain ⟨s, hs, rfl⟩ := hl
  rw [step, hs, Option.bind_some, notifyCtx_none i ev s 0 w.heap x fun hc => hc o ho hg hb]
  rfl

/-- C93: a context does not get through a proxy: when every observer of a subject is behind one, nobody is called with the
context and it is left as it was. -/
theorem proxy_keeps_context [Nonempty γ] (w v : World σ ε γ) (i : Nat) (ev : Ev ε) (x : γ) (x' : Option γ) (cs : List (Call σ ε γ))
    (l : List (Obs σ ε γ)) (hl : w.abs.subs[i]? = some l) (hg : ∀ o ∈ l, o.gates ≠ []) (h : step w (.notifyCtx i ev x) = some (v, cs, x')) :
    (∀ c ∈ cs, c.ctx = false) ∧ x' = some x := by
  obtain ⟨v1, cs1, y, h1, h2⟩ := step_spec w (.notifyCtx i ev x) ⟨l, hl, fun o ho he => absurd he (hg o ho)⟩
  rw [h] at h1
  simp only [Option.some.injEq, Prod.mk.injEq] at h1
  obtain ⟨rfl, rfl, rfl⟩ := h1
  cases h2 with
  | notifyCtx hl' _ _ =>
    rw [hl] at hl'; cases hl'
    have hc : ∀ c ∈ calls i true ev l, c.ctx = false := by
      intro c hc
      unfold calls at hc
      rw [List.mem_filterMap] at hc
      obtain ⟨⟨o, j⟩, ho, hp⟩ := hc
      rw [Option.map_eq_some_iff] at hp
      obtain ⟨b, hb, rfl⟩ := hp
      have hgo := hg o (List.mem_of_getElem? (List.mem_zipIdx_iff_getElem?.mp ho))
      unfold way at hb
      rw [if_neg hgo] at hb
      split at hb
      · dsimp only at hb
        cases hh : o.cls.has ev.kind <;> simp_all
      · cases hb
    refine ⟨hc, ?_⟩
    have : ∀ (cs : List (Call σ ε γ)) (st : Who → Option σ) (x : γ), (∀ c ∈ cs, c.ctx = false) → (replay cs st x).2 = x := by
      intro cs
      induction cs with
      | nil => intro st x _; rfl
      | cons c cs ih =>
        intro st x hcs
        rw [replay]
        cases st c.who with
        | none => exact ih _ _ fun d hd => hcs d (by simp [hd])
        | some s =>
          dsimp only
          rw [ih _ _ fun d hd => hcs d (by simp [hd])]
          simp [effect, hcs c (by simp)]
    rw [this _ _ _ hc]

/-! ## A program -/

/-- counts events of type 0, adds up events of type 1, which it wants with a context, and leaves the sum there -/
def sample : Cls Nat Nat Nat := ⟨fun k => if k = 0 then .plain else if k = 1 then .ctx else .no, fun s _ => s + 1, fun s e x => (s + e.val, x + s + e.val)⟩

/-- a subject of the observer at 5, a temporary and a proxy for events of type 0 of another subject of the one at 5 -/
def program : List (Op Nat Nat Nat) :=
  [.make [.lval sample 5], .make [.lval sample 5, .rval sample 10, .proxy [0] 0], .notify 1 ⟨0, 3⟩, .notifyCtx 1 ⟨1, 4⟩ 100, .copy 1,
    .notify 2 ⟨0, 1⟩, .notify 0 ⟨2, 0⟩]

example : ((run ⟨[], fun _ => 0⟩ program).map fun r => (r.1.heap 5, r.2.1.map (·.who), r.2.2)) =
    some (8, [.at_ 5, .own 1 1, .at_ 5, .at_ 5, .own 1 1, .at_ 5, .own 2 1, .at_ 5], [none, none, none, some 121, none, none, none]) := by
  decide +kernel

/-- A program that names only subjects it has made (`n` of them so far) and no observer class with both functions. -/
def Spec.Valid : Nat → List (Op σ ε γ) → Prop
  | _, [] => True
  | n, .make as :: os => (∀ a ∈ as, match a with | .lval c _ | .rval c _ => ∀ k, c.has k ≠ .both | .proxy _ i => i < n) ∧ Spec.Valid (n + 1) os
  | n, .copy i :: os => i < n ∧ Spec.Valid (n + 1) os
  | n, .notify i _ :: os => i < n ∧ Spec.Valid n os
  | n, .notifyCtx i _ _ :: os => i < n ∧ Spec.Valid n os

def Spec.Never (w : Spec.World σ ε γ) : Prop := ∀ l ∈ w.subs, ∀ o ∈ l, ∀ k, o.cls.has k ≠ .both

theorem made_never {subs : List (List (Obs σ ε γ))} (hn : ∀ l ∈ subs, ∀ o ∈ l, ∀ k, o.cls.has k ≠ .both) : ∀ (as : List (Arg σ ε γ)),
    (∀ a ∈ as, match a with | .lval c _ | .rval c _ => ∀ k, c.has k ≠ .both | .proxy _ i => i < subs.length) →
    ∃ l, Spec.made subs as = some l ∧ ∀ o ∈ l, ∀ k, o.cls.has k ≠ .both := by
  intro as
  induction as with
  | nil => intro _; exact ⟨[], rfl, by simp⟩
  | cons a as ih =>
    intro h
    obtain ⟨l, h1, h2⟩ := ih fun b hb => h b (by simp [hb])
    have ha := h a (by simp)
    cases a with
    | lval c a =>
      refine ⟨_, by rw [Spec.made, h1]; rfl, fun o ho => ?_⟩
      rcases List.mem_cons.mp ho with rfl | ho
      · exact ha
      · exact h2 o ho
    | rval c a =>
      refine ⟨_, by rw [Spec.made, h1]; rfl, fun o ho => ?_⟩
      rcases List.mem_cons.mp ho with rfl | ho
      · exact ha
      · exact h2 o ho
    | proxy ks i =>
      have hi := List.getElem?_eq_getElem (l := subs) (i := i) ha
      refine ⟨_, by rw [Spec.made, h1, hi]; rfl, fun o ho => ?_⟩
      rcases List.mem_append.mp ho with ho | ho
      · obtain ⟨p, hp, rfl⟩ := List.mem_map.mp ho
        exact hn _ (List.mem_of_getElem? hi) p hp
      · exact h2 o ho

theorem like_never {w v : Spec.World σ ε γ} (h : w.Like v) (hn : Spec.Never w) : v.subs.length = w.subs.length ∧ Spec.Never v := by
  refine ⟨h.length_eq.symm, fun l hl o ho k => ?_⟩
  obtain ⟨i, hi⟩ := List.getElem?_of_mem hl
  obtain ⟨j, hj⟩ := List.getElem?_of_mem ho
  have hi' := (List.getElem?_eq_some_iff.mp hi).1
  have hj' := (List.getElem?_eq_some_iff.mp hj).1
  have h1 := (List.forall₂_iff_get.mp h).2 i (by rw [h.length_eq]; exact hi') hi'
  simp only [List.get_eq_getElem] at h1
  have e1 : v.subs[i] = l := (List.getElem?_eq_some_iff.mp hi).2
  rw [e1] at h1
  have h2 := (List.forall₂_iff_get.mp h1).2 j (by rw [h1.length_eq]; exact hj') hj'
  simp only [List.get_eq_getElem] at h2
  have e2 : l[j] = o := (List.getElem?_eq_some_iff.mp hj).2
  rw [e2] at h2
  rw [← h2.1]
  exact hn _ (List.getElem_mem _) _ (List.getElem_mem _) k

theorem legal_of_valid (os : List (Op σ ε γ)) : ∀ (w : Spec.World σ ε γ), Spec.Never w → Spec.Valid w.subs.length os → Spec.Legal w os := by
  induction os with
  | nil => intro w _ _; trivial
  | cons o os ih =>
    intro w hn hv
    cases o with
    | make as =>
      obtain ⟨l, h1, h2⟩ := made_never hn as hv.1
      refine ⟨⟨l, h1⟩, ?_⟩
      intro v cs x hst
      cases hst with
      | make hm =>
        rw [h1] at hm; cases hm
        refine ih _ ?_ (by simpa using hv.2)
        intro m hm
        rcases List.mem_append.mp hm with hm | hm
        · exact hn m hm
        · rw [List.mem_singleton.mp hm]; exact h2
    | copy i =>
      refine ⟨hv.1, ?_⟩
      intro v cs x hst
      cases hst with
      | copy hm =>
        refine ih _ ?_ (by simpa using hv.2)
        intro m hm'
        rcases List.mem_append.mp hm' with hm' | hm'
        · exact hn m hm'
        · rw [List.mem_singleton.mp hm']; exact hn _ (List.mem_of_getElem? hm)
    | notify i ev =>
      refine ⟨hv.1, ?_⟩
      intro v cs x hst
      cases hst with
      | notify _ hlike _ =>
        obtain ⟨g1, g2⟩ := like_never hlike hn
        exact ih _ g2 (by rw [g1]; exact hv.2)
    | notifyCtx i ev y =>
      have hi := List.getElem?_eq_getElem (l := w.subs) (i := i) hv.1
      refine ⟨⟨_, hi, fun o ho _ => hn _ (List.mem_of_getElem? hi) o ho _⟩, ?_⟩
      intro v cs x hst
      cases hst with
      | notifyCtx _ hlike _ =>
        obtain ⟨g1, g2⟩ := like_never hlike hn
        exact ih _ g2 (by rw [g1]; exact hv.2)

/-- … so every program that names only subjects it has made and observer classes without both functions is covered. -/
theorem program_partial [Nonempty γ] (heap : Nat → σ) (os : List (Op σ ε γ)) (hv : Spec.Valid 0 os) :
    ∃ v cs xs, run ⟨[], heap⟩ os = some (v, cs, xs) ∧ Spec.Steps ⟨[], heap⟩ os v.abs cs xs :=
  history_partial ⟨[], heap⟩ os (legal_of_valid os _ (by intro l hl; cases hl) hv)

example : Spec.Valid 0 program := by
  have h : ∀ k, sample.has k ≠ .both := by
    intro k
    unfold sample
    dsimp only
    split
    · simp
    · split <;> simp
  simp [program, Spec.Valid, h]

/-- C93: two subjects given the same named observer both reach it, and a subject given a temporary keeps it to itself: a call
to a temporary of one subject is not a call to any of another. -/
theorem owners_differ (i i' : Nat) (hi : i ≠ i') (ctx ctx' : Bool) (ev ev' : Ev ε) (l l' : List (Obs σ ε γ)) (c c' : Call σ ε γ)
    (hc : c ∈ calls i ctx ev l) (hc' : c' ∈ calls i' ctx' ev' l') (h : c.who = c'.who) : ∃ a, c.who = .at_ a := by
  unfold calls at hc hc'
  rw [List.mem_filterMap] at hc hc'
  obtain ⟨⟨o, j⟩, -, hp⟩ := hc
  obtain ⟨⟨o', j'⟩, -, hp'⟩ := hc'
  rw [Option.map_eq_some_iff] at hp hp'
  obtain ⟨b, -, rfl⟩ := hp
  obtain ⟨b', -, rfl⟩ := hp'
  dsimp only at h ⊢
  cases hpl : o.place with
  | shared a => exact ⟨a, rfl⟩
  | own s =>
    rw [hpl] at h
    cases hpl' : o'.place with
    | shared a => rw [hpl'] at h; cases h
    | own s' =>
      rw [hpl'] at h
      simp only [Who.own.injEq] at h
      exact absurd h.1 hi

end Verif.Observer
