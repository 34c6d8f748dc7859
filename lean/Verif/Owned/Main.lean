import Verif.Owned.Steps
/-!
# C98: the theorems
-/
namespace Verif.Owned
open Spec

theorem init_sim : Sim State.init Heap.init := by
  refine ⟨⟨rfl, rfl, ?_, ?_, ?_, ?_, ?_⟩, ?_⟩
  · intro b k o hk; simp [State.init] at hk
  · intro b k hk; simp [State.init] at hk
  · intro b k hk; simp [State.init] at hk
  · intro b k o hk; simp [State.init] at hk
  · intro b hb; simp [State.init, ptrs] at hb
  · intro b k hk; simp [State.init] at hk

theorem run_sim (ops : List Op) : ∀ {s : State} {a : Heap}, Sim s a → Legal a ops → ∃ s', run s ops = some s' ∧ Sim s' (a.run ops) := by
  induction ops with
  | nil => intro s a hs _; exact ⟨s, rfl, hs⟩
  | cons op ops ih =>
    intro s a hs ⟨hok, hl⟩
    obtain ⟨s1, h1, h2⟩ := step_sim hs op hok
    obtain ⟨s2, h3, h4⟩ := ih h2 hl
    exact ⟨s2, by simp only [run, h1, h3], h4⟩

theorem run_append (s : State) (ops more : List Op) :
    run s (ops ++ more) = match run s ops with | none => none | some s' => run s' more := by
  induction ops generalizing s with
  | nil => rfl
  | cons op ops ih =>
    simp only [List.cons_append, run]
    cases step s op with
    | none => rfl
    | some s' => exact ih s'

/-- C98: in every correct program, nothing is undefined, and handles and members that the program can get at hold what
they would hold if nothing was ever deleted; `use_count` is the number of owners; and `Deleter()` has been called
exactly once for each object that nothing owns any more and not at all for every other object.  A correct program
(`Spec.Legal`) copies handles only while the object's master has not been reset, and makes no assignment that ends
the life of its own source. -/
theorem owned_objects_partial (ops : List Op) (h : Legal Heap.init ops) :
    ∃ s, run State.init ops = some s ∧
      (∀ l, Usable (Heap.init.run ops) l → s.read l = (Heap.init.run ops).read l) ∧
      ∀ b, b < (Heap.init.run ops).objs.length → ∃ k, s.blks[b]? = some k ∧
        s.useCount b = some (owners (Heap.init.run ops) b) ∧
        (Gone (Heap.init.run ops) b → k.deletes = 1) ∧ (¬ Gone (Heap.init.run ops) b → k.deletes = 0) := by
  obtain ⟨s, h1, h2⟩ := run_sim ops init_sim h
  refine ⟨s, h1, fun l hu => ?_, fun b hb => ?_⟩
  · obtain ⟨p, hp, hp'⟩ := sim_read h2 hu
    rw [hp, hp']
  · obtain ⟨k, hk⟩ := h2.1.blk (List.getElem?_eq_getElem hb)
    obtain ⟨h3, h4⟩ := sim_deletes h2 hk
    exact ⟨k, hk, by rw [State.useCount, hk, ← sim_count h2 hk]; rfl, h3, h4⟩

/-- C98, safety: what the program can get at has not been deleted, its members are those it was given, and it has an
owner. -/
theorem reachable_objects_live (ops : List Op) (h : Legal Heap.init ops) (b : Nat) (o : Obj)
    (ho : (Heap.init.run ops).objs[b]? = some o) (hr : Reach (Heap.init.run ops) b) :
    ∃ s k, run State.init ops = some s ∧ s.blks[b]? = some k ∧ k.deletes = 0 ∧ k.fields = o.fields ∧ 0 < k.count := by
  obtain ⟨s, h1, h2⟩ := run_sim ops init_sim h
  obtain ⟨k, hk⟩ := h2.1.blk ho
  have h0 := (sim_deletes h2 hk).2 (reach_not_gone hr)
  refine ⟨s, k, h1, hk, h0, ?_⟩
  rcases h2.1.live b k o hk ho with ⟨-, h3, h4⟩ | ⟨h3, -, -⟩
  · exact ⟨h4, h3⟩
  · omega

theorem acyclic_gone {a : Heap} (ha : Acyclic a) (b : Nat) (hr : ¬ Reach a b) : Gone a b := by
  obtain ⟨rank, hrank⟩ := ha
  suffices ∀ n b, rank b = n → ¬ Reach a b → Gone a b from this _ b rfl hr
  intro n
  induction n using Nat.strongRecOn with
  | ind n ih =>
    intro b hb hr
    refine .intro (fun h => hr (.root h)) fun c hc => ?_
    exact ih (rank c) (hb ▸ hrank c b hc) c rfl fun h => hr (.link h hc)

/-- C98, no leaks: where objects own each other in no circle, an object is deleted, exactly once, as soon as the
program cannot get at it any more. -/
theorem acyclic_collected (ops : List Op) (h : Legal Heap.init ops) (ha : Acyclic (Heap.init.run ops)) (b : Nat)
    (hb : b < (Heap.init.run ops).objs.length) :
    ∃ s k, run State.init ops = some s ∧ s.blks[b]? = some k ∧
      (Reach (Heap.init.run ops) b → k.deletes = 0) ∧ (¬ Reach (Heap.init.run ops) b → k.deletes = 1) := by
  obtain ⟨s, h1, -, h2⟩ := owned_objects_partial ops h
  obtain ⟨k, hk, -, h3, h4⟩ := h2 b hb
  exact ⟨s, k, h1, hk, fun hr => h4 (reach_not_gone hr), fun hr => h3 (acyclic_gone ha b hr)⟩

/-! ## Circles -/

theorem reach_write {a : Heap} {l : Place} {q : Option Nat} (hq : ∀ c, q = some c → Reach a c) {x : Nat}
    (h : Reach (a.write l q) x) : Reach a x := by
  induction h with
  | root hr =>
    rcases root_write hr with hr | hr
    · exact .root hr
    · exact hq _ hr
  | link _ hl ih =>
    rcases link_write hl with hl | hl
    · exact .link ih hl
    · exact hq _ hl

theorem reach_push {a : Heap} {q : Option Nat} (hq : ∀ c, q = some c → Reach a c) {x : Nat}
    (h : Reach { a with ext := a.ext ++ [some q] } x) : Reach a x := by
  induction h with
  | root hr =>
    rcases root_push hr with hr | hr
    · exact .root hr
    · exact hq _ hr
  | link _ hl ih => exact .link ih hl

theorem mastered_ite {a : Heap} {b c : Nat} (h : (if a.mastered b then some b else none) = some c) : Reach a c := by
  by_cases hm : a.mastered b
  · rw [if_pos hm] at h
    simp only [Option.some.injEq] at h
    subst h
    exact .root (.inl hm)
  · rw [if_neg hm] at h; simp at h

/-- no operation brings back within reach what is out of reach -/
theorem step_reach {a : Heap} {op : Op} (hok : Ok a op) {x : Nat} (hx : x < a.objs.length) (h : Reach (a.step op) x) :
    Reach a x := by
  cases op with
  | make n =>
    have key : ∀ y, Reach (a.step (.make n)) y → y < a.objs.length → Reach a y := by
      intro y hy
      induction hy with
      | @root y hr =>
        intro hlt
        rcases hr with ⟨o, ho, hm⟩ | hx
        · simp only [Heap.step, List.getElem?_append_left hlt] at ho
          exact .root (.inl ⟨o, ho, hm⟩)
        · exact .root (.inr hx)
      | @link y z _ hl ih =>
        intro hlt
        obtain ⟨i, hi⟩ := hl
        simp only [Heap.read, Heap.step] at hi
        by_cases hyl : y < a.objs.length
        · rw [List.getElem?_append_left hyl] at hi
          exact .link (ih hyl) ⟨i, hi⟩
        · exfalso
          rw [List.getElem?_append_right (by omega)] at hi
          split at hi
          · rename_i o ho
            have := List.mem_of_getElem? ho
            simp only [List.mem_singleton] at this
            subst this
            have := List.mem_of_getElem? hi
            simp at this
          · simp at hi
    exact key x h hx
  | fromMaster b => exact reach_push (fun c hc => mastered_ite hc) h
  | copy l =>
    obtain ⟨p, hp⟩ := usable_read hok.1
    simp only [Heap.step, hp, Option.getD_some] at h
    exact reach_push (fun c hc => usable_target hok.1 (by rw [hp, hc])) h
  | move l =>
    obtain ⟨p, hp⟩ := usable_read (l := l) hok
    simp only [Heap.step, hp, Option.getD_some] at h
    have key : ∀ y, Reach { (a.write l none) with ext := (a.write l none).ext ++ [some p] } y → Reach a y := by
      intro y hy
      induction hy with
      | root hr =>
        rcases root_push hr with hr | hr
        · rcases root_write hr with hr | hr
          · exact .root hr
          · simp at hr
        · exact usable_target (l := l) hok (by rw [hp, hr])
      | @link y z _ hl ih =>
        rcases link_write (q := none) (l := l) (a := a) hl with hl | hl
        · exact .link ih hl
        · simp at hl
    exact key x h
  | reset l => exact reach_write (by simp) h
  | destroy n =>
    have key : ∀ y, Reach { a with ext := a.ext.set n none } y → Reach a y := by
      intro y hy
      induction hy with
      | root hr =>
        rcases hr with hm | ⟨m, hr⟩
        · exact .root (.inl hm)
        · refine .root (.inr ⟨m, ?_⟩)
          simp only [Heap.read, List.getElem?_set] at hr ⊢
          by_cases e : n = m
          · simp only [e, if_true] at hr
            split at hr
            · rename_i x hx; split at hx <;> simp at hx
            · simp at hr
          · simp only [e, if_false] at hr; exact hr
      | link _ hl ih => exact .link ih hl
    exact key x h
  | resetMaster b =>
    have ho : a.objs[b]? = some a.objs[b] := List.getElem?_eq_getElem hok
    generalize a.objs[b] = o at ho
    have hob : b < a.objs.length := hok
    simp only [Heap.step, ho] at h
    have key : ∀ y, Reach { a with objs := a.objs.set b { o with mastered := false } } y → Reach a y := by
      intro y hy
      induction hy with
      | @root y hr =>
        rcases hr with ⟨o', ho', hm⟩ | hx
        · simp only [List.getElem?_set] at ho'
          by_cases e : b = y
          · simp [e] at ho'
            obtain ⟨-, rfl⟩ := ho'
            simp at hm
          · simp only [e, if_false] at ho'
            exact .root (.inl ⟨o', ho', hm⟩)
        · exact .root (.inr hx)
      | @link d c _ hl ih =>
        obtain ⟨i, hl⟩ := hl
        refine .link ih ⟨i, ?_⟩
        simp only [Heap.read, List.getElem?_set] at hl ⊢
        by_cases e : b = d
        · subst e
          simp only [if_true, hob] at hl
          rw [ho]; exact hl
        · simp only [e, if_false] at hl; exact hl
    exact key x h
  | assign l l' =>
    obtain ⟨hne, hu, hu1, hu2, hc⟩ := hok
    obtain ⟨p, hp⟩ := usable_read hu2
    rw [read_write_ne none hne] at hp
    simp only [Heap.step, hp, Option.getD_some] at h
    exact reach_write (fun c hc' => .root (.inl (hc p hp c hc').1)) h
  | assignMaster l b => exact reach_write (fun c hc => mastered_ite hc) h
  | swap l l' =>
    obtain ⟨hu, hu'⟩ := hok
    obtain ⟨p, hp⟩ := usable_read hu
    obtain ⟨p', hp'⟩ := usable_read hu'
    simp only [Heap.step, hp, hp', Option.getD_some] at h
    have key : ∀ y, Reach ((a.write l p').write l' p) y → Reach a y := by
      intro y hy
      induction hy with
      | root hr =>
        rcases root_write hr with hr | hr
        · rcases root_write hr with hr | hr
          · exact .root hr
          · exact usable_target hu' (by rw [hp', hr])
        · exact usable_target hu (by rw [hp, hr])
      | link _ hl ih =>
        rcases link_write hl with hl | hl
        · rcases link_write hl with hl | hl
          · exact .link ih hl
          · exact usable_target hu' (by rw [hp', hl])
        · exact usable_target hu (by rw [hp, hl])
    exact key x h

theorem link_write_out {a : Heap} {l : Place} {q : Option Nat} {c b : Nat} (hu : Usable a l) (hc : ¬ Reach a c)
    (h : Link a c b) : Link (a.write l q) c b := by
  obtain ⟨i, hi⟩ := h
  refine ⟨i, ?_⟩
  rw [read_write_ne]
  · exact hi
  · rintro rfl
    exact hc hu.1

/-- nor does it change the members of what is out of reach -/
theorem step_link {a : Heap} {op : Op} (hok : Ok a op) {c b : Nat} (hc : ¬ Reach a c) (h : Link a c b) :
    Link (a.step op) c b := by
  cases op with
  | make n =>
    obtain ⟨i, hi⟩ := h
    refine ⟨i, ?_⟩
    simp only [Heap.read] at hi
    cases ho : a.objs[c]? with
    | none => rw [ho] at hi; simp at hi
    | some o =>
      rw [ho] at hi
      simp only [Heap.read, Heap.step, List.getElem?_append_left (List.getElem?_eq_some_iff.1 ho).1, ho]
      exact hi
  | fromMaster _ => exact h
  | copy l => exact h
  | move l => exact link_write_out (l := l) hok hc h
  | reset l => exact link_write_out hok hc h
  | destroy n => exact h
  | resetMaster d =>
    have hob : d < a.objs.length := hok
    have ho : a.objs[d]? = some a.objs[d] := List.getElem?_eq_getElem hok
    generalize a.objs[d] = o at ho
    obtain ⟨i, hi⟩ := h
    refine ⟨i, ?_⟩
    simp only [Heap.step, ho, Heap.read, List.getElem?_set] at hi ⊢
    by_cases e : d = c
    · subst e
      simp only [if_true, hob]
      rw [ho] at hi; exact hi
    · simp only [e, if_false]; exact hi
  | assign l l' => exact link_write_out hok.2.1 hc h
  | assignMaster l d => exact link_write_out hok.1 hc h
  | swap l l' =>
    obtain ⟨i, hi⟩ := h
    refine ⟨i, ?_⟩
    simp only [Heap.step]
    rw [read_write_ne, read_write_ne]
    · exact hi
    · rintro rfl; exact hc hok.1.1
    · rintro rfl; exact hc hok.2.1

theorem step_length {a : Heap} (op : Op) : a.objs.length ≤ (a.step op).objs.length := by
  have hw : ∀ (a : Heap) l q, (a.write l q).objs.length = a.objs.length := by
    intro a l q
    cases l with
    | ext n => rfl
    | field c i => simp only [Heap.write]; split <;> simp
  cases op <;> simp only [Heap.step, hw, List.length_append, Nat.le_refl, Nat.le_add_right]
  split <;> simp

theorem circle_persists (ops : List Op) : ∀ {a : Heap} {C : Nat → Prop}, Legal a ops →
    (∀ b, C b → b < a.objs.length ∧ ¬ Reach a b ∧ ∃ c, C c ∧ Link a c b) →
    ∀ b, C b → ¬ Reach (a.run ops) b ∧ ∃ c, C c ∧ Link (a.run ops) c b := by
  induction ops with
  | nil => intro a C _ h b hb; exact (h b hb).2
  | cons op ops ih =>
    intro a C ⟨hok, hl⟩ h
    refine ih (a := a.step op) hl fun b hb => ?_
    obtain ⟨h1, h2, c, hc, hlk⟩ := h b hb
    exact ⟨Nat.lt_of_lt_of_le h1 (step_length op), fun hr => h2 (step_reach hok h1 hr), c, hc, step_link hok (h c hc).2.1 hlk⟩

theorem run_heap_append (a : Heap) (ops more : List Op) : a.run (ops ++ more) = (a.run ops).run more := by
  induction ops generalizing a with
  | nil => rfl
  | cons op ops ih => exact ih _

theorem legal_append {a : Heap} {ops more : List Op} : Legal a (ops ++ more) ↔ Legal a ops ∧ Legal (a.run ops) more := by
  induction ops generalizing a with
  | nil => simp [Legal, Heap.run]
  | cons op ops ih =>
    simp only [List.cons_append, Legal, Heap.run, ih, and_assoc]

theorem closed_not_gone {a : Heap} {C : Nat → Prop} (h : ∀ b, C b → ∃ c, C c ∧ Link a c b) {b : Nat} (hb : C b) : ¬ Gone a b := by
  intro hg
  induction hg with
  | intro _ _ ih =>
    obtain ⟨c, hc, hl⟩ := h _ hb
    exact ih c hl hc

/-- **Violation.**  Objects that own each other in a circle are never deleted once the program cannot get at them,
whatever it does afterwards; there is no `weak_ptr` to break the circle with (memory.h:168-179 is empty). -/
theorem circle_leaks (ops more : List Op) (h : Legal Heap.init (ops ++ more)) (C : Nat → Prop)
    (hC : ∀ b, C b → ¬ Reach (Heap.init.run ops) b ∧ ∃ c, C c ∧ Link (Heap.init.run ops) c b) (b : Nat) (hb : C b) :
    ∃ s k, run State.init (ops ++ more) = some s ∧ s.blks[b]? = some k ∧ k.deletes = 0 := by
  obtain ⟨hl1, hl2⟩ := legal_append.1 h
  have hlt : ∀ b, C b → b < (Heap.init.run ops).objs.length := by
    intro b hb
    obtain ⟨s, -, h2⟩ := run_sim ops init_sim hl1
    obtain ⟨-, c, hcC, i, hi⟩ := hC b hb
    simp only [Heap.read] at hi
    cases ho : (Heap.init.run ops).objs[c]? with
    | none => rw [ho] at hi; simp at hi
    | some o =>
      rw [ho] at hi
      obtain ⟨k, hk⟩ := h2.1.blk ho
      rcases h2.1.live c k o hk ho with ⟨-, -, hf⟩ | ⟨h1, -, -⟩
      · rw [← h2.1.len]
        exact h2.1.rng b (.inl (by simp only [List.append_nil]; exact mem_ptrs hk (by rw [hf]; exact hi)))
      · exact absurd (h2.2 c k hk (by omega)) (closed_not_gone (C := C) (fun b hb => (hC b hb).2) hcC)
  have hp := circle_persists more hl2 (C := C) fun b hb => ⟨hlt b hb, hC b hb⟩
  obtain ⟨s, h1, -, h2⟩ := owned_objects_partial (ops ++ more) h
  rw [run_heap_append] at h2
  have hlen : ∀ (more : List Op) (a : Heap), a.objs.length ≤ (a.run more).objs.length := by
    intro more
    induction more with
    | nil => intro a; exact Nat.le_refl _
    | cons op more ih => intro a; exact Nat.le_trans (step_length op) (ih _)
  obtain ⟨k, hk, -, -, h4⟩ := h2 b (Nat.lt_of_lt_of_le (hlt b hb) (hlen more _))
  exact ⟨s, k, h1, hk, h4 (closed_not_gone (C := C) (fun b hb => (hp b hb).2) hb)⟩

/-! ## Assigning a handle from a member of what it points to -/

theorem drops_empty (bs : List Blk) (w : List (Option Nat)) : ∀ bs', drops bs w = some bs' → ∀ (b : Nat) (k : Blk),
    bs[b]? = some k → k.fields = [] → ∃ k', bs'[b]? = some k' ∧ k'.fields = [] := by
  induction bs, w using drops.induct with
  | case1 bs => intro bs' h b k hk hf; rw [drops_nil] at h; simp only [Option.some.injEq] at h; subst h; exact ⟨k, hk, hf⟩
  | case2 bs w ih => intro bs' h; rw [drops_none] at h; exact ih bs' h
  | case3 bs c w hn => intro bs' h; rw [drops] at h; split at h <;> simp_all
  | case4 bs c w k0 hk0 h0 ih =>
    intro bs' h b k hk hf
    rw [drops_some bs c w k0 hk0, if_pos h0] at h
    rw [show k0.fields.attach.reverse.unattach = k0.fields.reverse by simp] at ih
    have hc : c < bs.length := (List.getElem?_eq_some_iff.1 hk0).1
    by_cases e : c = b
    · subst e
      exact ih bs' h c { k0 with count := 0, deletes := k0.deletes + 1, fields := [] } (by simp [hc]) rfl
    · exact ih bs' h b k (by rw [List.getElem?_set_ne e]; exact hk) hf
  | case5 bs c w k0 hk0 h0 ih =>
    intro bs' h b k hk hf
    rw [drops_some bs c w k0 hk0, if_neg h0] at h
    have hc : c < bs.length := (List.getElem?_eq_some_iff.1 hk0).1
    by_cases e : c = b
    · subst e
      rw [hk] at hk0
      simp only [Option.some.injEq] at hk0
      subst hk0
      exact ih bs' h c { k with count := (k.count + 65535) % 65536 } (by simp [hc]) hf
    · exact ih bs' h b k (by rw [List.getElem?_set_ne e]; exact hk) hf

/-- **Violation.**  Taking the first object off a chain is undefined: in `l = l->next`, where `l` is the only owner
of its object, the assignment first releases that object, and with it the member it then copies from.  So in every
state a correct program can be in, and wherever the handle `l` is, unless in the object itself. -/
theorem assign_from_member_undefined (ops : List Op) (h : Legal Heap.init ops) (l : Place) (b i : Nat)
    (hu : Usable (Heap.init.run ops) l) (hl : (Heap.init.run ops).read l = some (some b)) (hne : ∀ j, l ≠ .field b j)
    (ho : owners (Heap.init.run ops) b = 1) : run State.init (ops ++ [.assign l (.field b i)]) = none := by
  obtain ⟨s, h1, h2⟩ := run_sim ops init_sim h
  obtain ⟨p, hp, hp'⟩ := sim_read h2 hu
  rw [hl] at hp'
  simp only [Option.some.injEq] at hp'
  subst hp'
  have hb : b < s.blks.length := by
    have := (write_inv h2.1 hp none (by simp)).1.rng b (.inl (by simp))
    have e : (s.write l none).blks.length = s.blks.length := by
      cases l with
      | ext n => rfl
      | field c i => simp only [State.write]; split <;> simp
    omega
  have hk : s.blks[b]? = some s.blks[b] := List.getElem?_eq_getElem hb
  generalize s.blks[b] = k at hk
  have hc := sim_count h2 hk
  rw [ho] at hc
  have hk1 : (s.write l none).blks[b]? = some k := by
    cases l with
    | ext n => exact hk
    | field c j =>
      have hcb : c ≠ b := fun e => hne j (by rw [e])
      simp only [State.write]
      split
      · simp only [List.getElem?_set_ne hcb]; exact hk
      · exact hk
  rw [run_append, h1]
  simp only [run, step, State.reset, hp]
  rw [drops_some _ _ _ _ hk1, if_pos (by rw [hc])]
  cases hd : drops ((s.write l none).blks.set b { k with count := 0, deletes := k.deletes + 1, fields := [] }) (k.fields.reverse ++ []) with
  | none => rfl
  | some bs' =>
    have hb1 : b < (s.write l none).blks.length := (List.getElem?_eq_some_iff.1 hk1).1
    obtain ⟨k', hk', hf⟩ := drops_empty _ _ bs' hd b { k with count := 0, deletes := k.deletes + 1, fields := [] } (by simp [hb1]) rfl
    simp only [State.read, hk', hf, List.getElem?_nil]

/-! ## Cases -/

theorem owners_le (a : Heap) (b : Nat) :
    owners a b ≤ 1 + a.ext.length + ((List.range a.objs.length).flatMap fun c => (a.objs[c]?.map (·.fields)).getD []).length := by
  have h1 : a.ext.count (some (some b)) ≤ a.ext.length := List.count_le_length
  have h2 : ∀ l : List Nat, (l.flatMap (left a)).count (some b) ≤ (l.flatMap fun c => (a.objs[c]?.map (·.fields)).getD []).length := by
    intro l
    induction l with
    | nil => simp
    | cons c l ih =>
      rw [List.flatMap_cons, List.flatMap_cons, List.count_append, List.length_append]
      have : (left a c).count (some b) ≤ ((a.objs[c]?.map (·.fields)).getD []).length := by
        unfold left
        split
        · simp
        · exact List.count_le_length
      omega
  have h3 := h2 (List.range a.objs.length)
  unfold owners
  split <;> omega

theorem drops_cons (bs : List Blk) (b : Nat) (w : List (Option Nat)) : drops bs (some b :: w) =
    match bs[b]? with
    | none => none
    | some k => if (k.count + 65535) % 65536 = 0 then
        drops (bs.set b { k with count := 0, deletes := k.deletes + 1, fields := [] }) (k.fields.reverse ++ w)
      else drops (bs.set b { k with count := (k.count + 65535) % 65536 }) w := by
  cases h : bs[b]? with
  | none => rw [drops]; split <;> simp_all
  | some k => exact drops_some bs b w k h

/-- A chain of two objects held by one handle: 0 owns 1. -/
def chain : List Op := [.make 1, .make 1, .fromMaster 0, .assignMaster (.field 0 0) 1, .resetMaster 0, .resetMaster 1]

theorem chain_legal : Legal Heap.init chain := by
  have hr : ∀ {a : Heap}, (∃ k, a.objs[0]? = some k ∧ k.mastered = true) → Reach a 0 := fun h => .root (.inl h)
  refine ⟨trivial, trivial, ⟨by decide, Nat.lt_of_le_of_lt (owners_le _ _) (by decide)⟩, ⟨⟨hr ⟨_, rfl, rfl⟩, none, rfl⟩,
    ⟨hr ⟨_, rfl, rfl⟩, none, rfl⟩, by decide, Nat.lt_of_le_of_lt (owners_le _ _) (by decide)⟩,
    (by decide : 0 < 2), (by decide : 1 < 2), trivial⟩

/-- the handle's end deletes both, each once -/
example : Legal Heap.init (chain ++ [.destroy 0]) ∧
    run State.init (chain ++ [.destroy 0]) = some ⟨[⟨0, false, [], 1⟩, ⟨0, false, [], 1⟩], [none]⟩ := by
  refine ⟨legal_append.2 ⟨chain_legal, ⟨some 0, rfl⟩, trivial⟩, ?_⟩
  simp [chain, State.init, run, step, State.reset, State.place, State.read, State.write, masterPtr, incRef, drops_nil, drops_none, drops_cons]

theorem chain_links {b c : Nat} (h : Link (Heap.init.run chain) b c) : b = 0 ∧ c = 1 := by
  obtain ⟨i, hi⟩ := h
  have e : (Heap.init.run chain) = ⟨[⟨false, [some 1]⟩, ⟨false, [none]⟩], [some (some 0)]⟩ := by decide +kernel
  rw [e] at hi
  match b, i with
  | 0, 0 => simp [Heap.read] at hi; exact ⟨rfl, hi.symm⟩
  | 0, i + 1 => simp [Heap.read] at hi
  | 1, 0 => simp [Heap.read] at hi
  | 1, i + 1 => simp [Heap.read] at hi
  | b + 2, i => simp [Heap.read] at hi

/-- the chain is no circle -/
example : Acyclic (Heap.init.run chain) := ⟨id, fun b c h => by obtain ⟨rfl, rfl⟩ := chain_links h; decide⟩

/-- its second object is owned by the first, and nothing but the handle owns the first -/
example : Reach (Heap.init.run chain) 1 ∧ owners (Heap.init.run chain) 0 = 1 ∧
    Usable (Heap.init.run chain) (.ext 0) ∧ (Heap.init.run chain).read (.ext 0) = some (some 0) := by
  refine ⟨.link (.root (.inr ⟨0, rfl⟩)) ⟨0, rfl⟩, ?_, ⟨some 0, rfl⟩, rfl⟩
  obtain ⟨s, h1, -, h2⟩ := owned_objects_partial chain chain_legal
  obtain ⟨k, hk, h3, -⟩ := h2 0 (by decide)
  have : s.useCount 0 = some 1 := by
    have : run State.init chain = some ⟨[⟨1, false, [some 1], 0⟩, ⟨1, false, [none], 0⟩], [some (some 0)]⟩ := by
      simp [chain, State.init, run, step, State.reset, State.place, State.read, State.write, masterPtr, incRef, drops_nil, drops_none, drops_cons]
    rw [this] at h1
    simp only [Option.some.injEq] at h1
    subst h1
    rfl
  rw [this] at h3
  simp only [Option.some.injEq] at h3
  exact h3.symm

/-- so taking the first object off it with `head = head->next` is undefined -/
example : run State.init (chain ++ [.assign (.ext 0) (.field 0 0)]) = none := by
  simp [chain, State.init, run, step, State.reset, State.place, State.read, State.write, masterPtr, incRef, drops_nil, drops_none, drops_cons]

/-- An object that owns itself. -/
def circle : List Op := [.make 1, .assignMaster (.field 0 0) 0, .resetMaster 0]

/-- it is out of reach and never deleted -/
example : Legal Heap.init circle ∧ ¬ Reach (Heap.init.run circle) 0 ∧ Link (Heap.init.run circle) 0 0 := by
  have e : (Heap.init.run circle) = ⟨[⟨false, [some 0]⟩], []⟩ := by decide +kernel
  refine ⟨⟨trivial, ⟨⟨.root (.inl ⟨_, rfl, rfl⟩), none, rfl⟩, ⟨.root (.inl ⟨_, rfl, rfl⟩), none, rfl⟩, by decide,
    Nat.lt_of_le_of_lt (owners_le _ _) (by decide)⟩, (by decide : 0 < 1), trivial⟩, ?_, ⟨0, rfl⟩⟩
  rw [e]
  intro h
  have : ∀ b, Reach (⟨[⟨false, [some 0]⟩], []⟩ : Heap) b → False := by
    intro b h
    induction h with
    | root hr =>
      rcases hr with ⟨k, hk, hm⟩ | ⟨n, hn⟩
      · have := List.mem_of_getElem? hk
        simp only [List.mem_singleton] at this
        subst this
        simp at hm
      · simp [Heap.read] at hn
    | link _ _ ih => exact ih
  exact this 0 h

end Verif.Owned
