import Verif.Owned.Props
/-!
# C98: counting owners is as good as never deleting
-/
namespace Verif.Owned
open Spec

/-! ## What is deleted, and the counts -/

theorem inv_ext_read {bs ext w cr a} (hi : Inv bs ext w cr a) (b : Nat) :
    some (some b) ∈ ext ↔ ∃ h, a.read (.ext h) = some (some b) := by
  rw [hi.ext_eq]
  constructor
  · intro h
    obtain ⟨n, hn⟩ := List.mem_iff_getElem?.1 h
    exact ⟨n, by simp only [Heap.read, hn]⟩
  · rintro ⟨n, hn⟩
    simp only [Heap.read] at hn
    split at hn
    · rename_i p hp
      simp only [Option.some.injEq] at hn
      subst hn
      exact List.mem_of_getElem? hp
    · simp at hn

/-- what is gone was deleted -/
theorem gone_deleted {bs ext a} (hi : Inv bs ext [] [] a) {b : Nat} (hg : Gone a b) :
    ∀ k : Blk, bs[b]? = some k → k.deletes = 1 := by
  induction hg with
  | @intro b hr hl ih =>
    intro k hk
    obtain ⟨o, ho⟩ := hi.obj hk
    have hact : ¬ k.active = true := fun h => hr (.inl ⟨o, ho, by rw [← hi.act b k o hk ho, h]⟩)
    have hext : ext.count (some (some b)) = 0 :=
      List.count_eq_zero.2 fun hm => hr (.inr ((inv_ext_read hi b).1 hm))
    have hptr : (ptrs bs).count (some b) = 0 := by
      refine List.count_eq_zero.2 fun hm => ?_
      obtain ⟨kc, hkc, hmem⟩ := List.mem_flatMap.1 hm
      obtain ⟨c, hc⟩ := List.mem_iff_getElem?.1 hkc
      obtain ⟨i, hi'⟩ := List.mem_iff_getElem?.1 hmem
      obtain ⟨oc, hoc⟩ := hi.obj hc
      rcases hi.live c kc oc hc hoc with ⟨h1, -, hf⟩ | ⟨-, -, hf⟩
      · have := ih c ⟨i, by simp only [Heap.read, hoc, ← hf, hi']⟩ kc hc
        omega
      · rw [hf] at hmem; simp at hmem
    have hc := hi.cnt b k hk
    simp only [own, hk, Option.map_some, Option.some.injEq, hact, hext, hptr, List.count_nil] at hc
    rcases hi.live b k o hk ho with ⟨-, h, -⟩ | ⟨h, -, -⟩
    · simp at hc; omega
    · exact h

/-- an object has been deleted once if it is gone and not at all otherwise -/
theorem sim_deletes {s : State} {a : Heap} (hs : Sim s a) {b : Nat} {k : Blk} (hk : s.blks[b]? = some k) :
    (Gone a b → k.deletes = 1) ∧ (¬ Gone a b → k.deletes = 0) := by
  refine ⟨fun h => gone_deleted hs.1 h k hk, fun h => ?_⟩
  by_cases h0 : k.deletes = 0
  · exact h0
  · exact absurd (hs.2 b k hk h0) h

theorem flatMap_range {α β} (l : List α) (f : α → List β) :
    l.flatMap f = (List.range l.length).flatMap fun i => (l[i]?.map f).getD [] := by
  induction l with
  | nil => rfl
  | cons a l ih =>
    rw [List.flatMap_cons, List.length_cons, List.range_succ_eq_map, List.flatMap_cons, List.flatMap_map, ih]
    rfl

theorem flatMap_congr_mem {α β} (l : List α) (f g : α → List β) (h : ∀ x ∈ l, f x = g x) : l.flatMap f = l.flatMap g := by
  induction l with
  | nil => rfl
  | cons a l ih =>
    rw [List.flatMap_cons, List.flatMap_cons, h a (by simp), ih fun x hx => h x (by simp [hx])]

theorem ptrs_left {s : State} {a : Heap} (hs : Sim s a) : ptrs s.blks = (List.range a.objs.length).flatMap (left a) := by
  rw [ptrs, flatMap_range, hs.1.len]
  refine flatMap_congr_mem _ _ _ fun i hm => ?_
  have hlt : i < a.objs.length := List.mem_range.1 hm
  have ho : a.objs[i]? = some a.objs[i] := List.getElem?_eq_getElem hlt
  generalize a.objs[i] = o at ho
  obtain ⟨k, hk⟩ := hs.1.blk ho
  obtain ⟨h1, h2⟩ := sim_deletes hs hk
  rw [hk, left, ho]
  by_cases hg : Gone a i
  · have := h1 hg
    rcases hs.1.live i k o hk ho with ⟨h, -, -⟩ | ⟨-, -, hf⟩
    · omega
    · rw [if_pos hg]; simp [hf]
  · have := h2 hg
    rcases hs.1.live i k o hk ho with ⟨-, -, hf⟩ | ⟨h, -, -⟩
    · rw [if_neg hg]; simp [hf]
    · omega

/-- every count is the number of owners -/
theorem sim_count {s : State} {a : Heap} (hs : Sim s a) {b : Nat} {k : Blk} (hk : s.blks[b]? = some k) :
    k.count = owners a b := by
  have hc := hs.1.cnt b k hk
  obtain ⟨o, ho⟩ := hs.1.obj hk
  have hact := hs.1.act b k o hk ho
  have hm : (a.mastered b) ↔ k.active = true := by
    rw [hact]
    constructor
    · rintro ⟨o', ho', h⟩
      rw [ho] at ho'
      simp only [Option.some.injEq] at ho'
      rw [ho']; exact h
    · exact fun h => ⟨o, ho, h⟩
  simp only [List.count_nil, Nat.add_zero, own, hk, Option.map_some, Option.some.injEq, ptrs_left hs, hs.1.ext_eq] at hc
  rw [hc, owners]
  by_cases h : k.active = true
  · rw [if_pos h, if_pos (hm.2 h)]
  · rw [if_neg h, if_neg (fun h' => h (hm.1 h'))]

/-! ## The operations -/

theorem sim_masterPtr {s : State} {a : Heap} (hs : Sim s a) {b : Nat} (hb : b < a.objs.length) :
    masterPtr s.blks b = some (if a.mastered b then some b else none) := by
  have ho : a.objs[b]? = some a.objs[b] := List.getElem?_eq_getElem hb
  generalize a.objs[b] = o at ho
  obtain ⟨k, hk⟩ := hs.1.blk ho
  have hact := hs.1.act b k o hk ho
  rw [masterPtr, hk]
  by_cases h : o.mastered = true
  · have hm : a.mastered b := ⟨o, ho, h⟩
    rw [if_pos hm]; simp [hact, h]
  · rw [if_neg (fun ⟨o', ho', h'⟩ => h (by rw [ho] at ho'; simp only [Option.some.injEq] at ho'; rw [ho']; exact h'))]
    simp [hact, h]

theorem mastered_not_gone {a : Heap} {b : Nat} (h : a.mastered b) : ¬ Gone a b :=
  reach_not_gone (.root (.inl h))

theorem reset_sim {s : State} {a : Heap} (hs : Sim s a) {l : Place} (hu : Usable a l) :
    ∃ s', s.reset l = some s' ∧ Sim s' (a.write l none) ∧ s'.blks.length = s.blks.length ∧
      ∀ (b : Nat) (k k' : Blk), s.blks[b]? = some k → s'.blks[b]? = some k' → k'.count ≤ k.count := by
  obtain ⟨p, hp, -⟩ := sim_read hs hu
  obtain ⟨hi, hdel⟩ := write_inv hs.1 hp none (by simp)
  have hd : Dead (s.write l none).blks (a.write l none) :=
    dead_mono hs.2 (fun b => gone_write (by simp)) fun b k' hk' => by
      obtain ⟨k, h1, h2, -⟩ := hdel b k' hk'; exact ⟨k, h1, h2⟩
  have hi' : Inv (s.write l none).blks (s.write l none).ext [p] [] (a.write l none) :=
    hi.bal (by simp) (by
      intro b hb
      exact hi.rng b (.inl (by simp at hb; simp [hb])))
  obtain ⟨bs, e1, e2, e3, e4⟩ := drops_inv _ _ _ _ _ rfl hi' hd
  refine ⟨{ s.write l none with blks := bs }, ?_, ⟨e2, e3⟩, ?_, ?_⟩
  · rw [State.reset, hp]
    simp only [e1]
  · have h1 := e2.len
    have h2 := hi.len
    have h3 := hs.1.len
    have h4 : (a.write l none).objs.length = a.objs.length := by
      cases l with
      | ext n => rfl
      | field c i => simp only [Heap.write]; split <;> simp
    simp only
    omega
  · intro b k k' hk hk'
    have hb : b < bs.length := (List.getElem?_eq_some_iff.1 hk').1
    have hb2 : b < (s.write l none).blks.length := by rw [hi.len, ← e2.len]; exact hb
    have hk1 : (s.write l none).blks[b]? = some (s.write l none).blks[b] := List.getElem?_eq_getElem hb2
    generalize (s.write l none).blks[b] = k1 at hk1
    obtain ⟨k0, h1, -, h2⟩ := hdel b k1 hk1
    rw [hk] at h1
    simp only [Option.some.injEq] at h1
    subst h1
    have := e4 b k1 k' hk1 hk'
    omega

theorem incRef_inv {bs ext w cr a} (hi : Inv bs ext w cr a) (hd : Dead bs a) (q : Option Nat)
    (hq : ∀ b, q = some b → a.mastered b ∧ ∀ k : Blk, bs[b]? = some k → k.count < 65535) :
    ∃ bs', incRef bs q = some bs' ∧ Inv bs' ext (q :: w) cr a ∧ Dead bs' a ∧ bs'.length = bs.length ∧
      ∀ i : Nat, bs'[i]?.map (·.fields) = bs[i]?.map (·.fields) := by
  cases q with
  | none =>
    refine ⟨bs, rfl, hi.bal (by simp) ?_, hd, rfl, fun _ => rfl⟩
    intro b hb
    exact hi.rng b (.inl (by simp at hb; rcases hb with h | h <;> simp [h]))
  | some b =>
    obtain ⟨⟨o, ho, hm⟩, hlt⟩ := hq b rfl
    obtain ⟨k, hk⟩ := hi.blk ho
    have hc := hlt k hk
    have hact : k.active = true := by rw [hi.act b k o hk ho, hm]
    have hb : b < bs.length := (List.getElem?_eq_some_iff.1 hk).1
    have hn : (k.count + 1) % 65536 = k.count + 1 := by omega
    have hown : 0 < k.count := by
      rcases hi.live b k o hk ho with ⟨-, h, -⟩ | ⟨h1, -, -⟩
      · exact h
      · exact absurd (hd b k hk (by omega)) (mastered_not_gone ⟨o, ho, hm⟩)
    have get : ∀ (k' : Blk) (d : Nat), (bs.set b k')[d]? = if b = d then some k' else bs[d]? := by
      intro k' d
      rw [List.getElem?_set]
      split <;> simp [hb]
    refine ⟨bs.set b { k with count := k.count + 1 }, ?_, ?_, ?_, by simp, ?_⟩
    · simp only [incRef, hk, hact, if_true, hn]
    · refine ⟨by simp [hi.len], hi.ext_eq, ?_, ?_, ?_, ?_, ?_⟩
      · intro c k' o' hk' ho'
        rw [get] at hk'
        split at hk'
        · rename_i e; subst e
          simp only [Option.some.injEq] at hk'; subst hk'
          exact hi.act _ k o' hk ho'
        · exact hi.act c k' o' hk' ho'
      · intro c k' hk'
        have hs := own_set (ext := ext) (k' := { k with count := k.count + 1 }) hk rfl c
        rw [get] at hk'
        split at hk'
        · rename_i e; subst e
          simp only [Option.some.injEq] at hk'; subst hk'
          have := hi.cnt b k hk
          simp only [List.count_cons_self] at hs ⊢
          omega
        · rename_i e
          have := hi.cnt c k' hk'
          have e' : ¬ (some b = some c) := by simpa using e
          simp only [List.count_cons, beq_iff_eq, e', if_false, Nat.add_zero] at hs ⊢
          omega
      · intro c k' hk'
        rw [get] at hk'
        split at hk'
        · simp only [Option.some.injEq] at hk'; subst hk'; simp only; omega
        · exact hi.lt c k' hk'
      · intro c k' o' hk' ho'
        rw [get] at hk'
        split at hk'
        · rename_i e; subst e
          simp only [Option.some.injEq] at hk'; subst hk'
          rcases hi.live b k o' hk ho' with ⟨h1, -, h3⟩ | ⟨-, h, -⟩
          · exact .inl ⟨h1, Nat.succ_pos _, h3⟩
          · omega
        · exact hi.live c k' o' hk' ho'
      · intro c hc'
        rw [List.length_set]
        rcases hc' with hc' | hc'
        · simp only [List.mem_append, List.mem_cons, Option.some.injEq] at hc'
          rcases hc' with (hc' | hc' | hc') | hc'
          · apply hi.rng c
            left
            simp only [List.mem_append]
            left; left
            simp only [ptrs, List.mem_flatMap] at hc' ⊢
            obtain ⟨k', hk', hmm⟩ := hc'
            obtain ⟨j, hj⟩ := List.mem_iff_getElem?.1 hk'
            rw [get] at hj
            split at hj
            · simp only [Option.some.injEq] at hj; subst hj; exact ⟨k, List.mem_of_getElem? hk, hmm⟩
            · exact ⟨k', List.mem_of_getElem? hj, hmm⟩
          · omega
          · exact hi.rng c (.inl (by simp [hc']))
          · exact hi.rng c (.inl (by simp [hc']))
        · exact hi.rng c (.inr hc')
    · intro c k' hk' hne
      rw [get] at hk'
      split at hk'
      · rename_i e; subst e
        simp only [Option.some.injEq] at hk'; subst hk'
        exact hd b k hk hne
      · exact hd c k' hk' hne
    · intro i
      rw [get]
      split
      · rename_i e; subst e; rw [hk]; rfl
      · rfl

theorem place_sim {s : State} {a : Heap} (hs : Sim s a) {l : Place} (hu : Usable a l) (hnull : a.read l = some none)
    (q : Option Nat) (hq : ∀ b, q = some b → a.mastered b ∧ ∀ k : Blk, s.blks[b]? = some k → k.count < 65535) :
    ∃ s', s.place l q = some s' ∧ Sim s' (a.write l q) := by
  obtain ⟨p, hp, hp'⟩ := sim_read hs hu
  rw [hnull] at hp'
  simp only [Option.some.injEq] at hp'
  subst hp'
  obtain ⟨bs, e1, e2, e3, hlen, e5⟩ := incRef_inv hs.1 hs.2 q hq
  have hread : State.read { s with blks := bs } l = some none := by
    cases l with
    | ext n => exact hp
    | field c i =>
      have := e5 c
      simp only [State.read] at hp ⊢
      cases h1 : s.blks[c]? with
      | none => rw [h1] at hp; simp at hp
      | some k =>
        rw [h1] at hp this
        cases h2 : bs[c]? with
        | none => rw [h2] at this; simp at this
        | some k' =>
          rw [h2] at this
          simp only [Option.map_some, Option.some.injEq] at this
          simp only at hp ⊢
          rw [this]; exact hp
  have hqr : ∀ b, q = some b → b < bs.length := fun b hb => e2.rng b (.inl (by simp [hb]))
  obtain ⟨hi, hdel⟩ := write_inv (s := { s with blks := bs }) e2 hread q hqr
  refine ⟨State.write { s with blks := bs } l q, ?_, hi.bal ?_ (by simp), ?_⟩
  · rw [State.place, hp]
    simp only [e1]
  · intro b; simp [List.count_cons]
  · refine dead_mono e3 (fun b => gone_write fun c hc => mastered_not_gone (hq c hc).1) fun b k' hk' => ?_
    obtain ⟨k, h1, h2, -⟩ := hdel b k' hk'; exact ⟨k, h1, h2⟩

/-- a new handle -/
theorem push_inv {bs ext w cr a} {q : Option Nat} (hi : Inv bs ext (q :: w) cr a) :
    Inv bs (ext ++ [some q]) w cr { a with ext := a.ext ++ [some q] } := by
  refine ⟨hi.len, by rw [hi.ext_eq], hi.act, ?_, hi.lt, hi.live, ?_⟩
  · intro b k hk
    have := hi.cnt b k hk
    simp only [own, List.count_append, List.count_cons, List.count_nil, beq_iff_eq, Option.some.injEq] at this ⊢
    by_cases e : q = some b <;> simp only [e, if_true, if_false] at this ⊢ <;> omega
  · intro b hb
    rcases hb with hb | hb
    · exact hi.rng b (.inl (by simp only [List.mem_append, List.mem_cons] at hb ⊢; tauto))
    · rcases List.mem_append.1 hb with hb | hb
      · exact hi.rng b (.inr hb)
      · simp only [List.mem_singleton, Option.some.injEq] at hb
        exact hi.rng b (.inl (by simp [hb]))

theorem root_push {a : Heap} {q : Option Nat} {c : Nat} (hr : Root { a with ext := a.ext ++ [some q] } c) :
    Root a c ∨ q = some c := by
  rcases hr with hm | ⟨n, hn⟩
  · exact .inl (.inl hm)
  · simp only [Heap.read] at hn
    rw [List.getElem?_append] at hn
    split at hn
    · rename_i p hp
      simp only [Option.some.injEq] at hn
      subst hn
      split at hp
      · exact .inl (.inr ⟨n, by simp only [Heap.read, hp]⟩)
      · right
        have := List.mem_of_getElem? hp
        simpa [eq_comm] using this
    · simp at hn

theorem gone_push {a : Heap} {q : Option Nat} (hq : ∀ c, q = some c → ¬ Gone a c) {b : Nat} (h : Gone a b) :
    Gone { a with ext := a.ext ++ [some q] } b := by
  refine gone_mono (a := a) (a' := { a with ext := a.ext ++ [some q] }) (fun c hc hr => ?_) (fun d c _ hl => hl) h
  rcases root_push hr with hr | hr
  · obtain ⟨hr', -⟩ := hc; exact hr' hr
  · exact hq c hr hc

/-- the end of a handle -/
theorem destroy_inv {bs ext w cr a} {n : Nat} {p : Option Nat} (hi : Inv bs ext w cr a) (h : ext[n]? = some (some p)) :
    Inv bs (ext.set n none) (p :: w) cr { a with ext := a.ext.set n none } := by
  refine ⟨hi.len, by rw [hi.ext_eq], hi.act, ?_, hi.lt, hi.live, ?_⟩
  · intro b k hk
    have h1 := hi.cnt b k hk
    have h2 := count_set ext n (some p) none (some (some b)) h
    simp only [own, List.count_cons, beq_iff_eq, Option.some.injEq] at h1 h2 ⊢
    simp only [reduceCtorEq, if_false, Nat.add_zero] at h2
    by_cases e : p = some b <;> simp only [e, if_true, if_false] at h2 ⊢ <;> omega
  · intro b hb
    rcases hb with hb | hb
    · simp only [List.mem_append, List.mem_cons] at hb
      rcases hb with (hb | hb | hb) | hb
      · exact hi.rng b (.inl (by simp [hb]))
      · exact hi.rng b (.inr (by rw [hb]; exact List.mem_of_getElem? h))
      · exact hi.rng b (.inl (by simp [hb]))
      · exact hi.rng b (.inl (by simp [hb]))
    · rcases List.mem_or_eq_of_mem_set hb with hb | hb
      · exact hi.rng b (.inr hb)
      · simp at hb

/-- a master that owned its object no longer does -/
theorem master_inv {bs ext w cr a} {b : Nat} {k : Blk} {o : Obj} (hi : Inv bs ext w cr a) (hk : bs[b]? = some k)
    (ho : a.objs[b]? = some o) (hact : k.active = true) :
    Inv (bs.set b { k with active := false }) ext (some b :: w) cr { a with objs := a.objs.set b { o with mastered := false } } := by
  have hb : b < bs.length := (List.getElem?_eq_some_iff.1 hk).1
  have hb' : b < a.objs.length := (List.getElem?_eq_some_iff.1 ho).1
  have get : ∀ (k' : Blk) (d : Nat), (bs.set b k')[d]? = if b = d then some k' else bs[d]? := by
    intro k' d
    rw [List.getElem?_set]
    split <;> simp [hb]
  have get' : ∀ (k' : Obj) (d : Nat), (a.objs.set b k')[d]? = if b = d then some k' else a.objs[d]? := by
    intro k' d
    rw [List.getElem?_set]
    split <;> simp [hb']
  refine ⟨by simp [hi.len], hi.ext_eq, ?_, ?_, ?_, ?_, ?_⟩
  · intro c k' o' hk' ho'
    simp only [get, get'] at hk' ho'
    by_cases e : b = c
    · subst e
      simp only [if_true, Option.some.injEq] at hk' ho'
      subst hk'; subst ho'; rfl
    · simp only [e, if_false] at hk' ho'
      exact hi.act c k' o' hk' ho'
  · intro c k' hk'
    have hp := ptrs_set bs b k { k with active := false } hk (some c)
    simp only at hp
    rw [get] at hk'
    by_cases e : b = c
    · subst e
      simp only [if_true, Option.some.injEq] at hk'
      subst hk'
      have h1 := hi.cnt b k hk
      simp only [own, get, if_true, hk, Option.map_some, hact, List.count_cons_self, Option.some.injEq, Bool.false_eq_true, if_false] at h1 ⊢
      omega
    · simp only [e, if_false] at hk'
      have h1 := hi.cnt c k' hk'
      have e' : ¬ (some b = some c) := by simpa using e
      simp only [own, get, e, if_false, List.count_cons, beq_iff_eq, e', Nat.add_zero] at h1 ⊢
      omega
  · intro c k' hk'
    rw [get] at hk'
    split at hk'
    · simp only [Option.some.injEq] at hk'; subst hk'; exact hi.lt b k hk
    · exact hi.lt c k' hk'
  · intro c k' o' hk' ho'
    simp only [get, get'] at hk' ho'
    by_cases e : b = c
    · subst e
      simp only [if_true, Option.some.injEq] at hk' ho'
      subst hk'; subst ho'
      exact hi.live b k o hk ho
    · simp only [e, if_false] at hk' ho'
      exact hi.live c k' o' hk' ho'
  · intro c hc
    rw [List.length_set]
    rcases hc with hc | hc
    · simp only [List.mem_append, List.mem_cons, Option.some.injEq] at hc
      rcases hc with (hc | hc | hc) | hc
      · apply hi.rng c
        left
        simp only [List.mem_append]
        left; left
        simp only [ptrs, List.mem_flatMap] at hc ⊢
        obtain ⟨k', hk', hmm⟩ := hc
        obtain ⟨j, hj⟩ := List.mem_iff_getElem?.1 hk'
        rw [get] at hj
        split at hj
        · simp only [Option.some.injEq] at hj; subst hj; exact ⟨k, List.mem_of_getElem? hk, hmm⟩
        · exact ⟨k', List.mem_of_getElem? hj, hmm⟩
      · omega
      · exact hi.rng c (.inl (by simp [hc]))
      · exact hi.rng c (.inl (by simp [hc]))
    · exact hi.rng c (.inr hc)

theorem sim_copyable {s : State} {a : Heap} (hs : Sim s a) {q : Option Nat} (h : Copyable a q) :
    ∀ b, q = some b → a.mastered b ∧ ∀ k : Blk, s.blks[b]? = some k → k.count < 65535 := by
  intro b hb
  obtain ⟨h1, h2⟩ := h b hb
  exact ⟨h1, fun k hk => by rw [sim_count hs hk]; exact h2⟩

theorem usable_read {a : Heap} {l : Place} (h : Usable a l) : ∃ p, a.read l = some p := by
  cases l with
  | ext n => exact h
  | field b i => exact h.2

theorem read_write_self {a : Heap} {l : Place} {p : Option Nat} (q : Option Nat) (h : a.read l = some p) :
    (a.write l q).read l = some q := by
  cases l with
  | ext n =>
    simp only [Heap.read] at h
    split at h
    · rename_i p' hp
      simp [Heap.read, Heap.write, (List.getElem?_eq_some_iff.1 hp).1]
    · simp at h
  | field c i =>
    simp only [Heap.read] at h
    cases hc : a.objs[c]? with
    | none => rw [hc] at h; simp at h
    | some k =>
      rw [hc] at h
      simp only at h
      obtain ⟨h1, h2⟩ := List.getElem?_eq_some_iff.1 hc
      subst h2
      simp [Heap.read, Heap.write, hc, h1, (List.getElem?_eq_some_iff.1 h).1]

theorem state_read_write {s : State} {l l' : Place} {p p' q : Option Nat} (h : s.read l = some p) (h' : s.read l' = some p')
    (hq : l = l' → q = p') : (s.write l q).read l' = some p' := by
  cases l with
  | ext n =>
    cases l' with
    | ext m =>
      simp only [State.read, State.write, List.getElem?_set] at h h' ⊢
      by_cases e : n = m
      · subst e
        rw [hq rfl]
        have hn : n < s.ext.length := by
          split at h
          · rename_i x hx; exact (List.getElem?_eq_some_iff.1 hx).1
          · simp at h
        simp [hn]
      · simp only [e, if_false]; exact h'
    | field c i => exact h'
  | field c i =>
    simp only [State.read] at h
    cases hk : s.blks[c]? with
    | none => rw [hk] at h; simp at h
    | some k =>
      rw [hk] at h
      simp only at h
      simp only [State.write, hk]
      cases l' with
      | ext m => exact h'
      | field d j =>
        simp only [State.read, List.getElem?_set] at h' ⊢
        by_cases e : c = d
        · subst e
          simp only [if_true, (List.getElem?_eq_some_iff.1 hk).1, List.getElem?_set]
          by_cases e' : i = j
          · subst e'
            simp [hq rfl, (List.getElem?_eq_some_iff.1 h).1]
          · rw [hk] at h'
            simp only [e', if_false]; exact h'
        · simp only [e, if_false]; exact h'

/-- every operation a correct program makes is well defined and keeps the program and the heap in step -/
theorem step_sim {s : State} {a : Heap} (hs : Sim s a) (op : Op) (hok : Ok a op) :
    ∃ s', step s op = some s' ∧ Sim s' (a.step op) := by
  obtain ⟨hi, hd⟩ := hs
  have hs : Sim s a := ⟨hi, hd⟩
  cases op with
  | make n =>
    refine ⟨_, rfl, ?_, ?_⟩
    · have hsplit : ∀ (b : Nat) (k : Blk), (s.blks ++ [(⟨1, true, List.replicate n none, 0⟩ : Blk)])[b]? = some k →
          (s.blks[b]? = some k ∧ b < s.blks.length) ∨ (b = s.blks.length ∧ k = ⟨1, true, List.replicate n none, 0⟩) := by
        intro b k hk
        rw [List.getElem?_append] at hk
        split at hk
        · rename_i h; exact .inl ⟨hk, h⟩
        · rename_i h
          obtain ⟨h1, h2⟩ := List.getElem?_eq_some_iff.1 hk
          simp only [List.length_singleton] at h1
          refine .inr ⟨by omega, ?_⟩
          have : b - s.blks.length = 0 := by omega
          simp only [this, List.getElem_cons_zero] at h2
          exact h2.symm
      have hobj : ∀ (b : Nat) (o : Obj), (a.objs ++ [(⟨true, List.replicate n none⟩ : Obj)])[b]? = some o →
          (a.objs[b]? = some o ∧ b < a.objs.length) ∨ (b = a.objs.length ∧ o = ⟨true, List.replicate n none⟩) := by
        intro b k hk
        rw [List.getElem?_append] at hk
        split at hk
        · rename_i h; exact .inl ⟨hk, h⟩
        · rename_i h
          obtain ⟨h1, h2⟩ := List.getElem?_eq_some_iff.1 hk
          simp only [List.length_singleton] at h1
          refine .inr ⟨by omega, ?_⟩
          have : b - a.objs.length = 0 := by omega
          simp only [this, List.getElem_cons_zero] at h2
          exact h2.symm
      have hlen := hi.len
      have hptrs : ∀ b : Nat, (ptrs (s.blks ++ [(⟨1, true, List.replicate n none, 0⟩ : Blk)])).count (some b) = (ptrs s.blks).count (some b) := by
        intro b
        simp only [ptrs, List.flatMap_append, List.flatMap_cons, List.flatMap_nil, List.append_nil, List.count_append]
        have : (List.replicate n (none : Option Nat)).count (some b) = 0 := by
          rw [List.count_eq_zero]
          intro hm
          simp at hm
        omega
      refine ⟨by simp [Heap.step, hlen], hi.ext_eq, ?_, ?_, ?_, ?_, ?_⟩
      · intro b k o hk ho
        rcases hsplit b k hk with ⟨h1, h2⟩ | ⟨h1, h2⟩ <;> rcases hobj b o ho with ⟨h3, h4⟩ | ⟨h3, h4⟩
        · exact hi.act b k o h1 h3
        · omega
        · omega
        · rw [h2, h4]
      · intro b k hk
        have hp := hptrs b
        rcases hsplit b k hk with ⟨h1, h2⟩ | ⟨h1, h2⟩
        · have := hi.cnt b k h1
          simp only [own, List.getElem?_append_left h2, hp] at this ⊢
          exact this
        · subst h1
          have h0 : s.ext.count (some (some s.blks.length)) = 0 :=
            List.count_eq_zero.2 fun hm => Nat.lt_irrefl _ (hi.rng _ (.inr hm))
          have h0' : (ptrs s.blks).count (some s.blks.length) = 0 :=
            List.count_eq_zero.2 fun hm => Nat.lt_irrefl _ (hi.rng _ (.inl (by simp [hm])))
          simp only [own, hp, h0, h0', hk, h2]
          simp
      · intro b k hk
        rcases hsplit b k hk with ⟨h1, -⟩ | ⟨-, h2⟩
        · exact hi.lt b k h1
        · rw [h2]; simp
      · intro b k o hk ho
        rcases hsplit b k hk with ⟨h1, h2⟩ | ⟨h1, h2⟩ <;> rcases hobj b o ho with ⟨h3, h4⟩ | ⟨h3, h4⟩
        · exact hi.live b k o h1 h3
        · omega
        · omega
        · rw [h2, h4]; exact .inl ⟨rfl, Nat.zero_lt_one, rfl⟩
      · intro b hb
        have : b < s.blks.length := by
          apply hi.rng b
          rcases hb with hb | hb
          · left
            simp only [List.append_nil, ptrs, List.flatMap_append, List.mem_append, List.flatMap_cons, List.flatMap_nil] at hb ⊢
            rcases hb with hb | hb
            · exact hb
            · simp at hb
          · exact .inr hb
        simp only [List.length_append]; omega
    · intro b k hk hne
      have hk' : s.blks[b]? = some k ∧ b < s.blks.length := by
        simp only at hk
        rw [List.getElem?_append] at hk
        split at hk
        · rename_i h; exact ⟨hk, h⟩
        · have hm := List.mem_of_getElem? hk
          simp only [List.mem_singleton] at hm
          subst hm
          exact absurd rfl hne
      have key : ∀ c, Gone a c → c < a.objs.length → Gone (a.step (.make n)) c := by
        intro c hc
        induction hc with
        | @intro c hr hl ih =>
          intro hlt
          refine .intro ?_ ?_
          · rintro (⟨o, ho, hm⟩ | hx)
            · simp only [Heap.step, List.getElem?_append_left hlt] at ho
              exact hr (.inl ⟨o, ho, hm⟩)
            · exact hr (.inr hx)
          · rintro d ⟨i, hi'⟩
            simp only [Heap.read, Heap.step] at hi'
            by_cases hdl : d < a.objs.length
            · rw [List.getElem?_append_left hdl] at hi'
              exact ih d ⟨i, hi'⟩ hdl
            · exfalso
              rw [List.getElem?_append_right (by omega)] at hi'
              split at hi'
              · rename_i o ho
                have := List.mem_of_getElem? ho
                simp only [List.mem_singleton] at this
                subst this
                have := List.mem_of_getElem? hi'
                simp at this
              · simp at hi'
      exact key b (hd b k hk'.1 hne) (by rw [← hi.len]; exact hk'.2)
  | fromMaster b =>
    obtain ⟨hb, ho⟩ := hok
    have hm := sim_masterPtr hs hb
    have hq : ∀ c, (if a.mastered b then some b else none) = some c →
        a.mastered c ∧ ∀ k : Blk, s.blks[c]? = some k → k.count < 65535 := by
      intro c hc
      by_cases h : a.mastered b
      · rw [if_pos h] at hc
        simp only [Option.some.injEq] at hc
        subst hc
        exact ⟨h, fun k hk => by rw [sim_count hs hk]; exact ho⟩
      · rw [if_neg h] at hc; simp at hc
    obtain ⟨bs, e1, e2, e3, -, -⟩ := incRef_inv hi hd _ hq
    refine ⟨⟨bs, s.ext ++ [some (if a.mastered b then some b else none)]⟩, ?_, push_inv e2, ?_⟩
    · simp only [step, hm, e1, Option.map_some]
    · exact dead_mono e3 (fun c => gone_push fun d hd' => mastered_not_gone (hq d hd').1) fun c k' hk' => ⟨k', hk', rfl⟩
  | copy l =>
    obtain ⟨hu, hc⟩ := hok
    obtain ⟨p, hp, hp'⟩ := sim_read hs hu
    have hq := sim_copyable hs (hc p hp')
    obtain ⟨bs, e1, e2, e3, -, -⟩ := incRef_inv hi hd p hq
    refine ⟨⟨bs, s.ext ++ [some p]⟩, ?_, ?_, ?_⟩
    · simp only [step, hp, e1, Option.map_some]
    · simp only [Heap.step, hp', Option.getD_some]
      exact push_inv e2
    · simp only [Heap.step, hp', Option.getD_some]
      exact dead_mono e3 (fun c => gone_push fun d hd' => mastered_not_gone (hq d hd').1) fun c k' hk' => ⟨k', hk', rfl⟩
  | move l =>
    obtain ⟨p, hp, hp'⟩ := sim_read hs hok
    obtain ⟨hw, hdel⟩ := write_inv hi hp none (by simp)
    have hw' : Inv (s.write l none).blks (s.write l none).ext [p] [] (a.write l none) :=
      hw.bal (by simp) (by
        intro b hb
        exact hw.rng b (.inl (by simp at hb; simp [hb])))
    refine ⟨_, by simp only [step, hp]; rfl, ?_, ?_⟩
    · simp only [Heap.step, hp', Option.getD_some]
      exact push_inv hw'
    · simp only [Heap.step, hp', Option.getD_some]
      refine dead_mono hd (fun b hb => ?_) fun b k' hk' => by
        obtain ⟨k, h1, h2, -⟩ := hdel b k' hk'; exact ⟨k, h1, h2⟩
      refine gone_mono (a := a) (fun c hc hr => ?_) (fun d c hc hl => ?_) hb
      · rcases root_push hr with hr | hr
        · rcases root_write hr with hr | hr
          · obtain ⟨hr', -⟩ := hc; exact hr' hr
          · simp at hr
        · exact reach_not_gone (usable_target hok (by rw [hp', hr])) hc
      · rcases link_write (q := none) (l := l) (a := a) hl with hl | hl
        · exact hl
        · simp at hl
  | reset l =>
    obtain ⟨s', h1, h2, -⟩ := reset_sim hs hok
    exact ⟨s', h1, h2⟩
  | destroy h =>
    obtain ⟨p, hp, hp'⟩ := sim_read (l := .ext h) hs hok
    have hn : s.ext[h]? = some (some p) := by
      simp only [State.read] at hp
      split at hp
      · rename_i p' hx; simp only [Option.some.injEq] at hp; rw [hx, hp]
      · simp at hp
    have hw := destroy_inv hi hn
    have hd' : Dead s.blks { a with ext := a.ext.set h none } := by
      refine dead_mono hd (fun b hb => ?_) fun b k' hk' => ⟨k', hk', rfl⟩
      refine gone_mono (a := a) (a' := { a with ext := a.ext.set h none }) (fun c hc hr => ?_) (fun d c hc hl => hl) hb
      obtain ⟨hr', -⟩ := hc
      rcases hr with hm | ⟨n, hr⟩
      · exact hr' (.inl hm)
      · refine hr' (.inr ⟨n, ?_⟩)
        simp only [Heap.read, List.getElem?_set] at hr ⊢
        by_cases e : h = n
        · simp only [e, if_true] at hr
          split at hr
          · rename_i x hx; split at hx <;> simp at hx
          · simp at hr
        · simp only [e, if_false] at hr; exact hr
    obtain ⟨bs, e1, e2, e3, -⟩ := drops_inv _ _ _ _ _ rfl hw hd'
    exact ⟨⟨bs, s.ext.set h none⟩, by simp only [step, hp, e1, Option.map_some], e2, e3⟩
  | resetMaster b =>
    have ho : a.objs[b]? = some a.objs[b] := List.getElem?_eq_getElem hok
    generalize a.objs[b] = o at ho
    obtain ⟨k, hk⟩ := hi.blk ho
    have hact := hi.act b k o hk ho
    simp only [step, hk, Heap.step, ho]
    by_cases h : k.active = true
    · have hw := master_inv hi hk ho h
      have hd' : Dead (s.blks.set b { k with active := false }) { a with objs := a.objs.set b { o with mastered := false } } := by
        refine dead_mono hd (fun c hc => ?_) fun c k' hk' => ?_
        · have hob : b < a.objs.length := hok
          refine gone_mono (a := a) (fun c hc hr => ?_) (fun d c hc hl => ?_) hc
          · obtain ⟨hr', -⟩ := hc
            rcases hr with ⟨o', ho', hm⟩ | hx
            · simp only [List.getElem?_set] at ho'
              by_cases e : b = c
              · simp [e] at ho'
                obtain ⟨-, rfl⟩ := ho'
                simp at hm
              · simp only [e, if_false] at ho'
                exact hr' (.inl ⟨o', ho', hm⟩)
            · exact hr' (.inr hx)
          · obtain ⟨i, hl⟩ := hl
            refine ⟨i, ?_⟩
            simp only [Heap.read, List.getElem?_set] at hl ⊢
            by_cases e : b = d
            · subst e
              simp only [if_true, hob] at hl
              rw [ho]; exact hl
            · simp only [e, if_false] at hl; exact hl
        · have hbl : b < s.blks.length := (List.getElem?_eq_some_iff.1 hk).1
          rw [List.getElem?_set] at hk'
          by_cases e : b = c
          · subst e
            simp only [if_true, hbl, Option.some.injEq] at hk'
            subst hk'
            exact ⟨k, hk, rfl⟩
          · simp only [e, if_false] at hk'
            exact ⟨k', hk', rfl⟩
      obtain ⟨bs, e1, e2, e3, -⟩ := drops_inv _ _ _ _ _ rfl hw hd'
      exact ⟨⟨bs, s.ext⟩, by simp only [h, if_true, e1, Option.map_some], e2, e3⟩
    · have hf : o.mastered = false := by rw [← hact]; simpa using h
      have he : a.objs.set b { o with mastered := false } = a.objs := by
        apply List.ext_getElem?
        intro i
        rw [List.getElem?_set]
        split
        · rename_i e; subst e
          rw [ho]
          simp only [show b < a.objs.length from hok, if_true]
          rw [← hf]
        · rfl
      exact ⟨s, by simp only [h, if_false, Bool.false_eq_true], by rw [he]; exact hs⟩
  | assign l l' =>
    obtain ⟨hne, hu, hu1, hu2, hc⟩ := hok
    obtain ⟨s1, h1, h2, -, h3⟩ := reset_sim hs hu
    obtain ⟨p0, hp0⟩ := usable_read hu
    obtain ⟨p, hp, hp'⟩ := sim_read h2 hu2
    rw [read_write_ne none hne] at hp'
    have hcp := hc p hp'
    obtain ⟨s2, h4, h5⟩ := place_sim h2 hu1 (read_write_self none hp0) p (by
      intro b hb
      obtain ⟨hm, ho⟩ := hcp b hb
      refine ⟨(write_mastered a l none b).2 hm, fun k' hk' => ?_⟩
      obtain ⟨o, hob, -⟩ := hm
      obtain ⟨k, hk⟩ := hi.blk hob
      have := h3 b k k' hk hk'
      have := sim_count hs hk
      omega)
    rw [write_write] at h5
    exact ⟨s2, by simp only [step, h1, hp, h4], by simp only [Heap.step, hp', Option.getD_some]; exact h5⟩
  | assignMaster l b =>
    obtain ⟨hu, hu1, hb, ho⟩ := hok
    obtain ⟨s1, h1, h2, -, h3⟩ := reset_sim hs hu
    obtain ⟨p0, hp0⟩ := usable_read hu
    have hlen : (a.write l none).objs.length = a.objs.length := by
      cases l with
      | ext n => rfl
      | field c i => simp only [Heap.write]; split <;> simp
    have hm := sim_masterPtr h2 (b := b) (by rw [hlen]; exact hb)
    have hif : (if (a.write l none).mastered b then some b else none) = if a.mastered b then some b else none := by
      by_cases h : a.mastered b
      · rw [if_pos h, if_pos ((write_mastered a l none b).2 h)]
      · rw [if_neg h, if_neg (fun h' => h ((write_mastered a l none b).1 h'))]
    rw [hif] at hm
    obtain ⟨s2, h4, h5⟩ := place_sim h2 hu1 (read_write_self none hp0) (if a.mastered b then some b else none) (by
      intro c hc
      by_cases h : a.mastered b
      · rw [if_pos h] at hc
        simp only [Option.some.injEq] at hc
        subst hc
        refine ⟨(write_mastered a l none b).2 h, fun k' hk' => ?_⟩
        obtain ⟨o, hob, -⟩ := h
        obtain ⟨k, hk⟩ := hi.blk hob
        have := h3 b k k' hk hk'
        have := sim_count hs hk
        omega
      · rw [if_neg h] at hc; simp at hc)
    rw [write_write] at h5
    exact ⟨s2, by simp only [step, h1, hm, h4], h5⟩
  | swap l l' =>
    obtain ⟨hu, hu'⟩ := hok
    obtain ⟨p, hp, hpa⟩ := sim_read hs hu
    obtain ⟨p', hp', hpa'⟩ := sim_read hs hu'
    have hrng : ∀ {l : Place} {q : Option Nat}, s.read l = some q → ∀ b, q = some b → b < s.blks.length := by
      intro l q hq b hb
      have := (write_inv hi hq none (by simp)).1.rng b (.inl (by simp [hb]))
      have e : (s.write l none).blks.length = s.blks.length := by
        cases l with
        | ext n => rfl
        | field c i => simp only [State.write]; split <;> simp
      omega
    obtain ⟨hw, hdel⟩ := write_inv hi hp p' (hrng hp')
    have hread : (s.write l p').read l' = some p' := state_read_write hp hp' fun _ => rfl
    have hlen : (s.write l p').blks.length = s.blks.length := by
      cases l with
      | ext n => rfl
      | field c i => simp only [State.write]; split <;> simp
    obtain ⟨hw2, hdel2⟩ := write_inv hw hread p (by rw [hlen]; exact hrng hp)
    refine ⟨(s.write l p').write l' p, by simp only [step, hp, hp'], ?_, ?_⟩
    · simp only [Heap.step, hpa, hpa', Option.getD_some]
      refine hw2.bal ?_ (by simp)
      intro b
      simp only [List.count_cons, List.count_nil]
      omega
    · simp only [Heap.step, hpa, hpa', Option.getD_some]
      refine dead_mono hd (fun b hb => ?_) fun b k' hk' => ?_
      · refine gone_mono (a := a) (fun c hc hr => ?_) (fun d c hc hl => ?_) hb
        · rcases root_write hr with hr | hr
          · rcases root_write hr with hr | hr
            · obtain ⟨hr', -⟩ := hc; exact hr' hr
            · exact reach_not_gone (usable_target hu' (by rw [hpa', hr])) hc
          · exact reach_not_gone (usable_target hu (by rw [hpa, hr])) hc
        · rcases link_write hl with hl | hl
          · rcases link_write hl with hl | hl
            · exact hl
            · exact absurd hc (reach_not_gone (usable_target hu' (by rw [hpa', hl])))
          · exact absurd hc (reach_not_gone (usable_target hu (by rw [hpa, hl])))
      · obtain ⟨k1, h1, h2, -⟩ := hdel2 b k' hk'
        obtain ⟨k0, h3, h4, -⟩ := hdel b k1 h1
        exact ⟨k0, h3, by omega⟩

end Verif.Owned
