import Verif.Owned.Model
import Mathlib.Tactic.Tauto
/-!
# C98: proofs
-/
namespace Verif.Owned
open Spec

/-! ## Counting -/

theorem count_set {α} [BEq α] (l : List α) (i : Nat) (p q x : α) (h : l[i]? = some p) :
    (l.set i q).count x + (if p == x then 1 else 0) = l.count x + (if q == x then 1 else 0) := by
  induction l generalizing i with
  | nil => simp at h
  | cons a l ih =>
    cases i with
    | zero =>
      simp only [List.getElem?_cons_zero, Option.some.injEq] at h
      subst h
      simp only [List.set_cons_zero, List.count_cons]
      omega
    | succ i =>
      simp only [List.getElem?_cons_succ] at h
      have := ih i h
      simp only [List.set_cons_succ, List.count_cons]
      omega

/-- what all members of all objects point to -/
def ptrs (bs : List Blk) : List (Option Nat) := bs.flatMap (·.fields)

theorem ptrs_set (bs : List Blk) (b : Nat) (k k' : Blk) (h : bs[b]? = some k) (x : Option Nat) :
    (ptrs (bs.set b k')).count x + k.fields.count x = (ptrs bs).count x + k'.fields.count x := by
  induction bs generalizing b with
  | nil => simp at h
  | cons a bs ih =>
    cases b with
    | zero =>
      simp only [List.getElem?_cons_zero, Option.some.injEq] at h
      subst h
      simp only [ptrs, List.set_cons_zero, List.flatMap_cons, List.count_append]
      omega
    | succ b =>
      simp only [List.getElem?_cons_succ] at h
      have := ih b h
      simp only [ptrs, List.set_cons_succ, List.flatMap_cons, List.count_append] at this ⊢
      omega

/-- the owners of `b` -/
def own (bs : List Blk) (ext : List (Option (Option Nat))) (b : Nat) : Nat :=
  (if (bs[b]?.map (·.active)) = some true then 1 else 0) + ext.count (some (some b)) + (ptrs bs).count (some b)

/-- `w`: handles whose count has not been taken back yet; `cr`: handles that were not counted yet -/
structure Inv (bs : List Blk) (ext : List (Option (Option Nat))) (w cr : List (Option Nat)) (a : Heap) : Prop where
  len : bs.length = a.objs.length
  ext_eq : ext = a.ext
  act : ∀ (b : Nat) (k : Blk) (o : Obj), bs[b]? = some k → a.objs[b]? = some o → k.active = o.mastered
  cnt : ∀ (b : Nat) (k : Blk), bs[b]? = some k → k.count + cr.count (some b) = own bs ext b + w.count (some b)
  lt : ∀ (b : Nat) (k : Blk), bs[b]? = some k → k.count < 65536
  live : ∀ (b : Nat) (k : Blk) (o : Obj), bs[b]? = some k → a.objs[b]? = some o →
    (k.deletes = 0 ∧ 0 < k.count ∧ k.fields = o.fields) ∨ (k.deletes = 1 ∧ k.count = 0 ∧ k.fields = [])
  rng : ∀ b : Nat, some b ∈ ptrs bs ++ w ++ cr ∨ some (some b) ∈ ext → b < bs.length

/-- what was deleted is gone -/
def Dead (bs : List Blk) (a : Heap) : Prop := ∀ (b : Nat) (k : Blk), bs[b]? = some k → k.deletes ≠ 0 → Gone a b

theorem Inv.obj {bs ext w cr a} (h : Inv bs ext w cr a) {b : Nat} {k : Blk} (hk : bs[b]? = some k) : ∃ o, a.objs[b]? = some o := by
  have : b < bs.length := (List.getElem?_eq_some_iff.1 hk).1
  exact ⟨a.objs[b]'(h.len ▸ this), List.getElem?_eq_getElem _⟩

theorem Inv.blk {bs ext w cr a} (h : Inv bs ext w cr a) {b : Nat} {o : Obj} (hk : a.objs[b]? = some o) : ∃ k : Blk, bs[b]? = some k := by
  have : b < a.objs.length := (List.getElem?_eq_some_iff.1 hk).1
  exact ⟨bs[b]'(h.len ▸ this), List.getElem?_eq_getElem _⟩

theorem mem_ptrs {bs : List Blk} {b i : Nat} {k : Blk} {p : Option Nat} (hk : bs[b]? = some k) (hi : k.fields[i]? = some p) : p ∈ ptrs bs :=
  List.mem_flatMap.2 ⟨k, List.mem_of_getElem? hk, List.mem_of_getElem? hi⟩

/-! ## The cascade -/

theorem drops_nil (bs : List Blk) : drops bs [] = some bs := by rw [drops]
theorem drops_none (bs : List Blk) (w) : drops bs (none :: w) = drops bs w := by rw [drops]
theorem drops_some (bs : List Blk) (b w k) (h : bs[b]? = some k) :
    drops bs (some b :: w) = if (k.count + 65535) % 65536 = 0 then
        drops (bs.set b { k with count := 0, deletes := k.deletes + 1, fields := [] }) (k.fields.reverse ++ w)
      else drops (bs.set b { k with count := (k.count + 65535) % 65536 }) w := by
  rw [drops]
  split
  · rename_i h'; rw [h] at h'; simp at h'
  · rename_i k' h'
    rw [h] at h'
    simp only [Option.some.injEq] at h'
    subst h'
    rfl

theorem own_set {bs : List Blk} {ext} {b : Nat} {k k' : Blk} (h : bs[b]? = some k) (ha : k'.active = k.active) (x : Nat) :
    own (bs.set b k') ext x + k.fields.count (some x) = own bs ext x + k'.fields.count (some x) := by
  have h1 := ptrs_set bs b k k' h (some x)
  have h2 : (bs.set b k')[x]?.map (·.active) = bs[x]?.map (·.active) := by
    rw [List.getElem?_set]
    split
    · rename_i e
      subst e
      rw [h]
      simp [(List.getElem?_eq_some_iff.1 h).1, ha]
    · rfl
  simp only [own, h2]
  omega

/-- one handle that pointed to a living object is taken back -/
theorem inv_dec {bs ext w a} {b : Nat} {k : Blk} (hi : Inv bs ext (some b :: w) [] a) (hd : Dead bs a) (hk : bs[b]? = some k) :
    let n := (k.count + 65535) % 65536
    (n = 0 → Inv (bs.set b { k with count := 0, deletes := k.deletes + 1, fields := [] }) ext (k.fields.reverse ++ w) [] a ∧
      Dead (bs.set b { k with count := 0, deletes := k.deletes + 1, fields := [] }) a) ∧
    (n ≠ 0 → Inv (bs.set b { k with count := n }) ext w [] a ∧ Dead (bs.set b { k with count := n }) a) := by
  obtain ⟨o, ho⟩ := hi.obj hk
  have hb : b < bs.length := (List.getElem?_eq_some_iff.1 hk).1
  have hc := hi.cnt b k hk
  have hlt := hi.lt b k hk
  simp only [List.count_cons_self, List.count_nil, Nat.add_zero] at hc
  have hlive : k.deletes = 0 ∧ 0 < k.count ∧ k.fields = o.fields := by
    rcases hi.live b k o hk ho with h | ⟨-, h, -⟩
    · exact h
    · omega
  have get : ∀ (k' : Blk) c, (bs.set b k')[c]? = if b = c then some k' else bs[c]? := by
    intro k' c
    rw [List.getElem?_set]
    split <;> simp [hb]
  have hn : (k.count + 65535) % 65536 = k.count - 1 := by omega
  refine ⟨fun h0 => ?_, fun h0 => ?_⟩
  · rw [hn] at h0
    have h1 : k.count = 1 := by omega
    have hown : own bs ext b = 0 ∧ w.count (some b) = 0 := by omega
    refine ⟨⟨by simp [hi.len], hi.ext_eq, ?_, ?_, ?_, ?_, ?_⟩, ?_⟩
    · intro c k' o' hk' ho'
      rw [get] at hk'
      split at hk'
      · rename_i e; subst e
        simp only [Option.some.injEq] at hk'; subst hk'
        exact hi.act _ k o' hk ho'
      · exact hi.act c k' o' hk' ho'
    · intro c k' hk'
      have hs := own_set (ext := ext) (k' := { k with count := 0, deletes := k.deletes + 1, fields := [] }) hk rfl c
      simp only [List.count_nil, Nat.add_zero, List.count_append, List.count_reverse] at hs ⊢
      rw [get] at hk'
      split at hk'
      · rename_i e; subst e
        simp only [Option.some.injEq] at hk'; subst hk'
        simp only
        omega
      · rename_i e
        have := hi.cnt c k' hk'
        have e' : ¬ (some b = some c) := by simpa using e
        simp only [List.count_cons, beq_iff_eq, e', if_false, Nat.add_zero, List.count_nil] at this
        omega
    · intro c k' hk'
      rw [get] at hk'
      split at hk'
      · simp only [Option.some.injEq] at hk'; subst hk'; simp
      · exact hi.lt c k' hk'
    · intro c k' o' hk' ho'
      rw [get] at hk'
      split at hk'
      · simp only [Option.some.injEq] at hk'; subst hk'; exact .inr ⟨by simp [hlive.1], rfl, rfl⟩
      · exact hi.live c k' o' hk' ho'
    · intro c hc'
      rw [List.length_set]
      apply hi.rng c
      rcases hc' with hc' | hc'
      · left
        simp only [List.append_nil, List.mem_append, List.mem_reverse, List.mem_cons] at hc' ⊢
        rcases hc' with hc' | hc' | hc'
        · left
          simp only [ptrs, List.mem_flatMap] at hc' ⊢
          obtain ⟨k', hk', hm⟩ := hc'
          obtain ⟨j, hj⟩ := List.mem_iff_getElem?.1 hk'
          rw [get] at hj
          split at hj
          · simp only [Option.some.injEq] at hj; subst hj; simp at hm
          · exact ⟨k', List.mem_of_getElem? hj, hm⟩
        · left
          exact List.mem_flatMap.2 ⟨k, List.mem_of_getElem? hk, hc'⟩
        · exact .inr (.inr hc')
      · exact .inr hc'
    · intro c k' hk' hd'
      rw [get] at hk'
      split at hk'
      · rename_i e; subst e
        have ho0 := hown.1
        simp only [own] at ho0
        refine .intro ?_ ?_
        · rintro (⟨o', ho', hm⟩ | ⟨h, hh⟩)
          · have := hi.act b k o' hk ho'
            rw [hk] at ho0
            simp [this, hm] at ho0
          · simp only [Heap.read] at hh
            have hcnt : ext.count (some (some b)) = 0 := by omega
            rw [List.count_eq_zero] at hcnt
            apply hcnt
            rw [hi.ext_eq]
            split at hh
            · rename_i p hp
              simp only [Option.some.injEq] at hh
              subst hh
              exact List.mem_of_getElem? hp
            · simp at hh
        · rintro c ⟨i, hh⟩
          simp only [Heap.read] at hh
          split at hh
          · rename_i o' ho'
            obtain ⟨kc, hkc⟩ := hi.blk ho'
            rcases hi.live c kc o' hkc ho' with ⟨-, -, hf⟩ | ⟨h1', -, -⟩
            · have hcnt : (ptrs bs).count (some b) = 0 := by omega
              rw [List.count_eq_zero] at hcnt
              exact absurd (mem_ptrs hkc (hf ▸ hh)) hcnt
            · exact hd c kc hkc (by omega)
          · simp at hh
      · exact hd c k' hk' hd'
  · rw [hn] at h0 ⊢
    refine ⟨⟨by simp [hi.len], hi.ext_eq, ?_, ?_, ?_, ?_, ?_⟩, ?_⟩
    · intro c k' o' hk' ho'
      rw [get] at hk'
      split at hk'
      · rename_i e; subst e
        simp only [Option.some.injEq] at hk'; subst hk'
        exact hi.act _ k o' hk ho'
      · exact hi.act c k' o' hk' ho'
    · intro c k' hk'
      have hs := own_set (ext := ext) (k' := { k with count := k.count - 1 }) hk rfl c
      rw [get] at hk'
      split at hk'
      · rename_i e; subst e
        simp only [Option.some.injEq] at hk'; subst hk'
        simp only [List.count_nil] at hs ⊢
        omega
      · rename_i e
        have := hi.cnt c k' hk'
        have e' : ¬ (some b = some c) := by simpa using e
        simp only [List.count_cons, beq_iff_eq, e', if_false, Nat.add_zero, List.count_nil] at this
        simp only [List.count_nil] at hs ⊢
        omega
    · intro c k' hk'
      rw [get] at hk'
      split at hk'
      · simp only [Option.some.injEq] at hk'; subst hk'; simp only; omega
      · exact hi.lt c k' hk'
    · intro c k' o' hk' ho'
      rw [get] at hk'
      split at hk'
      · rename_i e; subst e
        simp only [Option.some.injEq] at hk'; subst hk'
        rw [ho] at ho'
        simp only [Option.some.injEq] at ho'
        subst ho'
        exact .inl ⟨hlive.1, by simp only; omega, hlive.2.2⟩
      · exact hi.live c k' o' hk' ho'
    · intro c hc'
      rw [List.length_set]
      apply hi.rng c
      rcases hc' with hc' | hc'
      · left
        simp only [List.append_nil, List.mem_append, List.mem_cons] at hc' ⊢
        rcases hc' with hc' | hc'
        · left
          simp only [ptrs, List.mem_flatMap] at hc' ⊢
          obtain ⟨k', hk', hm⟩ := hc'
          obtain ⟨j, hj⟩ := List.mem_iff_getElem?.1 hk'
          rw [get] at hj
          split at hj
          · simp only [Option.some.injEq] at hj; subst hj; exact ⟨k, List.mem_of_getElem? hk, hm⟩
          · exact ⟨k', List.mem_of_getElem? hj, hm⟩
        · exact .inr (.inr hc')
      · exact .inr hc'
    · intro c k' hk' hd'
      rw [get] at hk'
      split at hk'
      · rename_i e; subst e
        simp only [Option.some.injEq] at hk'; subst hk'
        exact absurd hlive.1 hd'
      · exact hd c k' hk' hd'

theorem inv_none {bs ext w cr a} (hi : Inv bs ext (none :: w) cr a) : Inv bs ext w cr a := by
  refine ⟨hi.len, hi.ext_eq, hi.act, ?_, hi.lt, hi.live, ?_⟩
  · intro b k hk
    have := hi.cnt b k hk
    simpa [List.count_cons] using this
  · intro b hb
    apply hi.rng b
    rcases hb with hb | hb
    · left
      simp only [List.mem_append, List.mem_cons] at hb ⊢
      tauto
    · exact .inr hb

/-- the cascade ends, well defined, with all counts right and none larger than before -/
theorem drops_inv (ext : List (Option (Option Nat))) (a : Heap) : ∀ n bs w, w.length + members bs = n →
    Inv bs ext w [] a → Dead bs a → ∃ bs', drops bs w = some bs' ∧ Inv bs' ext [] [] a ∧ Dead bs' a ∧
      ∀ (b : Nat) (k k' : Blk), bs[b]? = some k → bs'[b]? = some k' → k'.count ≤ k.count := by
  intro n
  induction n with
  | zero =>
    intro bs w hn hi hd
    cases w with
    | nil => exact ⟨bs, drops_nil bs, hi, hd, fun b k k' h h' => by rw [h] at h'; simp at h'; rw [h']; exact Nat.le_refl _⟩
    | cons x w => simp at hn
  | succ n ih =>
    intro bs w hn hi hd
    cases w with
    | nil => exact ⟨bs, drops_nil bs, hi, hd, fun b k k' h h' => by rw [h] at h'; simp at h'; rw [h']; exact Nat.le_refl _⟩
    | cons x w =>
      cases x with
      | none =>
        rw [drops_none]
        exact ih bs w (by simp only [List.length_cons] at hn; omega) (inv_none hi) hd
      | some b =>
        have hb : b < bs.length := hi.rng b (.inl (by simp))
        have hk : bs[b]? = some bs[b] := List.getElem?_eq_getElem hb
        generalize bs[b] = k at hk
        have hpos : 0 < k.count := by
          have := hi.cnt b k hk
          simp only [List.count_cons_self, List.count_nil, Nat.add_zero] at this
          omega
        have hlt := hi.lt b k hk
        have mono : ∀ (kn : Blk) (bs' : List Blk), kn.count ≤ k.count →
            (∀ (c : Nat) (k1 k' : Blk), (bs.set b kn)[c]? = some k1 → bs'[c]? = some k' → k'.count ≤ k1.count) →
            ∀ (c : Nat) (k1 k' : Blk), bs[c]? = some k1 → bs'[c]? = some k' → k'.count ≤ k1.count := by
          intro kn bs' hkn hm c k1 k' h1 h'
          by_cases e : b = c
          · subst e
            rw [hk] at h1
            simp only [Option.some.injEq] at h1
            subst h1
            exact Nat.le_trans (hm b kn k' (by simp [hb]) h') hkn
          · exact hm c k1 k' (by rw [List.getElem?_set_ne e]; exact h1) h'
        rw [drops_some bs b w k hk]
        obtain ⟨h1, h2⟩ := inv_dec hi hd hk
        split
        · rename_i h0
          obtain ⟨hi', hd'⟩ := h1 h0
          have hms := members_set bs b k { k with count := 0, deletes := k.deletes + 1, fields := [] } hk
          obtain ⟨bs', e1, e2, e3, e4⟩ := ih _ _ (by
            simp only [List.length_nil, List.length_append, List.length_cons, List.length_reverse] at hms hn ⊢
            omega) hi' hd'
          exact ⟨bs', e1, e2, e3, mono _ bs' (Nat.zero_le _) e4⟩
        · rename_i h0
          obtain ⟨hi', hd'⟩ := h2 h0
          have hms := members_set bs b k { k with count := (k.count + 65535) % 65536 } hk
          obtain ⟨bs', e1, e2, e3, e4⟩ := ih _ _ (by
            simp only [List.length_cons] at hms hn ⊢
            omega) hi' hd'
          exact ⟨bs', e1, e2, e3, mono _ bs' (by simp only; omega) e4⟩

/-! ## The heap that never deletes -/

theorem reach_not_gone {a : Heap} {b : Nat} (h : Reach a b) : ¬ Gone a b := by
  induction h with
  | root hr => rintro ⟨hn, -⟩; exact hn hr
  | link _ hl ih => rintro ⟨-, hg⟩; exact ih (hg _ hl)

theorem gone_mono {a a' : Heap} (hr : ∀ b, Gone a b → ¬ Root a' b)
    (hl : ∀ c b, Gone a b → Link a' c b → Link a c b) {b : Nat} (h : Gone a b) : Gone a' b := by
  induction h with
  | intro hn hg ih =>
    exact .intro (hr _ (.intro hn hg)) fun c hc => ih c (hl c _ (.intro hn hg) hc)

theorem write_mastered (a : Heap) (l : Place) (q : Option Nat) (b : Nat) : (a.write l q).mastered b ↔ a.mastered b := by
  unfold Heap.mastered Heap.write
  cases l with
  | ext h => simp
  | field c i =>
    simp only
    cases hc : a.objs[c]? with
    | none => simp
    | some k =>
      simp only [List.getElem?_set]
      by_cases e : c = b
      · subst e
        obtain ⟨h1, h2⟩ := List.getElem?_eq_some_iff.1 hc
        simp [h1, h2]
      · simp [e]

theorem read_write_or {a : Heap} {l l' : Place} {q x : Option Nat} (h : (a.write l q).read l' = some x) :
    a.read l' = some x ∨ x = q := by
  cases l with
  | ext n =>
    cases l' with
    | ext m =>
      simp only [Heap.write, Heap.read, List.getElem?_set] at h ⊢
      by_cases e : n = m
      · subst e
        by_cases hn : n < a.ext.length
        · simp only [if_true, hn, Option.some.injEq] at h
          exact .inr h.symm
        · simp [hn] at h
      · simp only [e, if_false] at h
        exact .inl h
    | field c i => exact .inl h
  | field c i =>
    simp only [Heap.write] at h
    cases hc : a.objs[c]? with
    | none => rw [hc] at h; exact .inl h
    | some k =>
      rw [hc] at h
      cases l' with
      | ext m => exact .inl h
      | field d j =>
        simp only [Heap.read, List.getElem?_set] at h ⊢
        by_cases e : c = d
        · subst e
          simp only [if_true, (List.getElem?_eq_some_iff.1 hc).1] at h
          rw [hc]
          simp only [List.getElem?_set] at h ⊢
          by_cases e' : i = j
          · subst e'
            by_cases hn : i < k.fields.length
            · simp only [if_true, hn, Option.some.injEq] at h
              exact .inr h.symm
            · simp [hn] at h
          · simp only [e', if_false] at h
            exact .inl h
        · simp only [e, if_false] at h
          exact .inl h

theorem read_write_ne {a : Heap} {l l' : Place} (q : Option Nat) (h : l ≠ l') : (a.write l q).read l' = a.read l' := by
  cases l with
  | ext n =>
    cases l' with
    | ext m =>
      have e : n ≠ m := fun e => h (by rw [e])
      simp only [Heap.write, Heap.read, List.getElem?_set, e, if_false]
    | field c i => rfl
  | field c i =>
    simp only [Heap.write]
    cases hc : a.objs[c]? with
    | none => rfl
    | some k =>
      cases l' with
      | ext m => rfl
      | field d j =>
        simp only [Heap.read, List.getElem?_set]
        by_cases e : c = d
        · subst e
          have e' : i ≠ j := fun e => h (by rw [e])
          simp only [if_true, (List.getElem?_eq_some_iff.1 hc).1, hc, List.getElem?_set, e', if_false]
        · simp only [e, if_false]

theorem write_write (a : Heap) (l : Place) (p q : Option Nat) : (a.write l p).write l q = a.write l q := by
  cases l with
  | ext n => simp [Heap.write]
  | field c i =>
    simp only [Heap.write]
    cases hc : a.objs[c]? with
    | none => simp [hc]
    | some k => simp [(List.getElem?_eq_some_iff.1 hc).1]

theorem root_write {a : Heap} {l : Place} {q : Option Nat} {b : Nat} (h : Root (a.write l q) b) : Root a b ∨ q = some b := by
  rcases h with h | ⟨n, h⟩
  · exact .inl (.inl ((write_mastered a l q b).1 h))
  · rcases read_write_or h with h | h
    · exact .inl (.inr ⟨n, h⟩)
    · exact .inr h.symm

theorem link_write {a : Heap} {l : Place} {q : Option Nat} {c b : Nat} (h : Link (a.write l q) c b) : Link a c b ∨ q = some b := by
  obtain ⟨i, h⟩ := h
  rcases read_write_or h with h | h
  · exact .inl ⟨i, h⟩
  · exact .inr h.symm

/-- storing a pointer to something that is not gone brings nothing back -/
theorem gone_write {a : Heap} {l : Place} {q : Option Nat} (hq : ∀ c, q = some c → ¬ Gone a c) {b : Nat} (h : Gone a b) :
    Gone (a.write l q) b := by
  refine gone_mono (fun c hc hr => ?_) (fun d c hc hl => ?_) h
  · rcases root_write hr with hr | hr
    · obtain ⟨hn, -⟩ := hc; exact hn hr
    · exact hq c hr hc
  · rcases link_write hl with hl | hl
    · exact hl
    · exact absurd hc (hq c hl)

/-- what a handle within reach points to is within reach -/
theorem usable_target {a : Heap} {l : Place} {c : Nat} (h : Usable a l) (hr : a.read l = some (some c)) : Reach a c := by
  cases l with
  | ext n => exact .root (.inr ⟨n, hr⟩)
  | field b i => exact .link h.1 ⟨i, hr⟩

/-! ## The program and the heap in step -/

/-- the state of the program and that of the heap -/
def Sim (s : State) (a : Heap) : Prop := Inv s.blks s.ext [] [] a ∧ Dead s.blks a

theorem inv_read {s : State} {w cr a} (hi : Inv s.blks s.ext w cr a) {l : Place} {p : Option Nat} (h : s.read l = some p) :
    a.read l = some p := by
  cases l with
  | ext n => simpa only [State.read, Heap.read, hi.ext_eq] using h
  | field b i =>
    simp only [State.read] at h
    cases hk : s.blks[b]? with
    | none => rw [hk] at h; simp at h
    | some k =>
      rw [hk] at h
      obtain ⟨o, ho⟩ := hi.obj hk
      simp only at h
      simp only [Heap.read, ho]
      rcases hi.live b k o hk ho with ⟨-, -, hf⟩ | ⟨-, -, hf⟩
      · rw [← hf]; exact h
      · rw [hf] at h; simp at h

theorem sim_read {s : State} {a : Heap} (hs : Sim s a) {l : Place} (hu : Usable a l) : ∃ p, s.read l = some p ∧ a.read l = some p := by
  obtain ⟨hi, hd⟩ := hs
  cases l with
  | ext n =>
    obtain ⟨p, hp⟩ := hu
    exact ⟨p, by simpa only [State.read, Heap.read, hi.ext_eq] using hp, hp⟩
  | field b i =>
    obtain ⟨hr, p, hp⟩ := hu
    refine ⟨p, ?_, hp⟩
    simp only [Heap.read] at hp
    cases ho : a.objs[b]? with
    | none => rw [ho] at hp; simp at hp
    | some o =>
      rw [ho] at hp
      obtain ⟨k, hk⟩ := hi.blk ho
      simp only [State.read, hk]
      rcases hi.live b k o hk ho with ⟨-, -, hf⟩ | ⟨h1, -, -⟩
      · rw [hf]; exact hp
      · exact absurd (hd b k hk (by omega)) (reach_not_gone hr)

theorem Inv.bal {bs ext w cr a w' cr'} (hi : Inv bs ext w cr a)
    (h : ∀ b : Nat, w'.count (some b) + cr.count (some b) = w.count (some b) + cr'.count (some b))
    (hr : ∀ b, some b ∈ w' ++ cr' → b < bs.length) : Inv bs ext w' cr' a := by
  refine ⟨hi.len, hi.ext_eq, hi.act, ?_, hi.lt, hi.live, ?_⟩
  · intro b k hk
    have h1 := hi.cnt b k hk
    have h2 := h b
    omega
  · intro b hb
    rcases hb with hb | hb
    · rw [List.append_assoc, List.mem_append] at hb
      rcases hb with hb | hb
      · exact hi.rng b (.inl (by simp [hb]))
      · exact hr b hb
    · exact hi.rng b (.inr hb)

/-- storing a pointer in a handle that exists: the old pointer's count has to be taken back, the new one counted -/
theorem write_inv {s : State} {w cr a} (hi : Inv s.blks s.ext w cr a) {l : Place} {p : Option Nat} (h : s.read l = some p)
    (q : Option Nat) (hq : ∀ b, q = some b → b < s.blks.length) :
    Inv (s.write l q).blks (s.write l q).ext (p :: w) (q :: cr) (a.write l q) ∧
    (∀ (b : Nat) (k' : Blk), (s.write l q).blks[b]? = some k' → ∃ k, s.blks[b]? = some k ∧ k.deletes = k'.deletes ∧ k.count = k'.count) := by
  have hpr : ∀ b, p = some b → b < s.blks.length := by
    rintro b rfl
    cases l with
    | ext n =>
      simp only [State.read] at h
      split at h
      · rename_i p hp
        simp only [Option.some.injEq] at h
        subst h
        exact hi.rng b (.inr (List.mem_of_getElem? hp))
      · simp at h
    | field c i =>
      simp only [State.read] at h
      split at h
      · rename_i k hk
        exact hi.rng b (.inl (by simp [mem_ptrs hk h]))
      · simp at h
  cases l with
  | ext n =>
    simp only [State.read] at h
    have hn : s.ext[n]? = some (some p) := by
      split at h
      · rename_i p' hp; simp only [Option.some.injEq] at h; rw [hp, h]
      · simp at h
    simp only [State.write, Heap.write]
    refine ⟨⟨hi.len, by rw [hi.ext_eq], hi.act, ?_, hi.lt, hi.live, ?_⟩, fun b k' hk => ⟨k', hk, rfl, rfl⟩⟩
    · intro b k hk
      have h1 := hi.cnt b k hk
      have h2 := count_set s.ext n (some p) (some q) (some (some b)) hn
      simp only [own, List.count_cons, beq_iff_eq, Option.some.injEq] at h1 h2 ⊢
      by_cases e1 : p = some b <;> by_cases e2 : q = some b <;> simp only [e1, e2, if_true, if_false] at h2 ⊢ <;> omega
    · intro b hb
      rcases hb with hb | hb
      · simp only [List.mem_append, List.mem_cons] at hb
        rcases hb with (hb | hb | hb) | hb | hb
        · exact hi.rng b (.inl (by simp [hb]))
        · exact hpr b hb.symm
        · exact hi.rng b (.inl (by simp [hb]))
        · exact hq b hb.symm
        · exact hi.rng b (.inl (by simp [hb]))
      · rcases List.mem_or_eq_of_mem_set hb with hb | hb
        · exact hi.rng b (.inr hb)
        · simp only [Option.some.injEq] at hb
          exact hq b hb.symm
  | field c i =>
    simp only [State.read] at h
    cases hk : s.blks[c]? with
    | none => rw [hk] at h; simp at h
    | some k =>
      rw [hk] at h
      simp only at h
      obtain ⟨o, ho⟩ := hi.obj hk
      have hc : c < s.blks.length := (List.getElem?_eq_some_iff.1 hk).1
      have hc' : c < a.objs.length := (List.getElem?_eq_some_iff.1 ho).1
      have hlive : k.deletes = 0 ∧ 0 < k.count ∧ k.fields = o.fields := by
        rcases hi.live c k o hk ho with h' | ⟨-, -, h'⟩
        · exact h'
        · rw [h'] at h; simp at h
      simp only [State.write, Heap.write, hk, ho]
      have get : ∀ (k' : Blk) (d : Nat), (s.blks.set c k')[d]? = if c = d then some k' else s.blks[d]? := by
        intro k' d
        rw [List.getElem?_set]
        split <;> simp [hc]
      have get' : ∀ (k' : Obj) (d : Nat), (a.objs.set c k')[d]? = if c = d then some k' else a.objs[d]? := by
        intro k' d
        rw [List.getElem?_set]
        split <;> simp [hc']
      refine ⟨⟨by simp [hi.len], hi.ext_eq, ?_, ?_, ?_, ?_, ?_⟩, ?_⟩
      · intro d k' o' hk' ho'
        rw [get] at hk'
        rw [get'] at ho'
        by_cases e : c = d
        · subst e
          simp only [if_true, Option.some.injEq] at hk' ho'
          subst hk'; subst ho'
          exact hi.act c k o hk ho
        · simp only [e, if_false] at hk' ho'
          exact hi.act d k' o' hk' ho'
      · intro d k' hk'
        have h2 := own_set (ext := s.ext) (k' := { k with fields := k.fields.set i q }) hk rfl d
        have h3 := count_set k.fields i p q (some d) h
        have h1 : ∃ k0, s.blks[d]? = some k0 ∧ k0.count = k'.count := by
          rw [get] at hk'
          by_cases e : c = d
          · subst e
            simp only [if_true, Option.some.injEq] at hk'
            subst hk'
            exact ⟨k, hk, rfl⟩
          · simp only [e, if_false] at hk'
            exact ⟨k', hk', rfl⟩
        obtain ⟨k0, hk0, e0⟩ := h1
        have h1 := hi.cnt d k0 hk0
        simp only [List.count_cons] at h1 h2 h3 ⊢
        omega
      · intro d k' hk'
        rw [get] at hk'
        by_cases e : c = d
        · subst e
          simp only [if_true, Option.some.injEq] at hk'
          subst hk'
          exact hi.lt c k hk
        · simp only [e, if_false] at hk'
          exact hi.lt d k' hk'
      · intro d k' o' hk' ho'
        rw [get] at hk'
        rw [get'] at ho'
        by_cases e : c = d
        · subst e
          simp only [if_true, Option.some.injEq] at hk' ho'
          subst hk'; subst ho'
          exact .inl ⟨hlive.1, hlive.2.1, by simp only [hlive.2.2]⟩
        · simp only [e, if_false] at hk' ho'
          exact hi.live d k' o' hk' ho'
      · intro b hb
        rw [List.length_set]
        rcases hb with hb | hb
        · simp only [List.mem_append, List.mem_cons] at hb
          rcases hb with (hb | hb | hb) | hb | hb
          · simp only [ptrs, List.mem_flatMap] at hb
            obtain ⟨k', hk', hm⟩ := hb
            obtain ⟨j, hj⟩ := List.mem_iff_getElem?.1 hk'
            rw [get] at hj
            split at hj
            · simp only [Option.some.injEq] at hj
              subst hj
              rcases List.mem_or_eq_of_mem_set hm with hm | hm
              · exact hi.rng b (.inl (by
                  have : some b ∈ ptrs s.blks := List.mem_flatMap.2 ⟨k, List.mem_of_getElem? hk, hm⟩
                  simp [this]))
              · exact hq b hm.symm
            · exact hi.rng b (.inl (by
                have : some b ∈ ptrs s.blks := List.mem_flatMap.2 ⟨k', List.mem_of_getElem? hj, hm⟩
                simp [this]))
          · exact hpr b hb.symm
          · exact hi.rng b (.inl (by simp [hb]))
          · exact hq b hb.symm
          · exact hi.rng b (.inl (by simp [hb]))
        · exact hi.rng b (.inr hb)
      · intro d k' hk'
        rw [get] at hk'
        by_cases e : c = d
        · subst e
          simp only [if_true, Option.some.injEq] at hk'
          subst hk'
          exact ⟨k, hk, rfl, rfl⟩
        · simp only [e, if_false] at hk'
          exact ⟨k', hk', rfl, rfl⟩

theorem dead_mono {bs bs' : List Blk} {a a' : Heap} (hd : Dead bs a) (hg : ∀ b, Gone a b → Gone a' b)
    (h : ∀ (b : Nat) (k' : Blk), bs'[b]? = some k' → ∃ k, bs[b]? = some k ∧ k.deletes = k'.deletes) : Dead bs' a' := by
  intro b k' hk' hne
  obtain ⟨k, hk, e⟩ := h b k' hk'
  exact hg b (hd b k hk (by omega))

end Verif.Owned
