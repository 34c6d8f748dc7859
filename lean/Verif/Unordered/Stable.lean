import Mathlib.Data.List.Forall2
import Mathlib.Tactic.ByContra
import Verif.Unordered.Lifetimes

/-!
# C91, C92: references to the elements of an unordered map stay good; erasing while iterating

`docs/container/unordered_map.md` promises that "despite erase or insert operations, pointers to existing items remain
stable".  An iterator, pointer or reference to an element is the number of its slot, as in `Verif.Unordered.Model`; what it
shows is `At`.  No hypothesis on the array is needed: the promise holds in the states the faults of C22 lead to as well.
-/

namespace Verif.Unordered.Stable
open Verif.Unordered

set_option linter.unusedSectionVars false

variable {K V : Type} [DecidableEq K]

/-! ## What a program does with a map -/

/-- `it->second = w` through an iterator, pointer or reference (base.h:286-290 `operator*`, `operator->`): undefined when
there is no element -/
def write (e : Env K V) (s : Slots K V) (p : Nat) (w : V) : Option (Slots K V) :=
  match s[p]? with
  | none => none
  | some x => if isEmpty e x then none else some (s.set p ⟨x.key, w⟩)

/-- The operations of C21 and C22, and those that take an iterator. -/
inductive Act (K V : Type) where
  | op (o : Op K V)
  /-- `erase(iterator)`, unordered_map.h:374-381 -/
  | eraseIt (p : Nat)
  /-- `gc_active(iterator)`, unordered_map.h:307-310 -/
  | gc (p : Nat)
  | write (p : Nat) (w : V)

/-- one action, modelled by the definitions of C21 and C22 -/
def act (e : Env K V) (s : Slots K V) : Act K V → Option (Slots K V)
  | .op o => (step e s o).map (·.1)
  | .eraseIt p => (eraseIt e s p).map (·.1)
  | .gc p => (gcActive e s p).map (·.1)
  | .write p w => write e s p w

def acts (e : Env K V) : Slots K V → List (Act K V) → Option (Slots K V)
  | s, [] => some s
  | s, a :: as => (act e s a).bind fun s' => acts e s' as

/-- The action leaves the element with key `k`, to which `p` refers, in the map and unchanged: it is not one that erases
it, assigns to it or asks for it to be moved. -/
def Spec.Spares (k : K) (p : Nat) : Act K V → Prop
  | .op (.erase k') => k' ≠ k
  | .op (.assign k' _) => k' ≠ k
  | .op .clear => False
  | .eraseIt q => q ≠ p
  | .gc q => q ≠ p
  | .write q _ => q ≠ p
  | _ => True

/-! ## Lemmas -/

theorem fresh_empty {e : Env K V} {s : Slots K V} {k : K} {i : Nat} (h : precheck e s k = some (.fresh i))
    (hi : i < s.length) : ∃ y, s[i]? = some y ∧ y.key = e.null := by
  have hs : 0 < s.length := by omega
  by_cases hk : k = e.null
  · rw [precheck, if_pos hk] at h; cases h
  obtain ⟨j, h1, h2, h3, h4⟩ := precheck_cases e s k hs hk
  rcases h4 with ⟨h4, h5⟩ | ⟨y, hy, hn, h5⟩ | ⟨y, hy, hn, hne, h5⟩ | ⟨y, hy, hyk, h5⟩
  · rw [h] at h5
    cases hh : e.hi with
    | none => rw [hh] at h5; cases h5
    | some x =>
      rw [hh, Option.map_some] at h5
      injection h5 with h5
      split at h5
      · injection h5 with h5; omega
      · cases h5
  · rw [h] at h5; injection h5 with h5; injection h5 with h5
    subst h5; exact ⟨y, hy, hn⟩
  · rw [h] at h5; injection h5 with h5; cases h5
  · rw [h] at h5; injection h5 with h5; cases h5

theorem findScan_at {e : Env K V} (s : Slots K V) (N n : Nat) (k : K) :
    ∀ (l : Slots K V) (i p : Nat), s.drop i = l → findScan e N n k l i = some (some p) → ∃ v, At e s p k v := by
  intro l
  induction l with
  | nil =>
    intro i p _ h
    rw [findScan] at h
    cases hh : e.hi <;> rw [hh] at h <;> simp at h
  | cons x xs ih =>
    intro i p hl h
    obtain ⟨hx, hxs⟩ := drop_cons hl
    rw [findScan] at h
    split at h
    · exact ih (i + 1) p hxs h
    · split at h
      · simp at h
      · rename_i hne
        split at h
        · simp at h
        · split at h
          · rename_i hk
            simp only [Option.some.injEq] at h
            subst h
            refine ⟨x.raw, by rw [hx, hk], ?_⟩
            rw [hk]; simpa [isEmpty] using hne
          · exact ih (i + 1) p hxs h

theorem find_at {e : Env K V} {s : Slots K V} {k : K} {p : Nat} (h : find e s k = some (some p)) : ∃ v, At e s p k v := by
  unfold find at h
  split at h
  · simp at h
  · exact findScan_at s _ _ _ _ _ _ rfl h

theorem at_unique {e : Env K V} {s : Slots K V} {p : Nat} {k k' : K} {v v' : V} (h : At e s p k v) (h' : At e s p k' v') :
    k = k' ∧ v = v' := by
  have := h.1.symm.trans h'.1
  simp only [Option.some.injEq, Slot.mk.injEq] at this
  exact this

/-- changing an empty slot hurts nobody -/
theorem set_empty {e : Env K V} {s : Slots K V} {i : Nat} {y z : Slot K V} (hy : s[i]? = some y) (hn : y.key = e.null)
    {p : Nat} {k : K} {v : V} (h : At e s p k v) : At e (s.set i z) p k v := by
  have : p ≠ i := by
    rintro rfl
    have := h.1.symm.trans hy
    simp only [Option.some.injEq] at this
    subst this
    exact h.2 hn
  exact (at_set_ne this).mpr h

theorem prune_at {e : Env K V} (n : Nat) : ∀ (pos : Nat) (s s' : Slots K V), prune e n s pos = some s' →
    ∀ q k v, At e s' q k v ↔ At e s q k v := by
  intro pos
  induction pos with
  | zero =>
    intro s s' h
    rw [prune] at h
    cases hlo : e.lo with
    | none => rw [hlo] at h; cases h
    | some x =>
      rw [hlo] at h
      dsimp only at h
      split at h
      · cases h
      · injection h with h; subst h; exact fun _ _ _ => Iff.rfl
  | succ p ih =>
    intro s s' h q k v
    rw [prune] at h
    cases hx : s[p]? with
    | none => rw [hx] at h; cases h
    | some x =>
      rw [hx] at h
      dsimp only at h
      split at h
      · rename_i hc
        simp only [Bool.and_eq_true, isSparse_iff] at hc
        rw [ih _ _ h q k v]
        by_cases hq : q = p
        · subst hq
          constructor
          · intro hat
            have := hat.1
            rw [List.getElem?_set_self (get_lt hx)] at this
            simp only [Option.some.injEq, Slot.mk.injEq] at this
            exact absurd (this.1.symm.trans hc.1.1) hat.2
          · intro hat
            have := hat.1.symm.trans hx
            simp only [Option.some.injEq] at this
            subst this
            exact absurd hc.1.1 hat.2
        · exact at_set_ne hq
      · injection h with h; subst h; exact Iff.rfl

/-- erasing a slot removes what is there, and nothing else, in every state -/
theorem eraseAt_at {e : Env K V} {s s' : Slots K V} {p n : Nat} (h : eraseAt e s p n = some s') (q : Nat) (k : K) (v : V) :
    At e s' q k v ↔ At e s q k v ∧ q ≠ p := by
  have key : ∀ z, z = e.null → ∀ r : V, (At e (s.set p ⟨z, r⟩) q k v ↔ At e s q k v ∧ q ≠ p) := by
    rintro z rfl r
    by_cases hq : q = p
    · subst hq
      simp only [ne_eq, not_true_eq_false, and_false, iff_false]
      intro hat
      have h1 := hat.1
      have h2 := get_lt h1
      rw [List.length_set] at h2
      rw [List.getElem?_set_self h2] at h1
      simp only [Option.some.injEq, Slot.mk.injEq] at h1
      exact hat.2 h1.1.symm
    · rw [at_set_ne hq]; exact ⟨fun h => ⟨h, hq⟩, fun h => h.1⟩
  unfold eraseAt at h
  cases hx : s[p]? with
  | none => rw [hx] at h; cases h
  | some x =>
    rw [hx] at h
    dsimp only at h
    split at h
    · rw [prune_at _ _ _ _ h]; exact key _ rfl _
    · injection h with h; subst h; exact key _ rfl _

theorem prune_length {e : Env K V} (n : Nat) : ∀ (pos : Nat) (s s' : Slots K V), prune e n s pos = some s' →
    s'.length = s.length := by
  intro pos
  induction pos with
  | zero =>
    intro s s' h
    rw [prune] at h
    cases hlo : e.lo with
    | none => rw [hlo] at h; cases h
    | some x =>
      rw [hlo] at h
      dsimp only at h
      split at h
      · cases h
      · injection h with h; subst h; rfl
  | succ p ih =>
    intro s s' h
    rw [prune] at h
    cases hx : s[p]? with
    | none => rw [hx] at h; cases h
    | some x =>
      rw [hx] at h
      dsimp only at h
      split at h
      · rw [ih _ _ h, List.length_set]
      · injection h with h; subst h; rfl

theorem eraseAt_length {e : Env K V} {s s' : Slots K V} {p n : Nat} (h : eraseAt e s p n = some s') :
    s'.length = s.length := by
  unfold eraseAt at h
  cases hx : s[p]? with
  | none => rw [hx] at h; cases h
  | some x =>
    rw [hx] at h
    dsimp only at h
    split at h
    · rw [prune_length _ _ _ _ h, List.length_set]
    · injection h with h; subst h; exact List.length_set

theorem insert_keeps {e : Env K V} {s s' : Slots K V} {k' : K} {w : V} {r : InsRes} (h : insert e s k' w = some (s', r))
    {p : Nat} {k : K} {v : V} (hp : At e s p k v) : At e s' p k v := by
  unfold insert at h
  cases hpre : precheck e s k' with
  | none => rw [hpre] at h; cases h
  | some pr =>
    rw [hpre] at h
    cases pr with
    | fresh i =>
      dsimp only at h
      split at h
      · rename_i hi
        obtain ⟨y, hy, hn⟩ := fresh_empty hpre hi
        injection h with h; injection h with h1 h2
        subst h1
        exact set_empty hy hn hp
      · cases h
    | dup i => injection h with h; injection h with h1 h2; subst h1; exact hp
    | refused => injection h with h; injection h with h1 h2; subst h1; exact hp

theorem assign_keeps {e : Env K V} {s s' : Slots K V} {k' : K} {w : V} {r : InsRes}
    (h : insertOrAssign e s k' w = some (s', r)) {p : Nat} {k : K} {v : V} (hk : k' ≠ k) (hp : At e s p k v) :
    At e s' p k v := by
  unfold insertOrAssign at h
  cases hf : find e s k' with
  | none => rw [hf] at h; cases h
  | some o =>
    rw [hf] at h
    cases o with
    | none => exact insert_keeps h hp
    | some i =>
      dsimp only at h
      obtain ⟨w', hi⟩ := find_at hf
      rw [hi.1] at h
      dsimp only at h
      injection h with h; injection h with h1 h2
      subst h1
      have : p ≠ i := by
        rintro rfl
        exact hk (at_unique hi hp).1
      exact (at_set_ne this).mpr hp

theorem subscript_keeps {e : Env K V} {s s' : Slots K V} {k' : K} {i : Nat} (h : subscript e s k' = some (s', i))
    {p : Nat} {k : K} {v : V} (hp : At e s p k v) : At e s' p k v := by
  unfold subscript at h
  cases hf : find e s k' with
  | none => rw [hf] at h; cases h
  | some o =>
    rw [hf] at h
    cases o with
    | some j => injection h with h; injection h with h1 h2; subst h1; exact hp
    | none =>
      dsimp only at h
      cases hpre : precheck e s k' with
      | none => rw [hpre] at h; cases h
      | some pr =>
        rw [hpre] at h
        cases pr with
        | fresh j =>
          dsimp only at h
          cases hx : s[j]? with
          | none => rw [hx] at h; cases h
          | some x =>
            rw [hx] at h
            obtain ⟨y, hy, hn⟩ := fresh_empty hpre (get_lt hx)
            injection h with h; injection h with h1 h2
            subst h1
            exact set_empty hy hn hp
        | dup j => injection h with h; injection h with h1 h2; subst h1; exact hp
        | refused => cases h

theorem erase_keeps {e : Env K V} {s s' : Slots K V} {k' : K} {n : Nat} (h : erase e s k' = some (s', n))
    {p : Nat} {k : K} {v : V} (hk : k' ≠ k) (hp : At e s p k v) : At e s' p k v := by
  unfold erase at h
  cases hf : find e s k' with
  | none => rw [hf] at h; cases h
  | some o =>
    rw [hf] at h
    cases o with
    | none => injection h with h; injection h with h1 h2; subst h1; exact hp
    | some i =>
      dsimp only at h
      obtain ⟨w', hi⟩ := find_at hf
      cases he : eraseAt e s i (index e s.length k') with
      | none => rw [he] at h; cases h
      | some t =>
        rw [he] at h
        injection h with h; injection h with h1 h2
        subst h1
        refine (eraseAt_at he p k v).mpr ⟨hp, ?_⟩
        rintro rfl
        exact hk (at_unique hi hp).1

theorem eraseIt_at {e : Env K V} {s s' : Slots K V} {p q : Nat} (h : eraseIt e s p = some (s', q)) (r : Nat) (k : K) (v : V) :
    At e s' r k v ↔ At e s r k v ∧ r ≠ p := by
  unfold eraseIt at h
  cases hx : s[p]? with
  | none => rw [hx] at h; cases h
  | some x =>
    rw [hx] at h
    dsimp only at h
    cases he : eraseAt e s p (index e s.length x.key) with
    | none => rw [he] at h; cases h
    | some t =>
      rw [he] at h
      dsimp only at h
      cases hsk : skipEmpty e (t.drop (p + 1)) (p + 1) with
      | none => rw [hsk] at h; cases h
      | some q' =>
        rw [hsk] at h
        simp only [Option.map_some, Option.some.injEq, Prod.mk.injEq] at h
        obtain ⟨rfl, rfl⟩ := h
        exact eraseAt_at he r k v

theorem gcTarget_empty {e : Env K V} {s : Slots K V} (n : Nat) : ∀ (l : Slots K V) (i q : Nat),
    (∀ j, j < l.length → s[i + j]? = l[j]?) → gcTarget e n l i = some q → ∃ y, s[q]? = some y ∧ y.key = e.null ∧ q < i + l.length := by
  intro l
  induction l with
  | nil => intro i q _ h; cases h
  | cons x xs ih =>
    intro i q hl h
    rw [gcTarget] at h
    split at h
    · rename_i hx
      split at h
      · cases h
      · injection h with h; subst h
        exact ⟨x, by simpa using hl 0 (by simp), (isEmpty_iff e x).mp hx, by simp⟩
    · obtain ⟨y, a, b, c⟩ := ih (i + 1) q (fun j hj => by
        have := hl (j + 1) (by simpa using hj)
        rw [show i + 1 + j = i + (j + 1) by omega, this]; simp) h
      exact ⟨y, a, b, by simp only [List.length_cons]; omega⟩

theorem gc_spec {e : Env K V} {s s' : Slots K V} {p q : Nat} {k : K} {v : V} (hp : At e s p k v)
    (h : gcActive e s p = some (s', q)) :
    At e s' q k v ∧ q ≤ p ∧ ∀ r k' v', r ≠ p → At e s r k' v' → At e s' r k' v' := by
  unfold gcActive at h
  rw [hp.1] at h
  dsimp only at h
  cases hg : gcTarget e (index e s.length k) ((s.take p).drop (index e s.length k)) (index e s.length k) with
  | none =>
    rw [hg] at h
    injection h with h; injection h with h1 h2
    subst h1; subst h2
    exact ⟨hp, Nat.le_refl _, fun r k' v' _ h => h⟩
  | some t =>
    rw [hg] at h
    obtain ⟨y, hy, hn, hlt⟩ := gcTarget_empty (s := s) _ _ _ _ (fun j hj => by
      simp only [List.length_drop, List.length_take] at hj
      rw [List.getElem?_drop, List.getElem?_take, if_pos (by omega)]) hg
    simp only [List.length_drop, List.length_take] at hlt
    have hpl := get_lt hp.1
    have htp : t ≠ p := by
      rintro rfl
      have := hp.1.symm.trans hy
      simp only [Option.some.injEq] at this
      subst this
      exact hp.2 hn
    have htl : t ≤ p := by
      by_cases hc : index e s.length k ≤ p
      · omega
      · have : (s.take p).drop (index e s.length k) = [] := by
          apply List.drop_eq_nil_of_le
          simp only [List.length_take]; omega
        rw [this] at hg; cases hg
    simp only [swapSlots, hy, hp.1, Option.map_some, Option.some.injEq, Prod.mk.injEq] at h
    obtain ⟨rfl, rfl⟩ := h
    refine ⟨⟨?_, hp.2⟩, htl, ?_⟩
    · rw [List.getElem?_set_ne (fun h => htp h.symm), List.getElem?_set_self (get_lt hy)]
    · intro r k' v' hr hat
      exact (at_set_ne hr).mpr (set_empty hy hn hat)

theorem act_keeps {e : Env K V} {s s' : Slots K V} {a : Act K V} (h : act e s a = some s') {p : Nat} {k : K} {v : V}
    (hp : At e s p k v) (ha : Spec.Spares k p a) : At e s' p k v := by
  cases a with
  | eraseIt q =>
    dsimp only [act] at h
    cases hq : eraseIt e s q with
    | none => rw [hq] at h; cases h
    | some x =>
      rw [hq] at h
      simp only [Option.map_some, Option.some.injEq] at h
      subst h
      exact (eraseIt_at (by rw [hq]) p k v).mpr ⟨hp, fun h => ha h.symm⟩
  | gc q =>
    dsimp only [act] at h
    cases hq : gcActive e s q with
    | none => rw [hq] at h; cases h
    | some x =>
      rw [hq] at h
      simp only [Option.map_some, Option.some.injEq] at h
      subst h
      cases hx : s[q]? with
      | none => unfold gcActive at hq; rw [hx] at hq; cases hq
      | some y =>
        by_cases hy : y.key = e.null
        · -- an iterator to no element: the slots may still be exchanged, which moves an empty slot onto an empty one
          unfold gcActive at hq
          rw [hx] at hq
          dsimp only at hq
          cases hg : gcTarget e (index e s.length y.key) ((s.take q).drop (index e s.length y.key)) (index e s.length y.key) with
          | none => rw [hg] at hq; injection hq with hq; subst hq; exact hp
          | some t =>
            rw [hg] at hq
            obtain ⟨z, hz, hn, -⟩ := gcTarget_empty (s := s) _ _ _ _ (fun j hj => by
              simp only [List.length_drop, List.length_take] at hj
              rw [List.getElem?_drop, List.getElem?_take, if_pos (by omega)]) hg
            simp only [swapSlots, hz, hx, Option.map_some, Option.some.injEq] at hq
            subst hq
            exact (at_set_ne (fun h => ha h.symm)).mpr (set_empty hz hn hp)
        · exact (gc_spec (v := y.raw) (k := y.key) ⟨hx, hy⟩ (by rw [hq])).2.2 p k v (fun h => ha h.symm) hp
  | write q w =>
    simp only [act, write] at h
    cases hx : s[q]? with
    | none => rw [hx] at h; cases h
    | some x =>
      rw [hx] at h
      dsimp only at h
      split at h
      · cases h
      · injection h with h; subst h
        exact (at_set_ne (fun h => ha h.symm)).mpr hp
  | op o =>
    dsimp only [act] at h
    cases hst : step e s o with
    | none => rw [hst] at h; cases h
    | some x =>
      obtain ⟨t, r⟩ := x
      rw [hst] at h
      simp only [Option.map_some, Option.some.injEq] at h
      subst h
      cases o with
      | insert k' w =>
        dsimp only [step] at hst
        cases hi : insert e s k' w with
        | none => rw [hi] at hst; cases hst
        | some y =>
          obtain ⟨u, ir⟩ := y
          rw [hi] at hst
          dsimp only at hst
          cases hse : seen u ir with
          | none => rw [hse] at hst; cases hst
          | some ou =>
            rw [hse] at hst
            simp only [Option.map_some, Option.some.injEq, Prod.mk.injEq] at hst
            obtain ⟨rfl, -⟩ := hst
            exact insert_keeps hi hp
      | assign k' w =>
        dsimp only [step] at hst
        cases hi : insertOrAssign e s k' w with
        | none => rw [hi] at hst; cases hst
        | some y =>
          obtain ⟨u, ir⟩ := y
          rw [hi] at hst
          dsimp only at hst
          cases hse : seen u ir with
          | none => rw [hse] at hst; cases hst
          | some ou =>
            rw [hse] at hst
            simp only [Option.map_some, Option.some.injEq, Prod.mk.injEq] at hst
            obtain ⟨rfl, -⟩ := hst
            exact assign_keeps hi ha hp
      | sub k' =>
        dsimp only [step] at hst
        cases hi : subscript e s k' with
        | none => rw [hi] at hst; cases hst
        | some y =>
          obtain ⟨u, j⟩ := y
          rw [hi] at hst
          dsimp only at hst
          cases hse : rawAt u j with
          | none => rw [hse] at hst; cases hst
          | some ou =>
            rw [hse] at hst
            simp only [Option.map_some, Option.some.injEq, Prod.mk.injEq] at hst
            obtain ⟨rfl, -⟩ := hst
            exact subscript_keeps hi hp
      | erase k' =>
        simp only [step, Option.map_eq_some_iff, Prod.exists, Prod.mk.injEq] at hst
        obtain ⟨u, n, hi, rfl, -⟩ := hst
        exact erase_keeps hi ha hp
      | clear => exact ha.elim
      | find k' =>
        simp only [step, Option.map_eq_some_iff, Prod.mk.injEq] at hst
        obtain ⟨_, _, rfl, -⟩ := hst
        exact hp
      | contains k' =>
        simp only [step, Option.map_eq_some_iff, Prod.mk.injEq] at hst
        obtain ⟨_, _, rfl, -⟩ := hst
        exact hp
      | count k' =>
        simp only [step, Option.map_eq_some_iff, Prod.mk.injEq] at hst
        obtain ⟨_, _, rfl, -⟩ := hst
        exact hp
      | size =>
        simp only [step, Option.some.injEq, Prod.mk.injEq] at hst
        obtain ⟨rfl, -⟩ := hst
        exact hp
      | isEmpty =>
        simp only [step, Option.some.injEq, Prod.mk.injEq] at hst
        obtain ⟨rfl, -⟩ := hst
        exact hp

/-! ## The promise -/

/-- C91: a reference to an element keeps showing that element, key and value, through every history of insertions, `[]`,
assignments to and erasures of other elements, lookups and garbage collection of other elements. -/
theorem references_stable (e : Env K V) (s s' : Slots K V) (as : List (Act K V)) (h : acts e s as = some s')
    (p : Nat) (k : K) (v : V) (hp : At e s p k v) (ha : ∀ a ∈ as, Spec.Spares k p a) : At e s' p k v := by
  induction as generalizing s with
  | nil => simp only [acts, Option.some.injEq] at h; subst h; exact hp
  | cons a as ih =>
    simp only [acts] at h
    cases h1 : act e s a with
    | none => rw [h1] at h; cases h
    | some t =>
      rw [h1] at h
      exact ih t h (act_keeps h1 hp (ha a (by simp))) fun b hb => ha b (by simp [hb])

/-- two keys of one bucket, one of another; erasures, insertions and collection in between -/
example : (acts (intEnv (some ⟨0, 0⟩) (some ⟨0, 0⟩)) (fresh (intEnv (some ⟨0, 0⟩) (some ⟨0, 0⟩)) 8)
    [.op (.insert 2 20), .op (.insert 4 40), .op (.erase 2), .op (.insert 6 60), .op (.insert 1 10), .eraseIt 0, .write 4 11]).map
      (fun s => s[1]?) = some (some ⟨4, 40⟩) := by decide +kernel

/-- C91: the iterators the map hands out refer to the element: what `insert` returns after inserting, or for a key that is
already there, and what `find` and `[]` return. -/
theorem references_refer (e : Env K V) (s : Slots K V) (k : K) (hk : k ≠ e.null) :
    (∀ v s' p, insert e s k v = some (s', (some p, true)) → At e s' p k v) ∧
    (∀ v s' p, insert e s k v = some (s', (some p, false)) → s' = s ∧ ∃ w, At e s p k w) ∧
    (∀ v s' p b, insertOrAssign e s k v = some (s', (some p, b)) → b = true → At e s' p k v) ∧
    (∀ s' p, subscript e s k = some (s', p) → ∃ w, At e s' p k w) ∧
    (∀ p, find e s k = some (some p) → ∃ w, At e s p k w) := by
  have hins : ∀ v s' p, insert e s k v = some (s', (some p, true)) → At e s' p k v := by
    intro v s' p h
    unfold insert at h
    cases hpre : precheck e s k with
    | none => rw [hpre] at h; cases h
    | some pr =>
      rw [hpre] at h
      cases pr with
      | fresh i =>
        dsimp only at h
        split at h
        · rename_i hi
          simp only [Option.some.injEq, Prod.mk.injEq, and_true] at h
          obtain ⟨rfl, rfl⟩ := h
          exact at_set_self hi hk
        · cases h
      | dup i => simp at h
      | refused => simp at h
  have hdup : ∀ i, precheck e s k = some (.dup i) → ∃ w, At e s i k w := by
    intro i h
    by_cases hs : 0 < s.length
    · obtain ⟨j, h1, h2, h3, h4⟩ := precheck_cases e s k hs hk
      rcases h4 with ⟨h4, h5⟩ | ⟨y, hy, hn, h5⟩ | ⟨y, hy, hn, hne, h5⟩ | ⟨y, hy, hyk, h5⟩
      · rw [h] at h5
        cases hh : e.hi with
        | none => rw [hh] at h5; cases h5
        | some x =>
          rw [hh, Option.map_some] at h5
          injection h5 with h5
          split at h5 <;> cases h5
      · rw [h] at h5; injection h5 with h5; cases h5
      · rw [h] at h5; injection h5 with h5; cases h5
      · rw [h] at h5; injection h5 with h5; injection h5 with h5
        subst h5
        exact ⟨y.raw, by rw [hy, ← hyk], hk⟩
    · have : s = [] := List.eq_nil_of_length_eq_zero (by omega)
      subst this
      rw [precheck, if_neg hk] at h
      simp only [List.drop_nil, probe] at h
      cases hh : e.hi with
      | none => rw [hh] at h; cases h
      | some x =>
        rw [hh] at h
        dsimp only at h
        injection h with h
        split at h <;> cases h
  refine ⟨hins, ?_, ?_, ?_, fun p h => find_at h⟩
  · intro v s' p h
    unfold insert at h
    cases hpre : precheck e s k with
    | none => rw [hpre] at h; cases h
    | some pr =>
      rw [hpre] at h
      cases pr with
      | fresh i =>
        dsimp only at h
        split at h <;> simp at h
      | dup i =>
        simp only [Option.some.injEq, Prod.mk.injEq, and_true] at h
        obtain ⟨rfl, rfl⟩ := h
        exact ⟨rfl, hdup _ hpre⟩
      | refused => simp at h
  · intro v s' p b h hb
    subst hb
    unfold insertOrAssign at h
    cases hf : find e s k with
    | none => rw [hf] at h; cases h
    | some o =>
      rw [hf] at h
      cases o with
      | none => exact hins v s' p h
      | some i =>
        dsimp only at h
        obtain ⟨w, hi⟩ := find_at hf
        rw [hi.1] at h
        simp only [Option.some.injEq, Prod.mk.injEq, and_true] at h
        obtain ⟨rfl, rfl⟩ := h
        exact at_set_self (get_lt hi.1) hk
  · intro s' p h
    unfold subscript at h
    cases hf : find e s k with
    | none => rw [hf] at h; cases h
    | some o =>
      rw [hf] at h
      cases o with
      | some i =>
        simp only [Option.some.injEq, Prod.mk.injEq] at h
        obtain ⟨rfl, rfl⟩ := h
        exact find_at hf
      | none =>
        dsimp only at h
        cases hpre : precheck e s k with
        | none => rw [hpre] at h; cases h
        | some pr =>
          rw [hpre] at h
          cases pr with
          | fresh i =>
            dsimp only at h
            cases hx : s[i]? with
            | none => rw [hx] at h; cases h
            | some x =>
              rw [hx] at h
              simp only [Option.some.injEq, Prod.mk.injEq] at h
              obtain ⟨rfl, rfl⟩ := h
              exact ⟨x.raw, at_set_self (get_lt hx) hk⟩
          | dup i =>
            simp only [Option.some.injEq, Prod.mk.injEq] at h
            obtain ⟨rfl, rfl⟩ := h
            exact hdup _ hpre
          | refused => cases h

/-! ## Writing through a reference -/

theorem write_some {e : Env K V} {s s' : Slots K V} {p : Nat} {w : V} (h : write e s p w = some s') :
    ∃ x, s[p]? = some x ∧ x.key ≠ e.null ∧ s' = s.set p ⟨x.key, w⟩ := by
  unfold write at h
  cases hx : s[p]? with
  | none => rw [hx] at h; cases h
  | some x =>
    rw [hx] at h
    dsimp only at h
    split at h
    · cases h
    · rename_i hne
      injection h with h
      exact ⟨x, rfl, by simpa [isEmpty] using hne, h.symm⟩

theorem findScan_congr {e : Env K V} (N n : Nat) (k : K) : ∀ (l l' : Slots K V) (i : Nat),
    List.Forall₂ (fun x y : Slot K V => x.key = y.key ∧ (x.key = e.null → x = y)) l l' →
    findScan e N n k l i = findScan e N n k l' i := by
  intro l l' i h
  induction h generalizing i with
  | nil => rfl
  | @cons x y xs ys hxy _ ih =>
    obtain ⟨h1, h2⟩ := hxy
    by_cases hn : x.key = e.null
    · have := h2 hn; subst this
      simp only [findScan, ih]
    · have hn' : y.key ≠ e.null := h1 ▸ hn
      simp only [findScan, isSparse_false_of_active hn, isSparse_false_of_active hn', Bool.false_eq_true, if_false, isEmpty,
        hn, hn', decide_false, h1, ih]

theorem forall₂_set {e : Env K V} {p : Nat} {x : Slot K V} {w : V} (hne : x.key ≠ e.null) : ∀ (s : Slots K V) (d : Nat),
    s[p]? = some x →
    List.Forall₂ (fun x y : Slot K V => x.key = y.key ∧ (x.key = e.null → x = y)) (s.drop d) ((s.set p ⟨x.key, w⟩).drop d) := by
  intro s d hx
  rw [List.forall₂_iff_get]
  refine ⟨by simp, fun i h1 h2 => ?_⟩
  simp only [List.get_eq_getElem, List.getElem_drop, List.getElem_set]
  split
  · rename_i hp
    have : s[d + i]'(by simp at h1; omega) = x := by
      have h3 := hx
      rw [hp, List.getElem?_eq_getElem (by simp at h1; omega)] at h3
      exact Option.some.inj h3
    rw [this]
    exact ⟨rfl, fun h => absurd h hne⟩
  · exact ⟨rfl, fun _ => rfl⟩

/-- C91: what is written through a reference is what lookups of that key show from then on, and every other lookup shows
what it did. -/
theorem write_visible (e : Env K V) (s s' : Slots K V) (p : Nat) (w : V) (h : write e s p w = some s') :
    (∀ k, find e s' k = find e s k) ∧ (∀ k, find e s k = some (some p) → lookup e s' k = some (some w)) ∧
    (∀ k, find e s k ≠ some (some p) → lookup e s' k = lookup e s k) := by
  obtain ⟨x, hx, hne, rfl⟩ := write_some h
  have hf : ∀ k, find e (s.set p ⟨x.key, w⟩) k = find e s k := by
    intro k
    unfold find
    split
    · rfl
    · simp only [List.length_set]
      exact (findScan_congr _ _ _ _ _ _ (forall₂_set hne s _ hx)).symm
  refine ⟨hf, ?_, ?_⟩
  · intro k hk
    simp only [lookup, hf, hk, Option.map_some, Option.bind_some, List.getElem?_set_self (get_lt hx)]
  · intro k hk
    simp only [lookup, hf]
    cases hfk : find e s k with
    | none => rfl
    | some o =>
      cases o with
      | none => rfl
      | some q =>
        have : p ≠ q := by rintro rfl; exact hk hfk
        simp only [Option.map_some, Option.bind_some, List.getElem?_set_ne this]

example : write (intEnv none none) [⟨2, 20⟩, ⟨0, 0⟩] 0 21 = some [⟨2, 21⟩, ⟨0, 0⟩] := by decide +kernel

/-- C91: `insert_or_assign` of a key that is there puts the value where the references to it look. -/
theorem assign_in_place (e : Env K V) (s : Slots K V) (k : K) (w : V) (p : Nat) (h : find e s k = some (some p)) :
    ∃ s', insertOrAssign e s k w = some (s', (some p, true)) ∧ At e s' p k w ∧
      ∀ q k' v, k' ≠ k → At e s q k' v → At e s' q k' v := by
  obtain ⟨v, hp⟩ := find_at h
  have he : insertOrAssign e s k w = some (s.set p ⟨k, w⟩, (some p, true)) := by
    unfold insertOrAssign; rw [h]; simp only [hp.1]
  exact ⟨_, he, at_set_self (get_lt hp.1) hp.2, fun q k' v' hk hq => assign_keeps he (fun h => hk h.symm) hq⟩

/-- C91: `gc_active` may move the element it is given, to an earlier slot; the iterator it returns refers to the element, and
no other reference is affected. -/
theorem gc_active_moves (e : Env K V) (s s' : Slots K V) (p q : Nat) (k : K) (v : V) (hp : At e s p k v)
    (h : gcActive e s p = some (s', q)) :
    At e s' q k v ∧ q ≤ p ∧ ∀ r k' v', r ≠ p → At e s r k' v' → At e s' r k' v' := gc_spec hp h

/-- … so the old reference may show nothing any more: here the element of key 4 moves to the place of the erased key 2 -/
example : gcActive (intEnv none none) [⟨0, 1⟩, ⟨4, 40⟩, ⟨0, 0⟩, ⟨0, 0⟩] 1 =
    some ([⟨4, 40⟩, ⟨0, 1⟩, ⟨0, 0⟩, ⟨0, 0⟩], 0) := by decide +kernel

/-! ## Erasing while iterating -/

/-- The loop `for(it = m.begin(); it != m.end();) if(pred(*it)) it = m.erase(it); else ++it;`, from slot `it` on, with the slots
it looked at; `none` for undefined behaviour, or when the fuel is used up. -/
def eraseIf (e : Env K V) (pred : K → V → Bool) : Nat → Slots K V → Nat → Option (Slots K V × List Nat)
  | 0, _, _ => none
  | f + 1, s, it =>
    match s[it]? with
    | none => some (s, [])
    | some x =>
      if pred x.key x.raw then
        (eraseIt e s it).bind fun r => (eraseIf e pred f r.1 r.2).map fun z => (z.1, it :: z.2)
      else
        (skipEmpty e (s.drop (it + 1)) (it + 1)).bind fun q => (eraseIf e pred f s q).map fun z => (z.1, it :: z.2)

/-- the whole loop, `begin()` being the first occupied slot (base.h:520-535) -/
def eraseIfAll (e : Env K V) (pred : K → V → Bool) (fuel : Nat) (s : Slots K V) : Option (Slots K V × List Nat) :=
  (skipEmpty e s 0).bind fun it => eraseIf e pred fuel s it

theorem skipEmpty_some {e : Env K V} (h : e.hi.isSome = true) : ∀ (l : Slots K V) (i : Nat), ∃ q, skipEmpty e l i = some q := by
  intro l
  induction l with
  | nil =>
    intro i
    obtain ⟨x, hx⟩ := Option.isSome_iff_exists.mp h
    exact ⟨i, by rw [skipEmpty, hx]⟩
  | cons x xs ih =>
    intro i
    rw [skipEmpty]
    split
    · exact ih (i + 1)
    · exact ⟨i, rfl⟩

theorem eraseIt_length {e : Env K V} {s s' : Slots K V} {p q : Nat} (h : eraseIt e s p = some (s', q)) :
    s'.length = s.length ∧ skipEmpty e (s'.drop (p + 1)) (p + 1) = some q := by
  unfold eraseIt at h
  cases hx : s[p]? with
  | none => rw [hx] at h; cases h
  | some x =>
    rw [hx] at h
    dsimp only at h
    cases he : eraseAt e s p (index e s.length x.key) with
    | none => rw [he] at h; cases h
    | some t =>
      rw [he] at h
      dsimp only at h
      cases hsk : skipEmpty e (t.drop (p + 1)) (p + 1) with
      | none => rw [hsk] at h; cases h
      | some q' =>
        rw [hsk] at h
        simp only [Option.map_some, Option.some.injEq, Prod.mk.injEq] at h
        obtain ⟨rfl, rfl⟩ := h
        exact ⟨eraseAt_length he, hsk⟩

theorem eraseIf_spec (e : Env K V) (pred : K → V → Bool) : ∀ (f : Nat) (s s' : Slots K V) (it : Nat) (l : List Nat),
    it ≤ s.length → (it < s.length → ∃ k v, At e s it k v) → eraseIf e pred f s it = some (s', l) →
    s'.length = s.length ∧ l.Pairwise (· < ·) ∧ (∀ p, p ∈ l ↔ it ≤ p ∧ ∃ k v, At e s p k v) ∧
    ∀ p k v, At e s' p k v ↔ At e s p k v ∧ (it ≤ p → pred k v = false) := by
  intro f
  induction f with
  | zero => intro s s' it l _ _ h; cases h
  | succ f ih =>
    intro s s' it l hit hat h
    rw [eraseIf] at h
    cases hx : s[it]? with
    | none =>
      rw [hx] at h
      simp only [Option.some.injEq, Prod.mk.injEq] at h
      obtain ⟨rfl, rfl⟩ := h
      have hge : s.length ≤ it := List.getElem?_eq_none_iff.mp hx
      refine ⟨rfl, List.Pairwise.nil, ?_, ?_⟩
      · intro p
        simp only [List.not_mem_nil, false_iff, not_and, not_exists]
        intro hp k v hq
        have := get_lt hq.1
        omega
      · intro p k v
        constructor
        · intro hq
          refine ⟨hq, fun hp => ?_⟩
          have := get_lt hq.1
          omega
        · exact fun h => h.1
    | some x =>
      rw [hx] at h
      dsimp only at h
      have hlt := get_lt hx
      obtain ⟨k0, v0, h0⟩ := hat hlt
      have hx0 : x = ⟨k0, v0⟩ := by
        have := hx.symm.trans h0.1
        simpa using this
      subst hx0
      split at h
      · rename_i hpred
        cases he : eraseIt e s it with
        | none => rw [he] at h; cases h
        | some r =>
          obtain ⟨t, q⟩ := r
          rw [he] at h
          dsimp only [Option.bind] at h
          cases hr : eraseIf e pred f t q with
          | none => rw [hr] at h; cases h
          | some z =>
            obtain ⟨u, l'⟩ := z
            rw [hr] at h
            simp only [Option.map_some, Option.some.injEq, Prod.mk.injEq] at h
            obtain ⟨rfl, rfl⟩ := h
            obtain ⟨htl, hsk⟩ := eraseIt_length he
            obtain ⟨g1, g2, g3, g4⟩ := skipEmpty_spec e t _ (it + 1) q (by omega) rfl hsk
            obtain ⟨a, b, c, d⟩ := ih t u q l' g2 g4 hr
            have hto : ∀ p k v, At e t p k v ↔ At e s p k v ∧ p ≠ it := eraseIt_at he
            refine ⟨by omega, ?_, ?_, ?_⟩
            · refine List.pairwise_cons.mpr ⟨fun p hp => ?_, b⟩
              have := ((c p).mp hp).1; omega
            · intro p
              rw [List.mem_cons, c p]
              constructor
              · rintro (rfl | ⟨hp, k, v, hq⟩)
                · exact ⟨Nat.le_refl _, k0, v0, h0⟩
                · exact ⟨by omega, k, v, ((hto p k v).mp hq).1⟩
              · rintro ⟨hp, k, v, hq⟩
                by_cases hpi : p = it
                · exact Or.inl hpi
                · right
                  have hq' := (hto p k v).mpr ⟨hq, hpi⟩
                  refine ⟨?_, k, v, hq'⟩
                  by_contra hc
                  exact g3 p k v (by omega) (by omega) hq'
            · intro p k v
              rw [d p k v, hto p k v]
              constructor
              · rintro ⟨⟨hq, hpi⟩, hpr⟩
                refine ⟨hq, fun hp => hpr ?_⟩
                by_contra hc
                exact g3 p k v (by omega) (by omega) ((hto p k v).mpr ⟨hq, hpi⟩)
              · rintro ⟨hq, hpr⟩
                refine ⟨⟨hq, ?_⟩, fun hp => hpr (by omega)⟩
                rintro rfl
                obtain ⟨rfl, rfl⟩ := at_unique h0 hq
                have := hpr (Nat.le_refl _)
                simp only at hpred
                rw [this] at hpred; cases hpred
      · rename_i hpred
        cases hsk : skipEmpty e (s.drop (it + 1)) (it + 1) with
        | none => rw [hsk] at h; cases h
        | some q =>
          rw [hsk] at h
          dsimp only [Option.bind] at h
          cases hr : eraseIf e pred f s q with
          | none => rw [hr] at h; cases h
          | some z =>
            obtain ⟨u, l'⟩ := z
            rw [hr] at h
            simp only [Option.map_some, Option.some.injEq, Prod.mk.injEq] at h
            obtain ⟨rfl, rfl⟩ := h
            obtain ⟨g1, g2, g3, g4⟩ := skipEmpty_spec e s _ (it + 1) q (by omega) rfl hsk
            obtain ⟨a, b, c, d⟩ := ih s u q l' g2 g4 hr
            refine ⟨a, ?_, ?_, ?_⟩
            · refine List.pairwise_cons.mpr ⟨fun p hp => ?_, b⟩
              have := ((c p).mp hp).1; omega
            · intro p
              rw [List.mem_cons, c p]
              constructor
              · rintro (rfl | ⟨hp, k, v, hq⟩)
                · exact ⟨Nat.le_refl _, k0, v0, h0⟩
                · exact ⟨by omega, k, v, hq⟩
              · rintro ⟨hp, k, v, hq⟩
                by_cases hpi : p = it
                · exact Or.inl hpi
                · right
                  refine ⟨?_, k, v, hq⟩
                  by_contra hc
                  exact g3 p k v (by omega) (by omega) hq
            · intro p k v
              rw [d p k v]
              constructor
              · rintro ⟨hq, hpr⟩
                refine ⟨hq, fun hp => ?_⟩
                by_cases hpi : p = it
                · subst hpi
                  obtain ⟨rfl, rfl⟩ := at_unique h0 hq
                  simpa using hpred
                · apply hpr
                  by_contra hc
                  exact g3 p k v (by omega) (by omega) hq
              · rintro ⟨hq, hpr⟩
                exact ⟨hq, fun hp => hpr (by omega)⟩

/-- C92: erasing while iterating looks at every element exactly once, in order, and leaves exactly the elements that do not
satisfy the predicate, each where it was. -/
theorem erase_while_iterating (e : Env K V) (pred : K → V → Bool) (fuel : Nat) (s s' : Slots K V) (l : List Nat)
    (h : eraseIfAll e pred fuel s = some (s', l)) :
    l.Pairwise (· < ·) ∧ (∀ p, p ∈ l ↔ ∃ k v, At e s p k v) ∧
    ∀ p k v, At e s' p k v ↔ At e s p k v ∧ pred k v = false := by
  unfold eraseIfAll at h
  cases hsk : skipEmpty e s 0 with
  | none => rw [hsk] at h; cases h
  | some it =>
    rw [hsk] at h
    dsimp only [Option.bind] at h
    obtain ⟨-, g2, g3, g4⟩ := skipEmpty_spec e s _ 0 it (by omega) rfl hsk
    obtain ⟨-, b, c, d⟩ := eraseIf_spec e pred fuel s s' it l g2 g4 h
    have hge : ∀ p k v, At e s p k v → it ≤ p := by
      intro p k v hq
      by_contra hc
      exact g3 p k v (by omega) (by omega) hq
    refine ⟨b, fun p => ?_, fun p k v => ?_⟩
    · rw [c p]
      exact ⟨fun h => h.2, fun ⟨k, v, hq⟩ => ⟨hge p k v hq, k, v, hq⟩⟩
    · rw [d p k v]
      exact ⟨fun ⟨hq, hpr⟩ => ⟨hq, hpr (hge p k v hq)⟩, fun ⟨hq, hpr⟩ => ⟨hq, fun _ => hpr⟩⟩

theorem prune_some {e : Env K V} (hlo : ∀ n, ∃ x, e.lo = some x ∧ isSparse e n x = false) (n : Nat) :
    ∀ (pos : Nat) (s : Slots K V), pos ≤ s.length → ∃ s', prune e n s pos = some s' := by
  intro pos
  induction pos with
  | zero =>
    intro s _
    obtain ⟨x, hx, hs⟩ := hlo n
    exact ⟨s, by rw [prune, hx]; simp [hs]⟩
  | succ p ih =>
    intro s hp
    rw [prune, List.getElem?_eq_getElem (by omega)]
    dsimp only
    split
    · exact ih _ (by simp; omega)
    · exact ⟨s, rfl⟩

theorem eraseIf_some (e : Env K V) (pred : K → V → Bool) (hhi : e.hi.isSome = true)
    (hlo : ∀ n, ∃ x, e.lo = some x ∧ isSparse e n x = false) :
    ∀ (f : Nat) (s : Slots K V) (it : Nat), it ≤ s.length → s.length < f + it → ∃ r, eraseIf e pred f s it = some r := by
  intro f
  induction f with
  | zero => intro s it h1 h2; omega
  | succ f ih =>
    intro s it h1 h2
    rw [eraseIf]
    cases hx : s[it]? with
    | none => exact ⟨_, rfl⟩
    | some x =>
      have hlt := get_lt hx
      dsimp only
      split
      · obtain ⟨t, ht⟩ : ∃ t, eraseAt e s it (index e s.length x.key) = some t := by
          unfold eraseAt
          rw [hx]
          dsimp only
          split
          · exact prune_some hlo _ _ _ (by simp; omega)
          · exact ⟨_, rfl⟩
        obtain ⟨q, hq⟩ := skipEmpty_some hhi (t.drop (it + 1)) (it + 1)
        have he : eraseIt e s it = some (t, q) := by unfold eraseIt; rw [hx]; simp only [ht, hq, Option.map_some]
        have htl := eraseAt_length ht
        obtain ⟨g1, g2, g3, g4⟩ := skipEmpty_spec e t _ (it + 1) q (by omega) rfl hq
        obtain ⟨r, hr⟩ := ih t q (by omega) (by omega)
        rw [he]
        simp only [Option.bind_some, hr, Option.map_some]
        exact ⟨_, rfl⟩
      · obtain ⟨q, hq⟩ := skipEmpty_some hhi (s.drop (it + 1)) (it + 1)
        obtain ⟨g1, g2, g3, g4⟩ := skipEmpty_spec e s _ (it + 1) q (by omega) rfl hq
        obtain ⟨r, hr⟩ := ih s q (by omega) (by omega)
        simp only [hq, Option.bind_some, hr, Option.map_some]
        exact ⟨_, rfl⟩

/-- C92: the loop ends, after at most one turn per element, when the slots next to the array, which the code reads (C21, C22),
can be read and the one in front of it does not look like an erased element. -/
theorem erase_while_iterating_ends (e : Env K V) (pred : K → V → Bool) (hhi : e.hi.isSome = true)
    (hlo : ∀ n, ∃ x, e.lo = some x ∧ isSparse e n x = false) (s : Slots K V) :
    ∃ r, eraseIfAll e pred (s.length + 1) s = some r := by
  unfold eraseIfAll
  obtain ⟨q, hq⟩ := skipEmpty_some hhi s 0
  rw [hq]
  obtain ⟨g1, g2, g3, g4⟩ := skipEmpty_spec e s _ 0 q (by omega) rfl hq
  exact eraseIf_some e pred hhi hlo _ s q g2 (by omega)

example : (eraseIfAll (intEnv (some ⟨1, 0⟩) (some ⟨0, 0⟩)) (fun _ v => v == 40 || v == 10) 9
      [⟨2, 20⟩, ⟨4, 40⟩, ⟨0, 0⟩, ⟨0, 0⟩, ⟨1, 10⟩, ⟨3, 30⟩, ⟨0, 0⟩, ⟨0, 0⟩]).map (fun r => (r.1.map (·.key), r.2)) =
    some ([2, 0, 0, 0, 0, 3, 0, 0], [0, 1, 4, 5]) := by decide +kernel

theorem skipEmpty_hi {e : Env K V} (hhi : e.hi = none) : ∀ (l : Slots K V) (i q : Nat), skipEmpty e l i = some q → q < i + l.length := by
  intro l
  induction l with
  | nil => intro i q h; rw [skipEmpty, hhi] at h; cases h
  | cons x xs ih =>
    intro i q h
    rw [skipEmpty] at h
    split at h
    · have := ih _ _ h; simp only [List.length_cons]; omega
    · injection h with h; simp only [List.length_cons]; omega

/-- **Violation.**  When the memory behind the array cannot be read the loop is undefined, whatever the map holds, the empty
map included, and whatever it erases: looking for the next element reads the slot behind the last. -/
theorem erase_while_iterating_undefined (e : Env K V) (pred : K → V → Bool) (hhi : e.hi = none) (fuel : Nat) (s : Slots K V) :
    eraseIfAll e pred fuel s = none := by
  have key : ∀ (f : Nat) (s : Slots K V) (it : Nat), it < s.length → eraseIf e pred f s it = none := by
    intro f
    induction f with
    | zero => intro s it _; rfl
    | succ f ih =>
      intro s it hit
      rw [eraseIf, List.getElem?_eq_getElem hit]
      dsimp only
      split
      · cases he : eraseIt e s it with
        | none => rfl
        | some r =>
          obtain ⟨t, q⟩ := r
          obtain ⟨h1, h2⟩ := eraseIt_length he
          have := skipEmpty_hi hhi _ _ _ h2
          rw [List.length_drop] at this
          simp only [Option.bind_some, ih t q (by omega), Option.map_none]
      · cases hs : skipEmpty e (s.drop (it + 1)) (it + 1) with
        | none => rfl
        | some q =>
          have := skipEmpty_hi hhi _ _ _ hs
          rw [List.length_drop] at this
          simp only [Option.bind_some, ih s q (by omega), Option.map_none]
  unfold eraseIfAll
  cases hs : skipEmpty e s 0 with
  | none => rfl
  | some q =>
    have := skipEmpty_hi hhi _ _ _ hs
    exact key fuel s q (by omega)

/-! ## Sets -/

/-- C91: references to the elements of a set stay good while nothing is erased. -/
theorem set_references_stable (e : Env K Unit) (s s' : Slots K Unit) (os : List (Op K Unit)) (rs : List (Out Unit))
    (h : setRun e s os = some (s', rs)) (hno : ∀ o ∈ os, ∀ k, o ≠ .erase k) (p : Nat) (k : K) (hp : At e s p k ()) :
    At e s' p k () := by
  induction os generalizing s rs with
  | nil =>
    simp only [setRun, Option.some.injEq, Prod.mk.injEq] at h
    obtain ⟨rfl, -⟩ := h
    exact hp
  | cons o os ih =>
    simp only [setRun] at h
    cases h1 : setStep e s o with
    | none => rw [h1] at h; cases h
    | some x =>
      obtain ⟨t, r⟩ := x
      rw [h1] at h
      dsimp only at h
      cases h2 : setRun e t os with
      | none => rw [h2] at h; cases h
      | some y =>
        obtain ⟨u, rs'⟩ := y
        rw [h2] at h
        simp only [Option.map_some, Option.some.injEq, Prod.mk.injEq] at h
        obtain ⟨rfl, -⟩ := h
        refine ih t rs' h2 (fun o' ho' => hno o' (by simp [ho'])) ?_
        have key : ∀ o', setStep e s o' = some (t, r) → (o' = o) → setStep e s o = step e s o → At e t p k () := by
          intro o' ho' ho heq
          subst ho
          refine act_keeps (a := .op o') (by dsimp only [act]; rw [← heq, ho']; rfl) hp ?_
          cases o' with
          | erase k' => exact absurd rfl (hno (.erase k') (by simp) k')
          | assign k' w => simp [setStep] at ho'
          | clear => simp [setStep] at ho'
          | _ => trivial
        cases o with
        | erase k' => exact absurd rfl (hno (.erase k') (by simp) k')
        | assign k' w => simp [setStep] at h1
        | clear => simp [setStep] at h1
        | sub k' => simp [setStep] at h1
        | find k' => simp [setStep] at h1
        | insert k' w => exact key _ h1 rfl rfl
        | contains k' => exact key _ h1 rfl rfl
        | count k' => exact key _ h1 rfl rfl
        | size => exact key _ h1 rfl rfl
        | isEmpty => exact key _ h1 rfl rfl

theorem lastScan_ge {e : Env K V} (N n : Nat) : ∀ (l : Slots K V) (i j : Nat), lastScan e N n l i = some j → i ≤ j := by
  intro l
  induction l with
  | nil =>
    intro i j h
    rw [lastScan] at h
    cases hh : e.hi with
    | none => rw [hh] at h; cases h
    | some x => rw [hh] at h; injection h with h; omega
  | cons x xs ih =>
    intro i j h
    rw [lastScan] at h
    split at h
    · have := ih _ _ h; omega
    · injection h with h; omega

theorem swap_at {e : Env K V} {s t : Slots K V} {i p : Nat} {x : Slot K V} (hx : s[p]? = some x) (hn : x.key = e.null)
    (h : swapSlots s i p = some t) (q : Nat) (k : K) (v : V) (hq : At e s q k v) :
    (q ≠ i ∧ At e t q k v) ∨ (q = i ∧ At e t p k v) := by
  unfold swapSlots at h
  cases hi : s[i]? with
  | none => rw [hi] at h; cases h
  | some y =>
    rw [hi, hx] at h
    simp only [Option.some.injEq] at h
    subst h
    have hqp : q ≠ p := by
      rintro rfl
      have := hq.1.symm.trans hx
      simp only [Option.some.injEq] at this
      subst this
      exact hq.2 hn
    by_cases hqi : q = i
    · right
      subst hqi
      refine ⟨rfl, ?_, hq.2⟩
      have := hi.symm.trans hq.1
      simp only [Option.some.injEq] at this
      subst this
      by_cases hqp2 : q = p
      · exact absurd hqp2 hqp
      · rw [List.getElem?_set_self (by rw [List.length_set]; exact get_lt hx)]
    · left
      exact ⟨hqi, (at_set_ne hqp).mpr ((at_set_ne hqi).mpr hq)⟩

theorem eraseGcAt_moves {e : Env K V} {s s' : Slots K V} {p : Nat} (h : eraseGcAt e s p = some s') :
    ∃ m, p ≤ m ∧ ∀ q k v, q ≠ p → At e s q k v → (q ≠ m ∧ At e s' q k v) ∨ (q = m ∧ At e s' p k v) := by
  unfold eraseGcAt at h
  cases hx : s[p]? with
  | none => rw [hx] at h; cases h
  | some x =>
    rw [hx] at h
    dsimp only at h
    have h1 : ∀ q k v, q ≠ p → At e s q k v → At e (s.set p (destruct e x)) q k v :=
      fun q k v hq ha => (at_set_ne hq).mpr ha
    have h2 : (s.set p (destruct e x))[p]? = some (destruct e x) := List.getElem?_set_self (get_lt hx)
    have h3 : (destruct e x).key = e.null := rfl
    have hdone : s' = s.set p (destruct e x) →
        ∃ m, p ≤ m ∧ ∀ q k v, q ≠ p → At e s q k v → (q ≠ m ∧ At e s' q k v) ∨ (q = m ∧ At e s' p k v) := by
      rintro rfl
      exact ⟨p, Nat.le_refl _, fun q k v hq ha => Or.inl ⟨hq, h1 q k v hq ha⟩⟩
    have hswap : ∀ m, p ≤ m → swapSlots (s.set p (destruct e x)) m p = some s' →
        ∃ m, p ≤ m ∧ ∀ q k v, q ≠ p → At e s q k v → (q ≠ m ∧ At e s' q k v) ∨ (q = m ∧ At e s' p k v) :=
      fun m hm hs => ⟨m, hm, fun q k v hq ha => swap_at h2 h3 hs q k v (h1 q k v hq ha)⟩
    cases hy : s[p + 1]? with
    | none =>
      rw [hy] at h
      cases hh : e.hi with
      | none => rw [hh] at h; cases h
      | some g =>
        rw [hh] at h
        dsimp only at h
        split at h
        · exact hdone (Option.some.inj h).symm
        · exact hswap p (Nat.le_refl _) h
    | some y =>
      rw [hy] at h
      dsimp only at h
      split at h
      · exact hdone (Option.some.inj h).symm
      · cases hl : lastScan e s.length p (s.drop (p + 1)) (p + 1) with
        | none => rw [hl] at h; cases h
        | some j =>
          rw [hl] at h
          have := lastScan_ge _ _ _ _ _ hl
          exact hswap (j - 1) (by omega) h

/-- C91: `erase` of a set may move one other element, to the slot of the erased one; it leaves all the others where they
are. -/
theorem set_erase_moves_one (e : Env K Unit) (s s' : Slots K Unit) (k : K) (n : Nat) (h : setErase e s k = some (s', n)) :
    ∃ p m, ∀ q k', k' ≠ k → At e s q k' () → (q ≠ m ∧ At e s' q k' ()) ∨ (q = m ∧ At e s' p k' () ∧ At e s p k ()) := by
  unfold setErase at h
  cases hf : find e s k with
  | none => rw [hf] at h; cases h
  | some o =>
    rw [hf] at h
    cases o with
    | none =>
      simp only [Option.some.injEq, Prod.mk.injEq] at h
      obtain ⟨rfl, -⟩ := h
      refine ⟨0, s.length, fun q k' _ ha => Or.inl ⟨?_, ha⟩⟩
      have := get_lt ha.1
      omega
    | some p =>
      dsimp only at h
      obtain ⟨⟨⟩, hp⟩ := find_at hf
      cases he : eraseGcAt e s p with
      | none => rw [he] at h; cases h
      | some t =>
        rw [he] at h
        simp only [Option.map_some, Option.some.injEq, Prod.mk.injEq] at h
        obtain ⟨rfl, -⟩ := h
        obtain ⟨m, -, hm⟩ := eraseGcAt_moves he
        refine ⟨p, m, fun q k' hk ha => ?_⟩
        have hqp : q ≠ p := by rintro rfl; exact hk (at_unique ha hp).1
        rcases hm q k' () hqp ha with h | h
        · exact Or.inl h
        · exact Or.inr ⟨h.1, h.2, hp⟩

/-- … and it does: erasing 1 moves 7, the last element of its bucket, to where the 1 was. -/
example : (setErase (setEnv none) ([0, 0, 0, 0, 1, 4, 7, 0, 2, 0, 0, 0].map fun k => ⟨k, ()⟩) 1).map (fun r => r.1.map (·.key)) =
    some [0, 0, 0, 0, 7, 4, 0, 0, 2, 0, 0, 0] := by decide +kernel

end Verif.Unordered.Stable
