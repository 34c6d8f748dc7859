import Verif.Unordered.SetProps
/-!
# C22 continued (`gc_active`, `erase(iterator)`), C49 (equality)
-/

namespace Verif.Unordered

set_option linter.unusedSectionVars false

variable {K V : Type} [DecidableEq K]

theorem gcTarget_spec (e : Env K V) (n : Nat) :
    ∀ (l : Slots K V) (i q : Nat), gcTarget e n l i = some q →
      i ≤ q ∧ ∃ x, l[q - i]? = some x ∧ x.key = e.null := by
  intro l
  induction l with
  | nil => intro i q h; cases h
  | cons x xs ih =>
    intro i q h
    rw [gcTarget] at h
    split at h
    · rename_i he
      split at h
      · cases h
      · injection h with h; subst h
        exact ⟨Nat.le_refl _, x, by simp, (isEmpty_iff e x).mp he⟩
    · obtain ⟨h1, y, hy, hy1⟩ := ih (i + 1) q h
      refine ⟨by omega, y, ?_, hy1⟩
      have : q - i = q - (i + 1) + 1 := by omega
      rw [this, List.getElem?_cons_succ]; exact hy

/-- C22: `gc_active` may move the element towards its home slot, and changes no lookup. -/
theorem gc_active_preserves (e : Env K V) (s s' : Slots K V) (hI : Inv e s) (p q : Nat) (k : K)
    (v : V) (hp : At e s p k v) (h : gcActive e s p = some (s', q)) :
    At e s' q k v ∧ index e s.length k ≤ q ∧ q ≤ p ∧ s'.length = s.length ∧ Inv e s' ∧
      ∀ m, Repr e s m → Repr e s' m := by
  have hpl := get_lt hp.1
  have hhome := hI.home p k v hp
  unfold gcActive at h
  rw [hp.1] at h
  simp only at h
  cases hg : gcTarget e (index e s.length k) ((s.take p).drop (index e s.length k))
      (index e s.length k) with
  | none =>
    rw [hg] at h
    injection h with h; injection h with h1 h2
    subst h1; subst h2
    exact ⟨hp, hhome, Nat.le_refl _, rfl, hI, fun m hm => hm⟩
  | some q' =>
    rw [hg] at h
    simp only at h
    obtain ⟨hnq, x, hx, hxn⟩ := gcTarget_spec e _ _ _ _ hg
    rw [List.getElem?_drop] at hx
    have hqe : index e s.length k + (q' - index e s.length k) = q' := by omega
    rw [hqe] at hx
    have hqp : q' < p := by
      have := get_lt hx
      rw [List.length_take] at this
      omega
    rw [List.getElem?_take_of_lt hqp] at hx
    have hql := get_lt hx
    -- the target is a mark of this bucket
    have hsp : isSparse e (index e s.length k) x = true := by
      obtain ⟨y, hy, hy1⟩ := hI.path p k v hp q' hnq hqp
      rw [hx] at hy; injection hy with hy; subst hy
      rcases hy1 with ⟨hy1, -⟩ | hy1
      · exact absurd hxn hy1
      · exact hy1
    unfold swapSlots at h
    rw [hx, hp.1] at h
    simp only [Option.map_some] at h
    injection h with h; injection h with h1 h2
    subst h2
    have gq : s'[q']? = some ⟨k, v⟩ := by
      rw [← h1, List.getElem?_set_ne (by omega), List.getElem?_set_self hql]
    have gp : s'[p]? = some x := by
      rw [← h1, List.getElem?_set_self (by rw [List.length_set]; exact hpl)]
    have go : ∀ r, r ≠ q' → r ≠ p → s'[r]? = s[r]? := by
      intro r hr1 hr2
      rw [← h1, List.getElem?_set_ne (fun h => hr2 h.symm),
        List.getElem?_set_ne (fun h => hr1 h.symm)]
    have hlen : s'.length = s.length := by rw [← h1, List.length_set, List.length_set]
    have hat : ∀ r k' v', At e s' r k' v' ↔
        (r = q' ∧ k' = k ∧ v' = v) ∨ (r ≠ q' ∧ r ≠ p ∧ At e s r k' v') := by
      intro r k' v'
      by_cases hrq : r = q'
      · subst hrq
        constructor
        · intro h'
          have := h'.key_eq gq
          injection this with a b
          exact Or.inl ⟨rfl, a.symm, b.symm⟩
        · rintro (⟨-, rfl, rfl⟩ | ⟨h', -⟩)
          · exact ⟨gq, hp.2⟩
          · exact absurd rfl h'
      · by_cases hrp : r = p
        · subst hrp
          constructor
          · intro h'
            have := h'.key_eq gp
            subst this; exact absurd hxn h'.2
          · rintro (⟨h', -⟩ | ⟨-, h', -⟩)
            · exact absurd h' hrq
            · exact absurd rfl h'
        · unfold At
          rw [go r hrq hrp]
          simp [hrq, hrp]
    have hnoq : ∀ k' v', ¬ At e s q' k' v' := by
      intro k' v' h'
      have := h'.key_eq hx
      subst this; exact h'.2 hxn
    refine ⟨⟨gq, hp.2⟩, hnq, by omega, hlen, ⟨?_, ?_, ?_⟩, ?_⟩
    · intro a b k' v' w' ha hb
      rcases (hat _ _ _).mp ha with ⟨a1, a2, -⟩ | ⟨a1, a2, a3⟩ <;>
        rcases (hat _ _ _).mp hb with ⟨b1, b2, -⟩ | ⟨b1, b2, b3⟩
      · omega
      · subst a2; exact absurd (hI.uniq _ _ _ _ _ b3 hp) b2
      · subst b2; exact absurd (hI.uniq _ _ _ _ _ a3 hp) a2
      · exact hI.uniq _ _ _ _ _ a3 b3
    · intro a k' v' ha
      rw [hlen]
      rcases (hat _ _ _).mp ha with ⟨a1, a2, -⟩ | ⟨a1, a2, a3⟩
      · subst a2; omega
      · exact hI.home a k' v' a3
    · intro a k' v' ha r hr1 hr2
      rw [hlen] at hr1 ⊢
      rcases (hat _ _ _).mp ha with ⟨a1, a2, -⟩ | ⟨a1, a2, a3⟩
      · subst a2; subst a1
        obtain ⟨y, hy, hy1⟩ := hI.path p k' v hp r hr1 (by omega)
        exact ⟨y, by rw [go r (by omega) (by omega)]; exact hy, hy1⟩
      · obtain ⟨y, hy, hy1⟩ := hI.path a k' v' a3 r hr1 hr2
        by_cases hrq : r = q'
        · subst hrq
          rw [hx] at hy; injection hy with hy; subst hy
          refine ⟨_, gq, Or.inl ⟨hp.2, ?_⟩⟩
          rcases hy1 with ⟨hy1, -⟩ | hy1
          · exact absurd hxn hy1
          · rw [← ((isSparse_iff e _ _).mp hy1).2.2, ((isSparse_iff e _ _).mp hsp).2.2]
        · by_cases hrp : r = p
          · subst hrp
            have := hp.key_eq hy
            subst this
            refine ⟨x, gp, Or.inr ?_⟩
            rcases hy1 with ⟨-, hy1⟩ | hy1
            · have hy1' : index e s.length k = index e s.length k' := hy1
              rw [← hy1']; exact hsp
            · exact absurd ((isSparse_iff e _ _).mp hy1).1 hp.2
          · exact ⟨y, by rw [go r hrq hrp]; exact hy, hy1⟩
    · intro m hm k' w
      rw [hm k' w]
      constructor
      · rintro ⟨r, hr⟩
        by_cases hrp : r = p
        · subst hrp
          have := hp.key_eq hr.1
          injection this with a b
          subst a; subst b
          exact ⟨q', (hat _ _ _).mpr (Or.inl ⟨rfl, rfl, rfl⟩)⟩
        · refine ⟨r, (hat _ _ _).mpr (Or.inr ⟨?_, hrp, hr⟩)⟩
          intro hrq; subst hrq; exact hnoq k' w hr
      · rintro ⟨r, hr⟩
        rcases (hat _ _ _).mp hr with ⟨-, a2, a3⟩ | ⟨-, -, a3⟩
        · subst a2; subst a3; exact ⟨p, hp⟩
        · exact ⟨r, a3⟩

theorem gcTarget_eq (e : Env K V) (n : Nat) : ∀ (l : Slots K V) (i : Nat),
    gcTarget e n l i =
      match (l.findIdx? fun x => isEmpty e x) with
      | none => none
      | some j => if (l[j]?.map fun x => e.lay.gc x.raw && e.lay.bkt x.raw != n) = some true then none else some (i + j)
  | [], i => rfl
  | x :: xs, i => by
    rw [gcTarget, List.findIdx?_cons]
    by_cases hx : isEmpty e x = true
    · simp [hx]
    · simp only [hx, if_false, Bool.false_eq_true]
      rw [gcTarget_eq e n xs (i + 1)]
      cases xs.findIdx? (fun x => isEmpty e x) with
      | none => rfl
      | some j =>
        simp only [Option.map_some, List.getElem?_cons_succ]
        rw [show i + 1 + j = i + (j + 1) by omega]

/-- C22: what `gc_active` does to an element, whatever the table looks like.  If a slot between the element's bucket and
the element is empty, the first such slot takes the element and the element's slot takes its mark, unless that mark was left
by another bucket; in every other case nothing changes. -/
theorem gc_active_exact (e : Env K V) (s : Slots K V) (p : Nat) (x : Slot K V) (hx : s[p]? = some x) :
    (∀ (r : Nat) y, index e s.length x.key ≤ r → r < p → s[r]? = some y → isEmpty e y = true →
      (∀ (t : Nat) z, index e s.length x.key ≤ t → t < r → s[t]? = some z → isEmpty e z = false) →
      gcActive e s p =
        if e.lay.gc y.raw = true ∧ e.lay.bkt y.raw ≠ index e s.length x.key then some (s, p)
        else some ((s.set r x).set p y, r)) ∧
    ((∀ (t : Nat) z, index e s.length x.key ≤ t → t < p → s[t]? = some z → isEmpty e z = false) →
      gcActive e s p = some (s, p)) := by
  have hp := get_lt hx
  have hget : ∀ j, j < p - index e s.length x.key →
      ((s.take p).drop (index e s.length x.key))[j]? = s[index e s.length x.key + j]? := by
    intro j hj
    rw [List.getElem?_drop, List.getElem?_take_of_lt (by omega)]
  constructor
  · intro r y h1 h2 hy hye hb
    have hf : ((s.take p).drop (index e s.length x.key)).findIdx? (fun z => isEmpty e z) =
        some (r - index e s.length x.key) := by
      rw [List.findIdx?_eq_some_iff_getElem]
      have hlen : r - index e s.length x.key < ((s.take p).drop (index e s.length x.key)).length := by
        simp; omega
      refine ⟨hlen, ?_, ?_⟩
      · have := hget (r - index e s.length x.key) (by omega)
        rw [show index e s.length x.key + (r - index e s.length x.key) = r by omega, hy,
          List.getElem?_eq_getElem hlen] at this
        injection this with this
        rw [this]; exact hye
      · intro j hj
        have hjl : j < ((s.take p).drop (index e s.length x.key)).length := by omega
        have := hget j (by omega)
        rw [List.getElem?_eq_getElem hjl] at this
        rw [hb (index e s.length x.key + j) _ (by omega) (by omega) this.symm]
        decide
    unfold gcActive
    rw [hx]
    simp only
    rw [gcTarget_eq, hf]
    simp only [hget _ (show r - index e s.length x.key < p - index e s.length x.key by omega)]
    rw [show index e s.length x.key + (r - index e s.length x.key) = r by omega, hy]
    by_cases hc : e.lay.gc y.raw = true ∧ e.lay.bkt y.raw ≠ index e s.length x.key
    · rw [if_pos hc, if_pos (by simp [hc.1, hc.2])]
    · rw [if_neg hc, if_neg (by simpa using hc)]
      simp [swapSlots, hy, hx]
  · intro hb
    have hf : ((s.take p).drop (index e s.length x.key)).findIdx? (fun z => isEmpty e z) = none := by
      rw [List.findIdx?_eq_none_iff]
      intro z hz
      obtain ⟨j, hj, rfl⟩ := List.mem_iff_getElem.mp hz
      have hj' : j < p - index e s.length x.key := by simp at hj; omega
      have := hget j hj'
      rw [List.getElem?_eq_getElem hj] at this
      exact hb (index e s.length x.key + j) _ (by omega) (by omega) this.symm
    unfold gcActive
    rw [hx]
    simp only
    rw [gcTarget_eq, hf]

/-- `gc_active` does find the room: after it, no erasure mark precedes the element. -/
theorem gc_active_moves :
    gcActive (intEnv none none) [⟨0, 1⟩, ⟨4, 40⟩, ⟨6, 60⟩, ⟨0, 0⟩] 2 =
      some ([⟨6, 60⟩, ⟨4, 40⟩, ⟨0, 1⟩, ⟨0, 0⟩], 0) := by decide +kernel

theorem skipEmpty_spec (e : Env K V) (s : Slots K V) :
    ∀ (l : Slots K V) (i q : Nat), i ≤ s.length → s.drop i = l → skipEmpty e l i = some q →
      i ≤ q ∧ q ≤ s.length ∧ (∀ r k v, i ≤ r → r < q → ¬ At e s r k v) ∧
      (q < s.length → ∃ k v, At e s q k v) := by
  intro l
  induction l with
  | nil =>
    intro i q hi hl h
    rw [List.drop_eq_nil_iff] at hl
    rw [skipEmpty] at h
    cases hh : e.hi with
    | none => rw [hh] at h; cases h
    | some x =>
      rw [hh] at h
      injection h with h; subst h
      exact ⟨Nat.le_refl _, hi, fun r k v h1 h2 => by omega, fun h => by omega⟩
  | cons x xs ih =>
    intro i q hi hl h
    obtain ⟨hx, hxs⟩ := drop_cons hl
    have hlt := get_lt hx
    rw [skipEmpty] at h
    split at h
    · rename_i he
      obtain ⟨h1, h2, h3, h4⟩ := ih (i + 1) q (by omega) hxs h
      refine ⟨by omega, h2, ?_, h4⟩
      intro r k v hr1 hr2 hr
      by_cases hri : r = i
      · subst hri
        have := hr.key_eq hx
        subst this; exact hr.2 ((isEmpty_iff e _).mp he)
      · exact h3 r k v (by omega) hr2 hr
    · rename_i he
      injection h with h; subst h
      exact ⟨Nat.le_refl _, hi, fun r k v h1 h2 => by omega,
        fun _ => ⟨x.key, x.raw, hx, by simpa [isEmpty] using he⟩⟩

/-- C22: erasing through an iterator removes exactly that element and returns an iterator to the next
element in iteration order (`end()` if there is none), when defined and the mark fits. -/
theorem erase_iterator_partial (e : Env K V) (hl : e.lay.Lawful) (s s' : Slots K V)
    (hI : Inv e s) (p q : Nat) (k : K) (v : V) (hp : At e s p k v)
    (h64 : index e s.length k < 64 ∨ LastOfBucket e s p k) (h : eraseIt e s p = some (s', q)) :
    (∀ m, Repr e s m → Repr e s' (Spec.upd m k none)) ∧ Inv e s' ∧ s'.length = s.length ∧
      p < q ∧ q ≤ s'.length ∧ (∀ r k' v', p < r → r < q → ¬ At e s' r k' v') ∧
      (q < s'.length → ∃ k' v', At e s' q k' v') := by
  have hpl := get_lt hp.1
  unfold eraseIt at h
  rw [hp.1] at h
  simp only at h
  cases he : eraseAt e s p (index e s.length k) with
  | none => rw [he] at h; cases h
  | some t =>
    rw [he] at h
    simp only at h
    cases hsk : skipEmpty e (t.drop (p + 1)) (p + 1) with
    | none => rw [hsk] at h; cases h
    | some q' =>
      rw [hsk] at h
      simp only [Option.map_some] at h
      injection h with h; injection h with h1 h2
      subst h1; subst h2
      obtain ⟨a, b, c⟩ := eraseAt_inv hl hI hp h64 he
      obtain ⟨g1, g2, g3, g4⟩ := skipEmpty_spec e t _ (p + 1) q' (by omega) rfl hsk
      exact ⟨fun m hm => repr_erase hI hm hp c, b, a, by omega, g2,
        fun r k' v' hr1 hr2 => g3 r k' v' (by omega) hr2, g4⟩

example : eraseIt (intEnv (some ⟨0, 0⟩) none) [⟨2, 20⟩, ⟨4, 40⟩, ⟨0, 0⟩, ⟨0, 0⟩, ⟨1, 10⟩, ⟨0, 0⟩, ⟨0, 0⟩, ⟨0, 0⟩] 1 =
    some ([⟨2, 20⟩, ⟨0, 40⟩, ⟨0, 0⟩, ⟨0, 0⟩, ⟨1, 10⟩, ⟨0, 0⟩, ⟨0, 0⟩, ⟨0, 0⟩], 4) := by decide +kernel

/-- C22 is violated: erasing the last element through an iterator looks for the next one behind the
array. -/
theorem erase_iterator_last_undefined (e : Env K V) (hl : e.lay.Lawful) (s : Slots K V)
    (hI : Inv e s) (p : Nat) (k : K) (v : V) (hp : At e s p k v)
    (h64 : index e s.length k < 64 ∨ LastOfBucket e s p k) (hhi : e.hi = none)
    (hlast : ∀ r k' v', At e s r k' v' → r ≤ p) : eraseIt e s p = none := by
  have hpl := get_lt hp.1
  unfold eraseIt
  rw [hp.1]
  simp only
  cases he : eraseAt e s p (index e s.length k) with
  | none => rfl
  | some t =>
    simp only
    obtain ⟨a, b, c⟩ := eraseAt_inv hl hI hp h64 he
    have : ∀ (l : Slots K V) (i : Nat), p < i → t.drop i = l → skipEmpty e l i = none := by
      intro l
      induction l with
      | nil => intro i _ _; rw [skipEmpty, hhi]
      | cons x xs ih =>
        intro i hi hl
        obtain ⟨hx, hxs⟩ := drop_cons hl
        rw [skipEmpty, if_pos]
        · exact ih (i + 1) (by omega) hxs
        · rw [isEmpty_iff]
          by_cases hxn : x.key = e.null
          · exact hxn
          · have := hlast i x.key x.raw ((c i x.key x.raw).mp ⟨hx, hxn⟩).1
            omega
    rw [this _ (p + 1) (by omega) rfl]
    rfl

example : eraseIt (intEnv (some ⟨0, 0⟩) none) [⟨2, 20⟩, ⟨0, 0⟩, ⟨0, 0⟩, ⟨0, 0⟩] 0 = none := by
  decide +kernel

/-! ## C49: equality -/

/-- The keys in an array. -/
def keysOf (e : Env K V) (s : Slots K V) : List K := (s.filter fun x => !isEmpty e x).map (·.key)

theorem iterKeys_eq (e : Env K V) (s : Slots K V) (x : Slot K V) (hhi : e.hi = some x) :
    iterKeys e s = some (keysOf e s) := by
  have hdef : ∀ (l : Slots K V) (i : Nat), ∃ r, iterScan e l i = some r := by
    intro l
    induction l with
    | nil => intro i; exact ⟨[], by rw [iterScan, hhi]⟩
    | cons y ys ih =>
      intro i
      obtain ⟨r, hr⟩ := ih (i + 1)
      rw [iterScan]
      split
      · exact ⟨r, hr⟩
      · exact ⟨i :: r, by rw [hr]; rfl⟩
  obtain ⟨r, hr'⟩ := hdef s 0
  obtain ⟨a, -⟩ := iterScan_spec e s s 0 r rfl hr'
  unfold iterKeys keysOf; rw [hr', Option.map_some, a]

/-- C49: where the iteration is defined, `==` is true exactly when both containers hold the same keys
in the same order of slots. -/
theorem equality_iff_slot_order (e : Env K V) (s t : Slots K V) (x : Slot K V)
    (hhi : e.hi = some x) : equal e s t = some (decide (keysOf e s = keysOf e t)) := by
  unfold equal
  have hsz : ∀ u : Slots K V, size e u = (keysOf e u).length := by
    intro u; unfold size keysOf; rw [List.length_map]
  rw [hsz, hsz, iterKeys_eq e s x hhi, iterKeys_eq e t x hhi]
  split
  · rename_i h
    have : keysOf e s ≠ keysOf e t := fun h' => h (by rw [h'])
    simp [this]
  · rfl

/-- C49, the half that holds: containers that compare equal hold the same keys. -/
theorem equal_same_keys_partial (e : Env K V) (s t : Slots K V) (m m' : K → Option V)
    (hm : Repr e s m) (hm' : Repr e t m') (x : Slot K V) (hhi : e.hi = some x)
    (h : equal e s t = some true) (k : K) : m k ≠ none ↔ m' k ≠ none := by
  rw [equality_iff_slot_order e s t x hhi] at h
  injection h with h
  have h' := of_decide_eq_true h
  rw [repr_ne_none hm, repr_ne_none hm', ← mem_keys, ← mem_keys]
  show k ∈ keysOf e s ↔ k ∈ keysOf e t
  rw [h']

/-- C49 is violated: the same keys inserted in another order compare unequal. -/
theorem equal_depends_on_order :
    let e := intEnv none (some ⟨0, 0⟩)
    ∃ s t os ot, run e (fresh e 8) [.insert 2 1, .insert 4 1] = some (s, os) ∧
      run e (fresh e 8) [.insert 4 1, .insert 2 1] = some (t, ot) ∧
      (∀ k, lookup e s k = lookup e t k) ∧ equal e s t = some false := by
  refine ⟨[⟨2, 1⟩, ⟨4, 1⟩, ⟨0, 0⟩, ⟨0, 0⟩, ⟨0, 0⟩, ⟨0, 0⟩, ⟨0, 0⟩, ⟨0, 0⟩],
    [⟨4, 1⟩, ⟨2, 1⟩, ⟨0, 0⟩, ⟨0, 0⟩, ⟨0, 0⟩, ⟨0, 0⟩, ⟨0, 0⟩, ⟨0, 0⟩],
    [.inserted 1, .inserted 1], [.inserted 1, .inserted 1],
    by decide +kernel, by decide +kernel, ?_, by decide +kernel⟩
  have hn : ∀ (a b : BitVec 32) (h : a ≠ 0 ∧ b ≠ 0 ∧ a ≠ b ∧
      index (intEnv none (some ⟨0, 0⟩)) 8 a = 0 ∧ index (intEnv none (some ⟨0, 0⟩)) 8 b = 0)
      (k : BitVec 32), lookup (intEnv none (some ⟨0, 0⟩))
        [⟨a, 1⟩, ⟨b, 1⟩, ⟨0, 0⟩, ⟨0, 0⟩, ⟨0, 0⟩, ⟨0, 0⟩, ⟨0, 0⟩, ⟨0, 0⟩] k =
        some (if k = a ∨ k = b then some 1 else none) := by
    rintro a b ⟨ha, hb, hab, hia, hib⟩ k
    have hA : At (intEnv none (some ⟨0, 0⟩))
        [⟨a, 1⟩, ⟨b, 1⟩, ⟨0, 0⟩, ⟨0, 0⟩, ⟨0, 0⟩, ⟨0, 0⟩, ⟨0, 0⟩, ⟨0, 0⟩] 0 a 1 := ⟨rfl, ha⟩
    have hB : At (intEnv none (some ⟨0, 0⟩))
        [⟨a, 1⟩, ⟨b, 1⟩, ⟨0, 0⟩, ⟨0, 0⟩, ⟨0, 0⟩, ⟨0, 0⟩, ⟨0, 0⟩, ⟨0, 0⟩] 1 b 1 := ⟨rfl, hb⟩
    have hall : ∀ p k' v', At (intEnv none (some ⟨0, 0⟩))
        [⟨a, 1⟩, ⟨b, 1⟩, ⟨0, 0⟩, ⟨0, 0⟩, ⟨0, 0⟩, ⟨0, 0⟩, ⟨0, 0⟩, ⟨0, 0⟩] p k' v' →
        (p = 0 ∧ k' = a) ∨ (p = 1 ∧ k' = b) := by
      rintro p k' v' ⟨h1, h2⟩
      rcases p with _ | _ | p
      · injection h1 with h1; injection h1 with h1 _; exact Or.inl ⟨rfl, h1.symm⟩
      · injection h1 with h1; injection h1 with h1 _; exact Or.inr ⟨rfl, h1.symm⟩
      · exfalso
        have hz : ∀ q : Nat, ([⟨0, 0⟩, ⟨0, 0⟩, ⟨0, 0⟩, ⟨0, 0⟩, ⟨0, 0⟩, ⟨0, 0⟩] :
            Slots (BitVec 32) (BitVec 32))[q]? = some ⟨k', v'⟩ → k' = 0 := by
          intro q hq
          have hm := List.mem_of_getElem? hq
          simp at hm
          exact hm.1
        exact h2 (hz p h1)
    have hI : Inv (intEnv none (some ⟨0, 0⟩))
        [⟨a, 1⟩, ⟨b, 1⟩, ⟨0, 0⟩, ⟨0, 0⟩, ⟨0, 0⟩, ⟨0, 0⟩, ⟨0, 0⟩, ⟨0, 0⟩] := by
      refine ⟨?_, ?_, ?_⟩
      · intro p q k' v w hp hq
        rcases hall _ _ _ hp with ⟨rfl, rfl⟩ | ⟨rfl, rfl⟩ <;>
          rcases hall _ _ _ hq with ⟨rfl, h⟩ | ⟨rfl, h⟩
        · rfl
        · exact absurd h hab
        · exact absurd h.symm hab
        · rfl
      · intro p k' v hp
        rcases hall _ _ _ hp with ⟨rfl, rfl⟩ | ⟨rfl, rfl⟩
        · exact Nat.le_of_eq hia
        · exact Nat.le_trans (Nat.le_of_eq hib) (Nat.zero_le _)
      · intro p k' v hp q _ hq2
        rcases hall _ _ _ hp with ⟨rfl, rfl⟩ | ⟨rfl, rfl⟩
        · omega
        · have : q = 0 := by omega
          subst this
          exact ⟨_, rfl, Or.inl ⟨ha, hia.trans hib.symm⟩⟩
    have hs : 0 < ([⟨a, 1⟩, ⟨b, 1⟩, ⟨0, 0⟩, ⟨0, 0⟩, ⟨0, 0⟩, ⟨0, 0⟩, ⟨0, 0⟩, ⟨0, 0⟩] :
        Slots (BitVec 32) (BitVec 32)).length := Nat.succ_pos _
    unfold lookup
    by_cases h1 : k = a
    · subst h1; rw [find_complete hI hs hA]; simp
    · by_cases h2 : k = b
      · subst h2; rw [find_complete hI hs hB]; simp
      · have hno : ∀ p v, ¬ At (intEnv none (some ⟨0, 0⟩))
            [⟨a, 1⟩, ⟨b, 1⟩, ⟨0, 0⟩, ⟨0, 0⟩, ⟨0, 0⟩, ⟨0, 0⟩, ⟨0, 0⟩, ⟨0, 0⟩] p k v := by
          intro p v hp
          rcases hall _ _ _ hp with ⟨-, h⟩ | ⟨-, h⟩
          · exact h1 h
          · exact h2 h
        rcases find_absent hs hno with h | h
        · rw [h]; simp [h1, h2]
        · exfalso
          by_cases hk : k = 0
          · have h' : find (intEnv none (some ⟨0, 0⟩))
                [⟨a, 1⟩, ⟨b, 1⟩, ⟨0, 0⟩, ⟨0, 0⟩, ⟨0, 0⟩, ⟨0, 0⟩, ⟨0, 0⟩, ⟨0, 0⟩] 0 = some none :=
              (null_key_refused (intEnv none (some ⟨0, 0⟩)) _ 0).2
            rw [hk, h'] at h; cases h
          · obtain ⟨j, -, -, -, h4⟩ := find_cases (intEnv none (some ⟨0, 0⟩)) _ k hs hk
            rcases h4 with ⟨-, h5⟩ | ⟨y, -, -, -, h5⟩ | ⟨y, -, -, -, h5⟩ | ⟨y, -, -, h5⟩
            · rw [h] at h5; cases h5
            all_goals rw [h] at h5; cases h5
  intro k
  rw [hn 2 4 (by decide +kernel) k, hn 4 2 (by decide +kernel) k]
  simp only [or_comm]

/-- C49 is violated for maps: **Violation.** the mapped values are not compared; whatever they are, containers with the same
keys in the same slots compare equal. -/
theorem equal_ignores_values (e : Env K V) (s t : Slots K V) (x : Slot K V) (hhi : e.hi = some x)
    (h : s.map (·.key) = t.map (·.key)) : equal e s t = some true := by
  have hk : ∀ l : Slots K V, keysOf e l = (l.map (·.key)).filter fun k => !decide (k = e.null) := by
    intro l
    unfold keysOf isEmpty
    rw [List.filter_map]
    rfl
  rw [equality_iff_slot_order e s t x hhi, hk, hk, h]
  simp

example :
    let e := intEnv none (some ⟨0, 0⟩)
    ∃ s t os ot, run e (fresh e 8) [.insert 2 1] = some (s, os) ∧
      run e (fresh e 8) [.insert 2 7] = some (t, ot) ∧
      lookup e s 2 = some (some 1) ∧ lookup e t 2 = some (some 7) ∧ equal e s t = some true := by
  exact ⟨[⟨2, 1⟩, ⟨0, 0⟩, ⟨0, 0⟩, ⟨0, 0⟩, ⟨0, 0⟩, ⟨0, 0⟩, ⟨0, 0⟩, ⟨0, 0⟩],
    [⟨2, 7⟩, ⟨0, 0⟩, ⟨0, 0⟩, ⟨0, 0⟩, ⟨0, 0⟩, ⟨0, 0⟩, ⟨0, 0⟩, ⟨0, 0⟩],
    [.inserted 1], [.inserted 7], by decide +kernel⟩

/-- C49 is violated: comparing two containers of the same size always reads the memory behind the
array. -/
theorem equality_undefined (e : Env K V) (hhi : e.hi = none) (s t : Slots K V)
    (h : size e s = size e t) : equal e s t = none := by
  unfold equal iterKeys
  rw [if_neg (by simp [h]), iterScan_none e hhi s 0]
  rfl

/-! ## Bucket sizes -/

/-- C21: `bucket_size(n)`, when it is defined, is the number of present keys that hash to bucket `n`;
over every history of insertions, assignments and whole clears. -/
theorem bucket_size_partial (e : Env K V) (hl : e.lay.Lawful) (raws : List V)
    (hr : raws ≠ []) (ops : List (Op K V)) (hops : ∀ o ∈ ops, o.erases = false) (s : Slots K V)
    (outs : List (Out V)) (h : run e (init e raws) ops = some (s, outs)) :
    ∃ m, Spec.Run (fun _ => none) ops outs m ∧ s.length = raws.length ∧
      ∀ n c, bucketSize e s n = some c →
        Spec.Card (fun k => if index e raws.length k = n then m k else none) c := by
  have hn := init_none e raws
  have hlen : (init e raws).length = raws.length := by simp only [init, List.length_map]
  have hs : 0 < (init e raws).length := by
    rw [hlen]; exact List.length_pos_iff.mpr hr
  obtain ⟨m, h1, hI, hm, hle⟩ := run_refines hl ops _ s _ outs (dense_of_none hn).inv
    (repr_empty hn) hs (cleanRun_of_dense ops _ _ (dense_of_none hn) (repr_empty hn) hs hops) h
  have hle : s.length = raws.length := hle.trans hlen
  refine ⟨m, h1, hle, fun n c hc => ?_⟩
  rw [← hle]
  unfold bucketSize at hc
  cases hb : bucketScan e s.length n (s.drop n) n with
  | none => rw [hb] at hc; cases hc
  | some l =>
    rw [hb] at hc
    injection hc with hc
    obtain ⟨hnd, hmem⟩ := bucketScan_spec hI.placed n _ _ l (Nat.le_refl _) rfl hb
    refine ⟨l.map fun p => ((s[p]?).map (·.key)).getD e.null, ?_, ?_, by rw [List.length_map, hc]⟩
    · rw [List.nodup_iff_pairwise_ne, List.pairwise_map]
      rw [List.nodup_iff_pairwise_ne] at hnd
      refine (List.Pairwise.and_mem.mp hnd).imp ?_
      rintro p q ⟨hp, hq, hpq⟩ hk
      obtain ⟨-, k, v, h1, -⟩ := (hmem p).mp hp
      obtain ⟨-, k', v', h2, -⟩ := (hmem q).mp hq
      rw [h1.1, h2.1] at hk
      simp only [Option.map_some, Option.getD_some] at hk
      subst hk
      exact hpq (hI.uniq p q k v v' h1 h2)
    · intro k
      rw [List.mem_map]
      constructor
      · rintro ⟨p, hp, hk⟩
        obtain ⟨-, k', v, h1, h2⟩ := (hmem p).mp hp
        rw [h1.1] at hk
        simp only [Option.map_some, Option.getD_some] at hk
        subst hk
        show (if index e s.length k' = n then m k' else none) ≠ none
        rw [if_pos h2, (hm k' v).mpr ⟨p, h1⟩]
        exact nofun
      · intro (hk : (if index e s.length k = n then m k else none) ≠ none)
        by_cases hix : index e s.length k = n
        · rw [if_pos hix] at hk
          cases hv : m k with
          | none => exact absurd hv hk
          | some v =>
            obtain ⟨p, hp⟩ := (hm k v).mp hv
            refine ⟨p, (hmem p).mpr ⟨?_, k, v, hp, hix⟩, by rw [hp.1]; rfl⟩
            rw [← hix]; exact hI.home p k v hp
        · rw [if_neg hix] at hk; exact absurd rfl hk

example : (run (intEnv none none) (fresh (intEnv none none) 8)
      [.insert 2 20, .insert 4 40, .insert 1 10]).map
    (fun r => [bucketSize (intEnv none none) r.1 0, bucketSize (intEnv none none) r.1 4]) =
      some [some 2, some 1] := by decide +kernel

/-! ## What becomes of an erased slot -/

/-- C22, space: erasing an element with nothing behind it (the end of the array, or a slot that is free) frees its slot for
every key; with something behind it, the slot stays reserved for keys of the same bucket (numbers modulo 64). -/
theorem erase_reclaims (e : Env K V) (hl : e.lay.Lawful) (s s' : Slots K V) (k : K) (p : Nat) (hs : 0 < s.length)
    (hn : index e s.length k ≤ p) (hf : find e s k = some (some p)) (he : erase e s k = some (s', 1)) :
    ∃ x, s'[p]? = some x ∧ x.key = e.null ∧
      ((s[p + 1]? = none ∨ ∃ y, s[p + 1]? = some y ∧ y.key = e.null ∧ e.lay.gc y.raw = false) → e.lay.gc x.raw = false) ∧
      ((∃ y, s[p + 1]? = some y ∧ ¬ (y.key = e.null ∧ e.lay.gc y.raw = false)) →
        e.lay.gc x.raw = true ∧ e.lay.bkt x.raw = index e s.length k % 64) := by
  obtain ⟨v, hv⟩ := find_sound e s k hs p hf
  have hlt := (List.getElem?_eq_some_iff.mp hv.1).1
  simp only [erase, hf, eraseAt, hv.1] at he
  have hnf : nextFree e s (p + 1) = true ↔ (s[p + 1]? = none ∨ ∃ y, s[p + 1]? = some y ∧ y.key = e.null ∧ e.lay.gc y.raw = false) := by
    constructor
    · exact nextFree_cases
    · rintro (h | ⟨y, h, h1, h2⟩)
      · simp [nextFree, h]
      · simp [nextFree, h, isNullNotSparse, isEmpty, h1, h2]
  by_cases hc : nextFree e s (p + 1) = true
  · rw [if_pos hc] at he
    simp only [Option.map_eq_some_iff, Prod.mk.injEq, and_true] at he
    obtain ⟨t, ht, rfl⟩ := he
    obtain ⟨-, hq⟩ := prune_spec e _ p _ _ hn ht
    rcases hq p with h | ⟨-, h, -⟩
    · rw [List.getElem?_set_self hlt] at h
      refine ⟨_, h, rfl, fun _ => hl.gc_unmark _, ?_⟩
      rintro ⟨y, hy, hny⟩
      rcases hnf.mp hc with h | ⟨z, hz, h1, h2⟩
      · rw [hy] at h; cases h
      · rw [hy] at hz; cases hz; exact absurd ⟨h1, h2⟩ hny
    · omega
  · rw [if_neg hc] at he
    simp only [Option.map_eq_some_iff, Prod.mk.injEq, and_true, Option.some.injEq] at he
    obtain ⟨t, rfl, rfl⟩ := he
    refine ⟨_, List.getElem?_set_self hlt, rfl, fun h => absurd (hnf.mpr h) hc, fun _ => ⟨hl.gc_mark _ _, hl.bkt_mark _ _⟩⟩

example : erase (intEnv (some ⟨0, 0⟩) none) [⟨2, 20⟩, ⟨4, 40⟩, ⟨0, 0⟩, ⟨0, 0⟩, ⟨1, 10⟩, ⟨0, 0⟩, ⟨0, 0⟩, ⟨0, 0⟩] 2 =
    some ([⟨0, 1⟩, ⟨4, 40⟩, ⟨0, 0⟩, ⟨0, 0⟩, ⟨1, 10⟩, ⟨0, 0⟩, ⟨0, 0⟩, ⟨0, 0⟩], 1) := by decide +kernel

end Verif.Unordered
