import Verif.Unordered.Lemmas
/-!
# Unordered containers: erasing, counting and iterating
-/

namespace Verif.Unordered

set_option linter.unusedSectionVars false

variable {K V : Type} [DecidableEq K]

theorem At.key_eq {e : Env K V} {s : Slots K V} {p : Nat} {k : K} {v : V} {x : Slot K V}
    (h : At e s p k v) (hx : s[p]? = some x) : x = ⟨k, v⟩ := by
  have := hx.symm.trans h.1
  injection this

/-! ## prune -/

/-- What pruning may change: marks of bucket `n` in an unbroken row that ends just below `pos`. -/
theorem prune_spec (e : Env K V) (n : Nat) :
    ∀ (pos : Nat) (s s' : Slots K V), n ≤ pos → prune e n s pos = some s' →
    s'.length = s.length ∧ ∀ q, s'[q]? = s[q]? ∨
      (n ≤ q ∧ q < pos ∧ (∃ x, s[q]? = some x ∧ s'[q]? = some ⟨x.key, e.lay.unmark x.raw⟩) ∧
        ∀ r, q ≤ r → r < pos → ∃ y, s[r]? = some y ∧ isSparse e n y = true) := by
  intro pos
  induction pos with
  | zero =>
    intro s s' hn h
    rw [prune] at h
    cases hlo : e.lo with
    | none => rw [hlo] at h; cases h
    | some x =>
      rw [hlo] at h
      simp only at h
      split at h
      · cases h
      · injection h with h; subst h; exact ⟨rfl, fun q => Or.inl rfl⟩
  | succ p ih =>
    intro s s' hn h
    rw [prune] at h
    cases hp : s[p]? with
    | none => rw [hp] at h; cases h
    | some x =>
      rw [hp] at h
      simp only at h
      split at h
      · rename_i hc
        rw [Bool.and_eq_true] at hc
        obtain ⟨hsp, hne⟩ := hc
        have hne' : p + 1 ≠ n := by simpa using hne
        have hpl := get_lt hp
        obtain ⟨hlen, hq⟩ := ih _ s' (by omega) h
        refine ⟨by rw [hlen, List.length_set], ?_⟩
        intro q
        by_cases hqp : q = p
        · subst hqp
          right
          refine ⟨by omega, by omega, ⟨x, hp, ?_⟩, ?_⟩
          · rcases hq q with h' | ⟨-, h', -⟩
            · rw [h', List.getElem?_set_self hpl]
            · omega
          · intro r hr1 hr2
            have : r = q := by omega
            subst this; exact ⟨x, hp, hsp⟩
        · rcases hq q with h' | ⟨h1, h2, ⟨y, hy, hy'⟩, h3⟩
          · left; rw [h', List.getElem?_set_ne (by omega)]
          · right
            rw [List.getElem?_set_ne (by omega)] at hy
            refine ⟨h1, by omega, ⟨y, hy, hy'⟩, ?_⟩
            intro r hr1 hr2
            by_cases hrp : r = p
            · subst hrp; exact ⟨x, hp, hsp⟩
            · obtain ⟨z, hz, hz1⟩ := h3 r hr1 (by omega)
              rw [List.getElem?_set_ne (by omega)] at hz
              exact ⟨z, hz, hz1⟩
      · injection h with h; subst h; exact ⟨rfl, fun q => Or.inl rfl⟩

/-- Pruning is defined once the slot in front of the array may be read. -/
theorem prune_defined (e : Env K V) (n : Nat) (hlo : e.lo.isSome = true) :
    ∀ (pos : Nat) (s : Slots K V), n ≤ pos → pos ≤ s.length → (prune e n s pos).isSome = true := by
  intro pos
  induction pos with
  | zero =>
    intro s hn _
    rw [prune]
    cases h : e.lo with
    | none => rw [h] at hlo; cases hlo
    | some x =>
      have : n = 0 := by omega
      subst this
      simp
  | succ p ih =>
    intro s hn hle
    have hp : p < s.length := by omega
    rw [prune, List.getElem?_eq_getElem hp]
    simp only
    split
    · rename_i hc
      rw [Bool.and_eq_true] at hc
      have hne' : p + 1 ≠ n := by simpa using hc.2
      exact ih _ (by omega) (by rw [List.length_set]; omega)
    · rfl

theorem nextFree_cases {e : Env K V} {s : Slots K V} {p : Nat} (h : nextFree e s p = true) :
    s[p]? = none ∨ ∃ y, s[p]? = some y ∧ y.key = e.null ∧ e.lay.gc y.raw = false := by
  unfold nextFree at h
  cases hp : s[p]? with
  | none => exact Or.inl rfl
  | some y =>
    rw [hp] at h
    simp only [isNullNotSparse, Bool.and_eq_true, Bool.not_eq_true', isEmpty_iff] at h
    exact Or.inr ⟨y, rfl, h.1, h.2⟩

/-- If the slot behind an element of bucket `n` is free, no element of that bucket lies further
back. -/
theorem run_stops {e : Env K V} {s : Slots K V} (hI : Placed e s) {p : Nat} {k : K} {v : V}
    (hp : At e s p k v) (hf : nextFree e s (p + 1) = true) {p' : Nat} {k' : K} {v' : V}
    (hp' : At e s p' k' v') (hk : index e s.length k' = index e s.length k) : p' ≤ p := by
  rcases Nat.lt_or_ge p p' with hlt | hge
  · exfalso
    have hpl := get_lt hp'.1
    have hh := hI.home p k v hp
    rcases nextFree_cases hf with h | ⟨y, hy, hy1, hy2⟩
    · have := List.getElem?_eq_none_iff.mp h
      omega
    · by_cases hq : p + 1 = p'
      · subst hq
        have := hp'.key_eq hy
        subst this; exact hp'.2 hy1
      · obtain ⟨z, hz, hz1⟩ := hI.path p' k' v' hp' (p + 1) (by omega) (by omega)
        rw [hy] at hz; injection hz with hz; subst hz
        rcases hz1 with ⟨hz1, -⟩ | hz1
        · exact hz1 hy1
        · rw [((isSparse_iff e _ _).mp hz1).2.1] at hy2; cases hy2
  · exact hge

/-- Erasing the element in slot `p`. -/
theorem eraseAt_placed {e : Env K V} (hl : e.lay.Lawful) {s s' : Slots K V} (hI : Placed e s) {p : Nat}
    {k : K} {v : V} (hp : At e s p k v) (h64 : index e s.length k < 64 ∨ LastOfBucket e s p k)
    (h : eraseAt e s p (index e s.length k) = some s') :
    s'.length = s.length ∧ Placed e s' ∧
      ∀ q k' v', At e s' q k' v' ↔ At e s q k' v' ∧ q ≠ p := by
  have hpl := get_lt hp.1
  have hh := hI.home p k v hp
  unfold eraseAt at h
  rw [hp.1] at h
  simp only at h
  by_cases hf : nextFree e s (p + 1) = true
  · rw [if_pos hf] at h
    obtain ⟨hlen, hq⟩ := prune_spec e _ p _ s' hh h
    rw [List.length_set] at hlen
    have hsp : s'[p]? = some ⟨e.null, e.lay.unmark v⟩ := by
      rcases hq p with h' | ⟨-, h', -⟩
      · rw [h', List.getElem?_set_self hpl]; rfl
      · omega
    -- outside p: unchanged, or a mark of our bucket was removed
    have hother : ∀ q, q ≠ p → s'[q]? = s[q]? ∨
        (index e s.length k ≤ q ∧ q < p ∧ (∃ x, s[q]? = some x ∧
          s'[q]? = some ⟨x.key, e.lay.unmark x.raw⟩) ∧
          ∀ r, q ≤ r → r < p → ∃ y, s[r]? = some y ∧
            isSparse e (index e s.length k) y = true) := by
      intro q hqp
      rcases hq q with h' | ⟨h1, h2, ⟨x, hx, hx'⟩, h3⟩
      · left; rw [h', List.getElem?_set_ne (fun h => hqp h.symm)]
      · right
        rw [List.getElem?_set_ne (by omega)] at hx
        refine ⟨h1, h2, ⟨x, hx, hx'⟩, ?_⟩
        intro r hr1 hr2
        obtain ⟨y, hy, hy1⟩ := h3 r hr1 hr2
        rw [List.getElem?_set_ne (by omega)] at hy
        exact ⟨y, hy, hy1⟩
    have hat : ∀ q k' v', At e s' q k' v' ↔ At e s q k' v' ∧ q ≠ p := by
      intro q k' v'
      by_cases hqp : q = p
      · subst hqp
        constructor
        · intro h'
          have := h'.key_eq hsp
          injection this with h1 h2
          exact absurd h1.symm h'.2
        · rintro ⟨-, h'⟩; exact absurd rfl h'
      · rcases hother q hqp with h' | ⟨h1, h2, ⟨x, hx, hx'⟩, h3⟩
        · unfold At; rw [h']; simp [hqp]
        · obtain ⟨y, hy, hy1⟩ := h3 q (Nat.le_refl _) h2
          rw [hx] at hy; injection hy with hy; subst hy
          have hnull := ((isSparse_iff e _ _).mp hy1).1
          constructor
          · intro h'
            have := h'.key_eq hx'
            injection this with h1 h2
            exact absurd (h1.symm.trans hnull) h'.2
          · rintro ⟨h', -⟩
            have := h'.key_eq hx
            subst this
            exact absurd hnull h'.2
    refine ⟨hlen, ⟨?_, ?_⟩, hat⟩
    · intro a k' v' ha
      rw [hlen]; exact hI.home a k' v' ((hat _ _ _).mp ha).1
    · intro a k' v' ha q hq1 hq2
      rw [hlen] at hq1 ⊢
      obtain ⟨ha1, ha2⟩ := (hat _ _ _).mp ha
      obtain ⟨y, hy, hy1⟩ := hI.path a k' v' ha1 q hq1 hq2
      by_cases hqp : q = p
      · exfalso
        subst hqp
        have := hp.key_eq hy
        subst this
        rcases hy1 with ⟨-, hy1⟩ | hy1
        · have := run_stops hI hp hf ha1 hy1.symm
          omega
        · exact hp.2 ((isSparse_iff e _ _).mp hy1).1
      · rcases hother q hqp with h' | ⟨h1, h2, ⟨x, hx, hx'⟩, h3⟩
        · exact ⟨y, by rw [h']; exact hy, hy1⟩
        · exfalso
          obtain ⟨z, hz, hz1⟩ := h3 q (Nat.le_refl _) h2
          rw [hy] at hz; injection hz with hz; subst hz
          have hz2 := (isSparse_iff e _ _).mp hz1
          have hidx : index e s.length k' = index e s.length k := by
            rcases hy1 with ⟨hy1, -⟩ | hy1
            · exact absurd hz2.1 hy1
            · rw [← ((isSparse_iff e _ _).mp hy1).2.2, hz2.2.2]
          have hap : p < a := by
            rcases Nat.lt_trichotomy a p with h' | h' | h'
            · exfalso
              obtain ⟨w, hw, hw1⟩ := h3 a (by omega) h'
              have := ha1.key_eq hw
              subst this
              exact ha1.2 ((isSparse_iff e _ _).mp hw1).1
            · exact absurd h' ha2
            · exact h'
          have := run_stops hI hp hf ha1 hidx
          omega
  · rw [if_neg hf] at h
    injection h with h
    subst h
    have hat : ∀ q k' v', At e (s.set p ⟨e.null, e.lay.mark (index e s.length k) v⟩) q k' v' ↔
        At e s q k' v' ∧ q ≠ p := by
      intro q k' v'
      by_cases hqp : q = p
      · subst hqp
        constructor
        · intro h'
          have := h'.key_eq (List.getElem?_set_self hpl)
          injection this with h1 h2
          exact absurd h1.symm h'.2
        · rintro ⟨-, h'⟩; exact absurd rfl h'
      · rw [at_set_ne hqp]; simp [hqp]
    refine ⟨List.length_set, ⟨?_, ?_⟩, hat⟩
    · intro a k' v' ha
      rw [List.length_set]; exact hI.home a k' v' ((hat _ _ _).mp ha).1
    · intro a k' v' ha q hq1 hq2
      rw [List.length_set] at hq1 ⊢
      obtain ⟨ha1, ha2⟩ := (hat _ _ _).mp ha
      obtain ⟨y, hy, hy1⟩ := hI.path a k' v' ha1 q hq1 hq2
      by_cases hqp : q = p
      · subst hqp
        have := hp.key_eq hy
        subst this
        refine ⟨_, List.getElem?_set_self hpl, Or.inr ?_⟩
        rcases hy1 with ⟨-, hy1⟩ | hy1
        · rw [isSparse_iff]
          refine ⟨rfl, hl.gc_mark _ _, ?_⟩
          show e.lay.bkt (e.lay.mark _ v) = _
          have h64' : index e s.length k < 64 := by
            rcases h64 with h | h
            · exact h
            · have := h a k' v' ha1 hy1.symm
              omega
          rw [hl.bkt_mark, Nat.mod_eq_of_lt h64']; exact hy1
        · exact absurd ((isSparse_iff e _ _).mp hy1).1 hp.2
      · exact ⟨y, by rw [List.getElem?_set_ne (by omega)]; exact hy, hy1⟩

theorem eraseAt_inv {e : Env K V} (hl : e.lay.Lawful) {s s' : Slots K V} (hI : Inv e s) {p : Nat}
    {k : K} {v : V} (hp : At e s p k v) (h64 : index e s.length k < 64 ∨ LastOfBucket e s p k)
    (h : eraseAt e s p (index e s.length k) = some s') :
    s'.length = s.length ∧ Inv e s' ∧
      ∀ q k' v', At e s' q k' v' ↔ At e s q k' v' ∧ q ≠ p := by
  obtain ⟨h1, h2, hat⟩ := eraseAt_placed hl hI.placed hp h64 h
  exact ⟨h1, ⟨fun a b k' v' w' ha hb =>
    hI.uniq a b k' v' w' ((hat _ _ _).mp ha).1 ((hat _ _ _).mp hb).1, h2.home, h2.path⟩, hat⟩

theorem repr_erase {e : Env K V} {s s' : Slots K V} {m : K → Option V} (hI : Inv e s)
    (hm : Repr e s m) {p : Nat} {k : K} {v : V} (hp : At e s p k v)
    (hat : ∀ q k' v', At e s' q k' v' ↔ At e s q k' v' ∧ q ≠ p) :
    Repr e s' (Spec.upd m k none) := by
  intro k' w
  unfold Spec.upd
  by_cases hkk : k' = k
  · subst hkk
    rw [if_pos rfl]
    constructor
    · intro h; cases h
    · rintro ⟨q, hq⟩
      obtain ⟨h1, h2⟩ := (hat _ _ _).mp hq
      exact absurd (hI.uniq q p k' w v h1 hp) h2
  · rw [if_neg hkk, hm k' w]
    constructor
    · rintro ⟨q, hq⟩
      refine ⟨q, (hat _ _ _).mpr ⟨hq, ?_⟩⟩
      intro h; subst h
      have := hp.key_eq hq.1
      injection this with h1; exact hkk h1
    · rintro ⟨q, hq⟩; exact ⟨q, ((hat _ _ _).mp hq).1⟩

/-! ## clear -/

theorem clear_none (e : Env K V) (s : Slots K V) (p : Nat) (k : K) (v : V) :
    ¬ At e (clear e s) p k v := by
  rintro ⟨h, hk⟩
  unfold clear at h
  rw [List.getElem?_map] at h
  cases hp : s[p]? with
  | none => rw [hp] at h; cases h
  | some x =>
    rw [hp] at h
    simp only [Option.map_some, destruct] at h
    injection h with h; injection h with h1 h2
    exact hk h1.symm

theorem dense_of_none {e : Env K V} {s : Slots K V} (h : ∀ p k v, ¬ At e s p k v) : Dense e s :=
  ⟨fun p _ k v _ hp _ => absurd hp (h p k v), fun p k v hp => absurd hp (h p k v),
   fun p k v hp => absurd hp (h p k v)⟩

theorem init_none (e : Env K V) (raws : List V) (p : Nat) (k : K) (v : V) :
    ¬ At e (init e raws) p k v := by
  rintro ⟨h, hk⟩
  unfold init at h
  rw [List.getElem?_map] at h
  cases hp : raws[p]? with
  | none => rw [hp] at h; cases h
  | some x =>
    rw [hp] at h
    simp only [Option.map_some] at h
    injection h with h; injection h with h1 h2
    exact hk h1.symm

/-! ## size, empty, count, iteration -/

theorem keys_nodup {e : Env K V} {s : Slots K V}
    (hu : ∀ p q k v w, At e s p k v → At e s q k w → p = q) :
    ((s.filter fun x => !isEmpty e x).map (·.key)).Nodup := by
  have hpw : s.Pairwise fun x y => x.key ≠ e.null → x.key ≠ y.key := by
    rw [List.pairwise_iff_getElem]
    intro i j hi hj hij hn heq
    have h1 : At e s i s[i].key s[i].raw := ⟨by rw [List.getElem?_eq_getElem hi], hn⟩
    have h2 : At e s j s[i].key s[j].raw := ⟨by rw [List.getElem?_eq_getElem hj, heq], hn⟩
    have := hu i j _ _ _ h1 h2
    omega
  unfold List.Nodup
  rw [List.pairwise_map]
  have := hpw.filter (fun x => !isEmpty e x)
  refine List.Pairwise.imp_of_mem ?_ this
  intro a b ha _ hab
  rw [List.mem_filter] at ha
  exact hab (by simpa [isEmpty] using ha.2)

theorem mem_keys {e : Env K V} {s : Slots K V} (k : K) :
    k ∈ (s.filter fun x => !isEmpty e x).map (·.key) ↔ ∃ p v, At e s p k v := by
  rw [List.mem_map]
  constructor
  · rintro ⟨x, hx, rfl⟩
    rw [List.mem_filter] at hx
    obtain ⟨i, hi⟩ := List.mem_iff_getElem?.mp hx.1
    exact ⟨i, x.raw, hi, by simpa [isEmpty] using hx.2⟩
  · rintro ⟨p, v, hp, hk⟩
    refine ⟨⟨k, v⟩, ?_, rfl⟩
    rw [List.mem_filter]
    exact ⟨List.mem_iff_getElem?.mpr ⟨p, hp⟩, by simpa [isEmpty] using hk⟩

theorem repr_ne_none {e : Env K V} {s : Slots K V} {m : K → Option V} (hm : Repr e s m) (k : K) :
    m k ≠ none ↔ ∃ p v, At e s p k v := by
  constructor
  · intro h
    cases hk : m k with
    | none => exact absurd hk h
    | some v => obtain ⟨p, hp⟩ := (hm k v).mp hk; exact ⟨p, v, hp⟩
  · rintro ⟨p, v, hp⟩ h
    rw [hm.some_of_at hp] at h; cases h

theorem size_card {e : Env K V} {s : Slots K V} {m : K → Option V} (hI : Inv e s)
    (hm : Repr e s m) : Spec.Card m (size e s) := by
  refine ⟨(s.filter fun x => !isEmpty e x).map (·.key), keys_nodup hI.uniq, ?_, ?_⟩
  · intro k; rw [mem_keys, repr_ne_none hm]
  · rw [List.length_map]; rfl

theorem empty_iff {e : Env K V} {s : Slots K V} {m : K → Option V} (hm : Repr e s m) :
    empty e s = true ↔ ∀ k, m k = none := by
  unfold empty
  rw [List.all_eq_true]
  constructor
  · intro h k
    rw [hm.none_iff]
    intro p v hp
    have := h _ (List.mem_iff_getElem?.mpr ⟨p, hp.1⟩)
    exact hp.2 ((isEmpty_iff e _).mp this)
  · intro h x hx
    obtain ⟨i, hi⟩ := List.mem_iff_getElem?.mp hx
    rw [isEmpty_iff]
    by_cases hk : x.key = e.null
    · exact hk
    · exact absurd ⟨hi, hk⟩ ((hm.none_iff x.key).mp (h x.key) i x.raw)

/-- A local iteration visits exactly the elements of its bucket. -/
theorem bucketScan_spec {e : Env K V} {s : Slots K V} (hI : Placed e s) (n : Nat) :
    ∀ (l : Slots K V) (i : Nat) (r : List Nat), n ≤ i → s.drop i = l →
      bucketScan e s.length n l i = some r →
      r.Nodup ∧ ∀ p, p ∈ r ↔ i ≤ p ∧ ∃ k v, At e s p k v ∧ index e s.length k = n := by
  intro l
  induction l with
  | nil =>
    intro i r hn hl h
    rw [bucketScan] at h
    cases hh : e.hi with
    | none => rw [hh] at h; cases h
    | some x =>
      rw [hh] at h
      injection h with h; subst h
      refine ⟨List.nodup_nil, fun p => ⟨fun h => absurd h (by simp), ?_⟩⟩
      rintro ⟨hip, k, v, hp, -⟩
      have := get_lt hp.1
      have : s.drop i = [] := hl
      rw [List.drop_eq_nil_iff] at this
      omega
  | cons x xs ih =>
    intro i r hn hl h
    obtain ⟨hx, hxs⟩ := drop_cons hl
    -- nothing behind a slot that ends the bucket
    have stop : isSparse e n x = false → (x.key = e.null ∨ index e s.length x.key ≠ n) →
        ∀ p, ¬ (i ≤ p ∧ ∃ k v, At e s p k v ∧ index e s.length k = n) := by
      rintro hsp hend p ⟨hip, k, v, hp, hk⟩
      by_cases hpi : p = i
      · subst hpi
        have := hp.key_eq hx
        subst this
        rcases hend with h' | h'
        · exact hp.2 h'
        · exact h' hk
      · obtain ⟨y, hy, hy1⟩ := hI.path p k v hp i (by omega) (by omega)
        rw [hx] at hy; injection hy with hy; subst hy
        rw [hk] at hy1
        rcases hy1 with ⟨a, b⟩ | a
        · rcases hend with h' | h'
          · exact a h'
          · exact h' b
        · rw [hsp] at a; cases a
    rw [bucketScan] at h
    by_cases h1 : isSparse e n x = true
    · rw [if_pos h1] at h
      obtain ⟨a, b⟩ := ih (i + 1) r (by omega) hxs h
      refine ⟨a, fun p => ?_⟩
      rw [b]
      constructor
      · rintro ⟨h2, h3⟩; exact ⟨by omega, h3⟩
      · rintro ⟨h2, k, v, hp, hk⟩
        refine ⟨?_, k, v, hp, hk⟩
        rcases Nat.lt_or_ge i p with h' | h'
        · exact h'
        · have : p = i := by omega
          subst this
          have := hp.key_eq hx
          subst this
          exact absurd ((isSparse_iff e _ _).mp h1).1 hp.2
    · rw [if_neg h1] at h
      have h1' : isSparse e n x = false := by simpa using h1
      by_cases h2 : x.key = e.null
      · rw [if_pos (by simp [isEmpty, h2])] at h
        injection h with h; subst h
        refine ⟨List.nodup_nil, fun p => ⟨fun h => absurd h (by simp), ?_⟩⟩
        intro h'; exact absurd h' (stop h1' (Or.inl h2) p)
      · rw [if_neg (by simp [isEmpty, h2])] at h
        by_cases h3 : index e s.length x.key = n
        · rw [if_neg (by simp [h3])] at h
          cases hb : bucketScan e s.length n xs (i + 1) with
          | none => rw [hb] at h; cases h
          | some r' =>
            rw [hb] at h
            simp only [Option.map_some] at h
            injection h with h; subst h
            obtain ⟨a, b⟩ := ih (i + 1) r' (by omega) hxs hb
            refine ⟨List.nodup_cons.mpr ⟨fun h => by have := ((b i).mp h).1; omega, a⟩, ?_⟩
            intro p
            rw [List.mem_cons, b]
            constructor
            · rintro (h4 | ⟨h4, h5⟩)
              · subst h4; exact ⟨Nat.le_refl _, x.key, x.raw, ⟨hx, h2⟩, h3⟩
              · exact ⟨by omega, h5⟩
            · rintro ⟨h4, h5⟩
              by_cases hpi : p = i
              · exact Or.inl hpi
              · exact Or.inr ⟨by omega, h5⟩
        · rw [if_pos h3] at h
          injection h with h; subst h
          refine ⟨List.nodup_nil, fun p => ⟨fun h => absurd h (by simp), ?_⟩⟩
          intro h'; exact absurd h' (stop h1' (Or.inr h3) p)

theorem count_spec {e : Env K V} {s : Slots K V} {m : K → Option V} (hI : Inv e s)
    (hm : Repr e s m) {k : K} {n : Nat} (h : count e s k = some n) :
    n = if m k = none then 0 else 1 := by
  unfold count at h
  simp only at h
  cases hb : bucketScan e s.length (index e s.length k) (s.drop (index e s.length k))
      (index e s.length k) with
  | none => rw [hb] at h; cases h
  | some l =>
    rw [hb] at h
    simp only [Option.map_some] at h
    injection h with h
    obtain ⟨hnd, hmem⟩ := bucketScan_spec hI.placed _ _ _ l (Nat.le_refl _) rfl hb
    have hf : ∀ p, p ∈ l.filter (fun i => (s[i]?).any fun x => k = x.key) ↔ ∃ v, At e s p k v := by
      intro p
      rw [List.mem_filter, hmem]
      constructor
      · rintro ⟨⟨-, k', v, hp, -⟩, h2⟩
        rw [hp.1] at h2
        simp only [Option.any_some, decide_eq_true_eq] at h2
        subst h2; exact ⟨v, hp⟩
      · rintro ⟨v, hp⟩
        refine ⟨⟨hI.home p k v hp, k, v, hp, rfl⟩, ?_⟩
        rw [hp.1]; simp
    have hnd' := hnd.filter (fun i => (s[i]?).any fun x => k = x.key)
    split
    · rename_i h0
      have : l.filter (fun i => (s[i]?).any fun x => k = x.key) = [] := by
        rw [List.eq_nil_iff_forall_not_mem]
        intro p hp
        obtain ⟨v, hv⟩ := (hf p).mp hp
        exact (hm.none_iff k).mp h0 p v hv
      rw [← h, this]; rfl
    · rename_i h0
      obtain ⟨p, v, hp⟩ := (repr_ne_none hm k).mp h0
      have : l.filter (fun i => (s[i]?).any fun x => k = x.key) = [p] := by
        generalize hg : l.filter (fun i => (s[i]?).any fun x => k = x.key) = g at hf hnd'
        have hpg : p ∈ g := (hf p).mpr ⟨v, hp⟩
        have hall : ∀ q ∈ g, q = p := by
          intro q hq
          obtain ⟨w, hw⟩ := (hf q).mp hq
          exact hI.uniq q p k w v hw hp
        match g, hpg, hall, hnd' with
        | [a], _, hall, _ => rw [hall a (by simp)]
        | a :: b :: t, _, hall, hnd' =>
          exfalso
          have h1 := hall a (by simp)
          have h2 := hall b (by simp)
          exact (List.pairwise_cons.mp hnd').1 b (by simp) (by rw [h1, h2])
      rw [← h, this]; rfl

/-- A full iteration visits exactly the occupied slots, in order. -/
theorem iterScan_spec (e : Env K V) (s : Slots K V) :
    ∀ (l : Slots K V) (i : Nat) (r : List Nat), s.drop i = l → iterScan e l i = some r →
      r.filterMap (fun i => (s[i]?).map (·.key)) = (l.filter fun x => !isEmpty e x).map (·.key) ∧
      (∀ p ∈ r, ∃ k v, At e s p k v) := by
  intro l
  induction l with
  | nil =>
    intro i r hl h
    rw [iterScan] at h
    cases hh : e.hi with
    | none => rw [hh] at h; cases h
    | some x =>
      rw [hh] at h; injection h with h; subst h
      exact ⟨rfl, fun p hp => absurd hp (by simp)⟩
  | cons x xs ih =>
    intro i r hl h
    obtain ⟨hx, hxs⟩ := drop_cons hl
    rw [iterScan] at h
    by_cases h1 : isEmpty e x = true
    · rw [if_pos h1] at h
      obtain ⟨a, b⟩ := ih (i + 1) r hxs h
      refine ⟨?_, b⟩
      rw [a, List.filter_cons_of_neg (by simp [h1])]
    · rw [if_neg h1] at h
      cases hb : iterScan e xs (i + 1) with
      | none => rw [hb] at h; cases h
      | some r' =>
        rw [hb] at h
        simp only [Option.map_some] at h
        injection h with h; subst h
        obtain ⟨a, b⟩ := ih (i + 1) r' hxs hb
        refine ⟨?_, ?_⟩
        · rw [List.filter_cons_of_pos (by simpa using h1), List.map_cons,
            List.filterMap_cons_some (by rw [hx]; rfl), a]
        · intro p hp
          rcases List.mem_cons.mp hp with hp | hp
          · subst hp
            exact ⟨x.key, x.raw, hx, by simpa [isEmpty] using h1⟩
          · exact b p hp

end Verif.Unordered
