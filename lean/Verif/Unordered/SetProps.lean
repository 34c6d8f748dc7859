import Verif.Unordered.Props
/-!
# C23: the fixed-size unordered set, and compacting erasure
-/

namespace Verif.Unordered

set_option linter.unusedSectionVars false

variable {K V : Type} [DecidableEq K]

/-! ## `erase_and_gc_ll` -/

theorem lastScan_skip (e : Env K V) (N n : Nat) (s : Slots K V) :
    ∀ (d i : Nat), (∀ q, i ≤ q → q < i + d → ∃ y, s[q]? = some y ∧ index e N y.key = n) →
    lastScan e N n (s.drop i) i = lastScan e N n (s.drop (i + d)) (i + d) := by
  intro d
  induction d with
  | zero => intro i _; rfl
  | succ d ih =>
    intro i h
    obtain ⟨y, hy, h1⟩ := h i (Nat.le_refl _) (by omega)
    have e1 : i + 1 + d = i + (d + 1) := by omega
    rw [drop_of_get hy, lastScan, if_pos h1.symm,
      ih (i + 1) (fun q hq1 hq2 => h q (by omega) (by omega)), e1]

theorem lastScan_spec (e : Env K V) (n : Nat) (s : Slots K V) :
    ∀ (l : Slots K V) (i j : Nat), i ≤ s.length → s.drop i = l →
      lastScan e s.length n l i = some j →
      i ≤ j ∧ j ≤ s.length ∧
      (∀ q, i ≤ q → q < j → ∃ y, s[q]? = some y ∧ index e s.length y.key = n) ∧
      (j = s.length ∨ ∃ y, s[j]? = some y ∧ index e s.length y.key ≠ n) := by
  intro l
  induction l with
  | nil =>
    intro i j hi hl h
    rw [List.drop_eq_nil_iff] at hl
    rw [lastScan] at h
    cases hh : e.hi with
    | none => rw [hh] at h; cases h
    | some x =>
      rw [hh] at h
      injection h with h; subst h
      exact ⟨Nat.le_refl _, hi, fun q h1 h2 => by omega, Or.inl (by omega)⟩
  | cons x xs ih =>
    intro i j hi hl h
    obtain ⟨hx, hxs⟩ := drop_cons hl
    have hlt := get_lt hx
    rw [lastScan] at h
    split at h
    · rename_i he
      obtain ⟨h1, h2, h3, h4⟩ := ih (i + 1) j (by omega) hxs h
      refine ⟨by omega, h2, ?_, h4⟩
      intro q hq1 hq2
      by_cases hq : q = i
      · subst hq; exact ⟨x, hx, he.symm⟩
      · exact h3 q (by omega) hq2
    · rename_i he
      injection h with h; subst h
      exact ⟨Nat.le_refl _, hi, fun q h1 h2 => by omega,
        Or.inr ⟨x, hx, fun h => he h.symm⟩⟩

theorem swap_self (s t : Slots K V) (p : Nat) (h : swapSlots s p p = some t) : t = s := by
  unfold swapSlots at h
  cases hp : s[p]? with
  | none => rw [hp] at h; cases h
  | some x =>
    rw [hp] at h
    injection h with h
    rw [← h, List.set_set]
    obtain ⟨hi, rfl⟩ := List.getElem?_eq_some_iff.mp hp
    exact List.set_getElem_self hi

/-- The element in slot `p` is the last of its bucket, judged by the next slot only. -/
def NextOther (e : Env K V) (s : Slots K V) (p : Nat) (k : K) : Prop :=
  ∀ k' v', At e s (p + 1) k' v' → index e s.length k' ≠ index e s.length k

/-- The erasures `unordered_set` handles: the element is the last of its bucket, or it sits in its
home slot and the null key belongs to another bucket. -/
def SafeErase (e : Env K V) (s : Slots K V) (k : K) : Prop :=
  ∀ p v, At e s p k v →
    NextOther e s p k ∨ (p = index e s.length k ∧ index e s.length e.null ≠ p)

theorem dense_remove {e : Env K V} {s : Slots K V} (hD : Dense e s) {p : Nat} {k : K} {v : V}
    (hp : At e s p k v) (hno : NextOther e s p k) (w : V) :
    Dense e (s.set p ⟨e.null, w⟩) ∧
      ∀ q k' v', At e (s.set p ⟨e.null, w⟩) q k' v' ↔ At e s q k' v' ∧ q ≠ p := by
  have hpl := get_lt hp.1
  have hat : ∀ q k' v', At e (s.set p ⟨e.null, w⟩) q k' v' ↔ At e s q k' v' ∧ q ≠ p := by
    intro q k' v'
    by_cases hqp : q = p
    · subst hqp
      constructor
      · intro h'
        have := h'.key_eq (List.getElem?_set_self hpl)
        injection this with h1 h2
        exact absurd h1.symm h'.2
      · rintro ⟨-, h'⟩; exact absurd rfl h'
    · rw [at_set_ne hqp]; simp [hqp]
  refine ⟨⟨?_, ?_, ?_⟩, hat⟩
  · intro a b k' v' w' ha hb
    exact hD.uniq a b k' v' w' ((hat _ _ _).mp ha).1 ((hat _ _ _).mp hb).1
  · intro a k' v' ha
    rw [List.length_set]; exact hD.home a k' v' ((hat _ _ _).mp ha).1
  · intro a k' v' ha q hq1 hq2
    rw [List.length_set] at hq1 ⊢
    obtain ⟨ha1, ha2⟩ := (hat _ _ _).mp ha
    obtain ⟨y, hy, hy1, hy2⟩ := hD.path a k' v' ha1 q hq1 hq2
    by_cases hqp : q = p
    · exfalso
      subst hqp
      have := hp.key_eq hy
      subst this
      have hy2' : index e s.length k = index e s.length k' := hy2
      by_cases h1 : q + 1 = a
      · subst h1; exact hno k' v' ha1 hy2'.symm
      · obtain ⟨z, hz, hz1, hz2⟩ := hD.path a k' v' ha1 (q + 1) (by omega) (by omega)
        exact hno z.key z.raw ⟨hz, hz1⟩ (by rw [hz2, hy2'])
    · exact ⟨y, by rw [List.getElem?_set_ne (by omega)]; exact hy, hy1, hy2⟩

/-- Compacting erasure, where it works: exactly the erased key disappears. -/
theorem eraseGc_spec {e : Env K V} {s s' : Slots K V} {m : K → Option V} (hD : Dense e s)
    (hm : Repr e s m) {p : Nat} {k : K} {v : V} (hp : At e s p k v) (hsafe : SafeErase e s k)
    (h : eraseGcAt e s p = some s') :
    s'.length = s.length ∧ Dense e s' ∧ Repr e s' (Spec.upd m k none) := by
  have hpl := get_lt hp.1
  have hhome := hD.home p k v hp
  have hxx : s[p]? = some ⟨k, v⟩ := hp.1
  -- the simple case: only slot p is nulled
  have simple : NextOther e s p k → s' = s.set p ⟨e.null, v⟩ →
      s'.length = s.length ∧ Dense e s' ∧ Repr e s' (Spec.upd m k none) := by
    intro hno hs'
    obtain ⟨a, b⟩ := dense_remove hD hp hno v
    rw [hs']
    exact ⟨List.length_set, a, repr_erase hD.inv hm hp b⟩
  unfold eraseGcAt at h
  rw [hxx] at h
  simp only [destruct] at h
  cases hn : s[p + 1]? with
  | none =>
    rw [hn] at h
    simp only at h
    have hno : NextOther e s p k := by
      intro k' v' hk'
      rw [hk'.1] at hn; cases hn
    cases hh : e.hi with
    | none => rw [hh] at h; cases h
    | some x =>
      rw [hh] at h
      simp only at h
      split at h
      · injection h with h; exact simple hno h.symm
      · exact simple hno (swap_self _ _ _ h)
  | some y =>
    rw [hn] at h
    simp only at h
    by_cases hy : y.key = e.null
    · rw [if_pos (by simp [isEmpty, hy])] at h
      injection h with h
      refine simple ?_ h.symm
      intro k' v' hk'
      have := hk'.key_eq hn
      subst this; exact absurd hy hk'.2
    · rw [if_neg (by simp [isEmpty, hy])] at h
      cases hls : lastScan e s.length p (s.drop (p + 1)) (p + 1) with
      | none => rw [hls] at h; cases h
      | some j =>
        rw [hls] at h
        simp only at h
        have hnl := get_lt hn
        obtain ⟨h1, h2, h3, h4⟩ := lastScan_spec e p s _ (p + 1) j (by omega) rfl hls
        rcases hsafe p v hp with hno | ⟨hph, hnull⟩
        · -- last of its bucket: the scan stops at once
          have hj : j = p + 1 := by
            rcases Nat.lt_or_ge (p + 1) j with hlt | hge
            · exfalso
              obtain ⟨z, hz, hz1⟩ := h3 (p + 1) (Nat.le_refl _) hlt
              rw [hn] at hz; injection hz with hz; subst hz
              have hat' : At e s (p + 1) y.key y.raw := ⟨hn, hy⟩
              obtain ⟨z, hz, -, hz3⟩ := hD.path (p + 1) y.key y.raw hat' p (by omega) (by omega)
              have := hp.key_eq hz
              subst this
              exact hno y.key y.raw hat' hz3.symm
            · omega
          subst hj
          exact simple hno (swap_self _ _ _ (by simpa using h))
        · by_cases hj : j = p + 1
          · -- also the last of its bucket
            subst hj
            refine simple ?_ (swap_self _ _ _ (by simpa using h))
            intro k' v' hk' hidx
            rcases h4 with h4 | ⟨z, hz, hz1⟩
            · omega
            · have := hk'.key_eq hz
              subst this
              have hz1' : index e s.length k' ≠ p := hz1
              omega
          · -- the last element of the bucket moves to slot p
            have hjl : j - 1 < s.length := by omega
            obtain ⟨z, hz, hz1⟩ := h3 (j - 1) (by omega) (by omega)
            have hzn : z.key ≠ e.null := by
              intro hzn; rw [hzn] at hz1; exact hnull hz1
            have hatz : At e s (j - 1) z.key z.raw := ⟨hz, hzn⟩
            have hs' : s' = (s.set p z).set (j - 1) ⟨e.null, v⟩ := by
              unfold swapSlots at h
              rw [List.getElem?_set_ne (by omega), hz, List.getElem?_set_self hpl] at h
              simp only at h
              injection h with h
              rw [← h, List.set_comm _ _ (show j - 1 ≠ p by omega), List.set_set]
            have gp : s'[p]? = some z := by
              rw [hs', List.getElem?_set_ne (by omega), List.getElem?_set_self hpl]
            have gj : s'[j - 1]? = some ⟨e.null, v⟩ := by
              rw [hs', List.getElem?_set_self (by rw [List.length_set]; exact hjl)]
            have go : ∀ q, q ≠ p → q ≠ j - 1 → s'[q]? = s[q]? := by
              intro q hq1 hq2
              rw [hs', List.getElem?_set_ne (fun h => hq2 h.symm),
                List.getElem?_set_ne (fun h => hq1 h.symm)]
            have hlen : s'.length = s.length := by rw [hs', List.length_set, List.length_set]
            -- elements of the new array
            have hat : ∀ q k' v', At e s' q k' v' ↔
                (q = p ∧ k' = z.key ∧ v' = z.raw) ∨ (q ≠ p ∧ q ≠ j - 1 ∧ At e s q k' v') := by
              intro q k' v'
              by_cases hqp : q = p
              · subst hqp
                constructor
                · intro h'
                  have := h'.key_eq gp
                  subst this
                  exact Or.inl ⟨rfl, rfl, rfl⟩
                · rintro (⟨-, rfl, rfl⟩ | ⟨h', -⟩)
                  · exact ⟨gp, hzn⟩
                  · exact absurd rfl h'
              · by_cases hqj : q = j - 1
                · subst hqj
                  constructor
                  · intro h'
                    have := h'.key_eq gj
                    injection this with a b
                    exact absurd a.symm h'.2
                  · rintro (⟨h', -⟩ | ⟨-, h', -⟩)
                    · exact absurd h' hqp
                    · exact absurd rfl h'
                · unfold At
                  rw [go q hqp hqj]
                  simp [hqp, hqj]
            have hzk : z.key ≠ k := by
              intro h'
              rw [h'] at hatz
              have := hD.uniq _ _ _ _ _ hatz hp
              omega
            refine ⟨hlen, ⟨?_, ?_, ?_⟩, ?_⟩
            · intro a b k' v' w' ha hb
              rcases (hat _ _ _).mp ha with ⟨a1, a2, -⟩ | ⟨a1, a2, a3⟩ <;>
                rcases (hat _ _ _).mp hb with ⟨b1, b2, -⟩ | ⟨b1, b2, b3⟩
              · omega
              · subst a2; exact absurd (hD.uniq _ _ _ _ _ b3 hatz) b2
              · subst b2; exact absurd (hD.uniq _ _ _ _ _ a3 hatz) a2
              · exact hD.uniq _ _ _ _ _ a3 b3
            · intro a k' v' ha
              rw [hlen]
              rcases (hat _ _ _).mp ha with ⟨a1, a2, -⟩ | ⟨a1, a2, a3⟩
              · subst a2; omega
              · exact hD.home a k' v' a3
            · intro a k' v' ha q hq1 hq2
              rw [hlen] at hq1 ⊢
              rcases (hat _ _ _).mp ha with ⟨a1, a2, -⟩ | ⟨a1, a2, a3⟩
              · subst a2; omega
              · obtain ⟨y2, hy2, hy3, hy4⟩ := hD.path a k' v' a3 q hq1 hq2
                by_cases hqp : q = p
                · subst hqp
                  have := hp.key_eq hy2
                  subst this
                  refine ⟨z, gp, hzn, ?_⟩
                  have hy4' : index e s.length k = index e s.length k' := hy4
                  omega
                · by_cases hqj : q = j - 1
                  · exfalso
                    subst hqj
                    rw [hz] at hy2; injection hy2 with hy2; subst hy2
                    have hja : j ≤ a := by omega
                    rcases h4 with h4 | ⟨w2, hw, hw1⟩
                    · have := get_lt a3.1; omega
                    · by_cases haj : a = j
                      · subst haj
                        have := a3.key_eq hw
                        subst this
                        have hw1' : index e s.length k' ≠ p := hw1
                        omega
                      · obtain ⟨w3, hw3, -, hw4⟩ := hD.path a k' v' a3 j (by omega) (by omega)
                        rw [hw] at hw3; injection hw3 with hw3; subst hw3
                        omega
                  · exact ⟨y2, by rw [go q hqp hqj]; exact hy2, hy3, hy4⟩
            · intro k' w
              unfold Spec.upd
              by_cases hkk : k' = k
              · subst hkk
                rw [if_pos rfl]
                refine ⟨nofun, ?_⟩
                rintro ⟨q, hq⟩
                rcases (hat _ _ _).mp hq with ⟨-, a2, -⟩ | ⟨a1, -, a3⟩
                · exact absurd a2.symm hzk
                · exact absurd (hD.uniq _ _ _ _ _ a3 hp) a1
              · rw [if_neg hkk, hm k' w]
                constructor
                · rintro ⟨q, hq⟩
                  by_cases hqj : q = j - 1
                  · subst hqj
                    have := hq.key_eq hz
                    subst this
                    exact ⟨p, (hat _ _ _).mpr (Or.inl ⟨rfl, rfl, rfl⟩)⟩
                  · refine ⟨q, (hat _ _ _).mpr (Or.inr ⟨?_, hqj, hq⟩)⟩
                    intro hqp; subst hqp
                    have := hp.key_eq hq.1
                    injection this with h'; exact hkk h'
                · rintro ⟨q, hq⟩
                  rcases (hat _ _ _).mp hq with ⟨-, a2, a3⟩ | ⟨-, -, a3⟩
                  · subst a2; subst a3; exact ⟨j - 1, hatz⟩
                  · exact ⟨q, a3⟩

/-! ## Set histories -/

/-- Every erasure of the history is one of those `unordered_set` handles. -/
def SafeRun (e : Env K Unit) : Slots K Unit → List (Op K Unit) → Prop
  | _, [] => True
  | s, o :: os => (∀ k, o = .erase k → SafeErase e s k) ∧
      ∀ s' r, setStep e s o = some (s', r) → SafeRun e s' os

theorem setStep_refines {e : Env K Unit} {s s' : Slots K Unit} {m : K → Option Unit}
    (hD : Dense e s) (hm : Repr e s m) (hs : 0 < s.length) {o : Op K Unit} {r : Out Unit}
    (hc : ∀ k, o = .erase k → SafeErase e s k) (h : setStep e s o = some (s', r)) :
    ∃ m', Spec.Step m o r m' ∧ Dense e s' ∧ Repr e s' m' ∧ s'.length = s.length := by
  have shared : o.erases = false → step e s o = some (s', r) → Clean e s o →
      ∃ m', Spec.Step m o r m' ∧ Dense e s' ∧ Repr e s' m' ∧ s'.length = s.length := by
    intro ho hst hcl
    obtain ⟨m', h1, h2, h3, h4, -, h6⟩ :=
      step_refines (by rw [ho]; exact nofun) hD.inv hm hs hcl hst
    exact ⟨m', h1, h6 ho hD, h3, h4⟩
  cases o with
  | insert k v => exact shared rfl h (dense_clean hD hs k)
  | contains k => exact shared rfl h trivial
  | count k => exact shared rfl h trivial
  | size => exact shared rfl h trivial
  | isEmpty => exact shared rfl h trivial
  | erase k =>
    simp only [setStep] at h
    unfold setErase at h
    cases hf : find e s k with
    | none => rw [hf] at h; cases h
    | some fr =>
      rw [hf] at h
      rcases find_repr hD.inv hm hs k fr hf with ⟨hk, rfl⟩ | ⟨p, u, hk, rfl, hat⟩
      · simp only [Option.map_some] at h
        injection h with h; injection h with ha hb
        subst ha; subst hb
        exact ⟨m, ⟨hk, rfl⟩, hD, hm, rfl⟩
      · simp only at h
        cases he : eraseGcAt e s p with
        | none => rw [he] at h; cases h
        | some s2 =>
          rw [he] at h
          simp only [Option.map_some] at h
          injection h with h; injection h with ha hb
          subst ha; subst hb
          obtain ⟨a, b, c⟩ := eraseGc_spec hD hm hat (hc k rfl) he
          exact ⟨_, ⟨by rw [hk]; exact nofun, rfl⟩, b, c, a⟩
  | assign k v => cases h
  | sub k => cases h
  | clear => cases h
  | find k => cases h

theorem setRun_refines {e : Env K Unit} :
    ∀ (ops : List (Op K Unit)) (s s' : Slots K Unit) (m : K → Option Unit) (outs : List (Out Unit)),
      Dense e s → Repr e s m → 0 < s.length → SafeRun e s ops → setRun e s ops = some (s', outs) →
      ∃ m', Spec.Run m ops outs m' ∧ Dense e s' ∧ Repr e s' m' ∧ s'.length = s.length := by
  intro ops
  induction ops with
  | nil =>
    intro s s' m outs hI hm _ _ h
    rw [setRun] at h
    injection h with h; injection h with h1 h2
    subst h1; subst h2
    exact ⟨m, rfl, hI, hm, rfl⟩
  | cons o os ih =>
    intro s s' m outs hI hm hs hc h
    rw [setRun] at h
    cases hst : setStep e s o with
    | none => rw [hst] at h; cases h
    | some pr =>
      obtain ⟨s1, r⟩ := pr
      rw [hst] at h
      simp only at h
      cases hr : setRun e s1 os with
      | none => rw [hr] at h; cases h
      | some pr2 =>
        obtain ⟨s2, rs⟩ := pr2
        rw [hr] at h
        simp only [Option.map_some] at h
        injection h with h; injection h with h1 h2
        subst h1; subst h2
        obtain ⟨m1, h1, h2, h3, h4⟩ := setStep_refines hI hm hs hc.1 hst
        obtain ⟨m2, g1, g2, g3, g4⟩ := ih s1 s2 m1 rs h2 h3 (by omega) (hc.2 s1 r hst) hr
        exact ⟨m2, ⟨m1, h1, g1⟩, g2, g3, by omega⟩

/-! ## C23 -/

/-- `layer1::unordered_set<uint32_t, N>`. -/
def setEnv (hi : Option (Slot (BitVec 32) Unit)) : Env (BitVec 32) Unit where
  null := 0
  hash k := k.toNat
  word := 2 ^ 64
  lay := setLayout
  lo := none
  hi := hi

/-- A set of `n` empty slots. -/
def freshSet (e : Env (BitVec 32) Unit) (n : Nat) : Slots (BitVec 32) Unit :=
  init e (List.replicate n ())

/-- C23, for histories whose erasures are of the kind the code handles (the erased element is the
last of its bucket, or in its home slot while the null key belongs to another bucket): `contains`,
`count`, `size` and `empty` report exactly the keys inserted and not erased since, whenever the
history has no undefined behaviour.  (Missing: the other erasures, for which it fails.) -/
theorem set_history_partial (e : Env K Unit) (raws : List Unit) (hr : raws ≠ [])
    (ops : List (Op K Unit)) (hc : SafeRun e (init e raws) ops) (s : Slots K Unit)
    (outs : List (Out Unit)) (h : setRun e (init e raws) ops = some (s, outs)) :
    ∃ m, Spec.Run (fun _ => none) ops outs m ∧ Repr e s m := by
  have hn := init_none e raws
  have hs : 0 < (init e raws).length := by
    simp only [init, List.length_map]; exact List.length_pos_iff.mpr hr
  obtain ⟨m, h1, -, h3, -⟩ := setRun_refines ops _ s _ outs (dense_of_none hn) (repr_empty hn)
    hs hc h
  exact ⟨m, h1, h3⟩

theorem safeRun_insert_only {e : Env K Unit} :
    ∀ (ops : List (Op K Unit)) (s : Slots K Unit), (∀ o ∈ ops, o.erases = false) →
      SafeRun e s ops := by
  intro ops
  induction ops with
  | nil => intro s _; exact trivial
  | cons o os ih =>
    intro s ho
    refine ⟨?_, fun s' r _ => ih s' fun o' ho' => ho o' (by simp [ho'])⟩
    rintro k rfl
    cases ho (.erase k) (by simp)

/-- C23 for insertion histories. -/
theorem set_insert_history_partial (e : Env K Unit) (raws : List Unit) (hr : raws ≠ [])
    (ops : List (Op K Unit)) (hops : ∀ o ∈ ops, o.erases = false) (s : Slots K Unit)
    (outs : List (Out Unit)) (h : setRun e (init e raws) ops = some (s, outs)) :
    ∃ m, Spec.Run (fun _ => none) ops outs m ∧ Repr e s m :=
  set_history_partial e raws hr ops (safeRun_insert_only ops _ hops) s outs h

theorem safeRun_collision_free {e : Env K Unit} (S : K → Prop) (N : Nat)
    (hinj : ∀ a b, S a → S b → index e N a = index e N b → a = b) :
    ∀ (ops : List (Op K Unit)) (s : Slots K Unit) (m : K → Option Unit), Dense e s → Repr e s m →
      s.length = N → 0 < N → (∀ k, m k ≠ none → S k) →
      (∀ o ∈ ops, ∀ k, o.key = some k → S k) → SafeRun e s ops := by
  intro ops
  induction ops with
  | nil => intro s m _ _ _ _ _ _; exact trivial
  | cons o os ih =>
    intro s m hD hm hN hs hS hk
    have hsafe : ∀ k, o = .erase k → SafeErase e s k := by
      intro k _ p v hp
      left
      intro k' v' hp' hidx
      subst hN
      have h1 := hS k (by rw [hm.some_of_at hp]; exact nofun)
      have h2 := hS k' (by rw [hm.some_of_at hp']; exact nofun)
      have h3 := hinj _ _ h2 h1 hidx
      subst h3
      have := hD.uniq _ _ _ _ _ hp hp'
      omega
    refine ⟨hsafe, ?_⟩
    intro s1 r hst
    obtain ⟨m1, h1, h2, h3, h4⟩ := setStep_refines hD hm (by omega) hsafe hst
    refine ih s1 m1 h2 h3 (by omega) hs ?_ fun o' ho' => hk o' (by simp [ho'])
    intro k hk'
    rcases spec_keys h1 k hk' with h' | h'
    · exact hS k h'
    · exact hk o (by simp) k h'

/-- C23 for keys without collisions: every interleaving of insertions and erasures. -/
theorem set_collision_free_history_partial (e : Env K Unit) (raws : List Unit) (hr : raws ≠ [])
    (ops : List (Op K Unit))
    (hinj : ∀ o₁ ∈ ops, ∀ o₂ ∈ ops, ∀ a b, o₁.key = some a → o₂.key = some b →
      index e raws.length a = index e raws.length b → a = b)
    (s : Slots K Unit) (outs : List (Out Unit))
    (h : setRun e (init e raws) ops = some (s, outs)) :
    ∃ m, Spec.Run (fun _ => none) ops outs m ∧ Repr e s m := by
  have hn := init_none e raws
  have hlen : (init e raws).length = raws.length := by simp [init]
  have hpos : 0 < raws.length := List.length_pos_iff.mpr hr
  refine set_history_partial e raws hr ops ?_ s outs h
  refine safeRun_collision_free (fun k => ∃ o ∈ ops, o.key = some k) raws.length ?_ ops _
    (fun _ => none) (dense_of_none hn) (repr_empty hn) hlen hpos
    (fun k hk => absurd rfl hk) (fun o ho k hk => ⟨o, ho, hk⟩)
  rintro a b ⟨o1, ho1, ha⟩ ⟨o2, ho2, hb⟩ he
  exact hinj o1 ho1 o2 ho2 a b ha hb he

example : (setRun (setEnv none) (freshSet (setEnv none) 12)
      [.insert 1 (), .insert 2 (), .erase 1, .contains 1, .insert 1 (), .contains 1, .erase 2,
       .contains 2, .size]).map (·.2) =
    some [.inserted (), .inserted (), .number 1, .truth false, .inserted (), .truth true, .number 1,
      .truth false, .number 1] := by decide +kernel

/-- A history with collisions that the theorem covers: erasing the first of three colliding keys
moves the last one into its place. -/
example : (setRun (setEnv none) (freshSet (setEnv none) 12)
      [.insert 1 (), .insert 4 (), .insert 7 (), .erase 1, .contains 1, .contains 4, .contains 7,
       .erase 4, .contains 7, .size]).map (·.2) =
    some [.inserted (), .inserted (), .inserted (), .number 1, .truth false, .truth true,
      .truth true, .number 1, .truth true, .number 1] := by decide +kernel

/-! ## Where C23 fails -/

/-- C23 is violated whenever an element in the middle of a bucket is erased (neither in its home slot
nor the last): the next element of the bucket is no longer found. -/
theorem set_erase_middle_loses (e : Env K Unit) (hlay : e.lay = setLayout)
    (s s' : Slots K Unit) (hD : Dense e s) (p : Nat) (k k' : K) (hat : At e s p k ())
    (hat' : At e s (p + 1) k' ()) (hidx : index e s.length k' = index e s.length k)
    (hmid : index e s.length k < p) (n : Nat) (h : setErase e s k = some (s', n)) :
    contains e s k' = some true ∧ contains e s' k' = some false := by
  have hpl := get_lt hat.1
  have hs : 0 < s.length := by omega
  refine ⟨by unfold contains; rw [find_complete hD.inv hs hat']; rfl, ?_⟩
  have hls : lastScan e s.length p (s.drop (p + 1)) (p + 1) = some (p + 1) := by
    rw [drop_of_get hat'.1, lastScan, if_neg (by show ¬ p = index e s.length k'; omega)]
  unfold setErase at h
  rw [find_complete hD.inv hs hat] at h
  simp only [eraseGcAt, hat.1, hat'.1, isEmpty, hat'.2, decide_false, Bool.false_eq_true,
    ↓reduceIte, hls, Nat.add_sub_cancel] at h
  cases hsw : swapSlots (s.set p (destruct e ⟨k, ()⟩)) p p with
  | none => rw [hsw] at h; cases h
  | some t =>
    rw [hsw] at h
    simp only [Option.map_some] at h
    injection h with h; injection h with h1 h2
    subst h1
    rw [swap_self _ _ _ hsw]
    have hs' : 0 < (s.set p (destruct e ⟨k, ()⟩)).length := by rw [List.length_set]; exact hs
    obtain ⟨j, g1, g2, g3, g4⟩ := find_cases e _ k' hs' hat'.2
    rw [List.length_set] at g1 g2 g3 g4
    have hjp : j ≤ p := by
      rcases Nat.lt_or_ge p j with hlt | hge
      · exfalso
        obtain ⟨y, hy, hpass⟩ := g3 p (by omega) hlt
        rw [List.getElem?_set_self hpl] at hy
        injection hy with hy; subst hy
        rcases hpass with hpass | ⟨hpass, -⟩
        · have := ((isSparse_iff e _ _).mp hpass).2.1
          rw [hlay] at this; cases this
        · exact hpass rfl
      · exact hge
    unfold contains
    rcases g4 with ⟨g4, -⟩ | ⟨y, -, -, -, g5⟩ | ⟨y, -, -, -, g5⟩ | ⟨y, hy, hyk, -⟩
    · omega
    · rw [g5]; rfl
    · rw [g5]; rfl
    · exfalso
      by_cases hj : j = p
      · subst hj
        rw [List.getElem?_set_self hpl] at hy
        injection hy with hy; subst hy
        exact hat'.2 hyk.symm
      · rw [List.getElem?_set_ne (fun h => hj h.symm)] at hy
        have := hD.uniq j (p + 1) k' y.raw () ⟨by rw [hy, ← hyk], hat'.2⟩ hat'
        omega

theorem set_erase_middle_witness :
    (setRun (setEnv none) (freshSet (setEnv none) 12)
      [.insert 1 (), .insert 4 (), .insert 7 (), .erase 4, .contains 7, .insert 7 (), .size]).map
        (·.2) =
    some [.inserted (), .inserted (), .inserted (), .number 1, .truth false, .inserted (),
      .number 3] := by decide +kernel

/-- C23 is violated in the bucket the null key hashes to (for integers: the first one): erasing the
element in the home slot, while others of the bucket follow and then an empty slot, leaves a hole in
front of them, and the next element is no longer found. -/
theorem set_erase_null_bucket_loses (e : Env K Unit) (hlay : e.lay = setLayout)
    (s s' : Slots K Unit) (hD : Dense e s) (p : Nat) (k k' : K) (hat : At e s p k ())
    (hat' : At e s (p + 1) k' ()) (hidx : index e s.length k' = index e s.length k)
    (hhome : index e s.length k = p) (hnull : index e s.length e.null = p) (j₀ : Nat)
    (hj₀ : p + 1 < j₀) (hfree : ∃ y, s[j₀]? = some y ∧ y.key = e.null)
    (hrun : ∀ q, p < q → q < j₀ → ∃ k₁, At e s q k₁ () ∧ index e s.length k₁ = p) (n : Nat)
    (h : setErase e s k = some (s', n)) :
    contains e s k' = some true ∧ contains e s' k' = some false := by
  have hpl := get_lt hat.1
  have hs : 0 < s.length := by omega
  refine ⟨by unfold contains; rw [find_complete hD.inv hs hat']; rfl, ?_⟩
  obtain ⟨y₀, hy₀, hy₀n⟩ := hfree
  have hj₀l := get_lt hy₀
  have hskip := lastScan_skip e s.length p s (j₀ - p) (p + 1) (by
    intro q hq1 hq2
    by_cases hq : q = j₀
    · subst hq; exact ⟨y₀, hy₀, by rw [hy₀n]; exact hnull⟩
    · obtain ⟨k₁, h1, h2⟩ := hrun q (by omega) (by omega)
      exact ⟨_, h1.1, h2⟩)
  have e1 : p + 1 + (j₀ - p) = j₀ + 1 := by omega
  rw [e1] at hskip
  unfold setErase at h
  rw [find_complete hD.inv hs hat] at h
  simp only [eraseGcAt, hat.1, hat'.1, isEmpty, hat'.2, decide_false, Bool.false_eq_true,
    ↓reduceIte, hskip] at h
  cases hls : lastScan e s.length p (s.drop (j₀ + 1)) (j₀ + 1) with
  | none => rw [hls] at h; cases h
  | some j =>
    rw [hls] at h
    simp only at h
    obtain ⟨g1, g2, g3, -⟩ := lastScan_spec e p s _ (j₀ + 1) j (by omega) rfl hls
    -- the slot it swaps with is empty
    have hz : ∃ z, s[j - 1]? = some z ∧ z.key = e.null := by
      by_cases hj : j - 1 = j₀
      · rw [hj]; exact ⟨y₀, hy₀, hy₀n⟩
      · obtain ⟨z, hz, hz1⟩ := g3 (j - 1) (by omega) (by omega)
        refine ⟨z, hz, ?_⟩
        by_cases hzn : z.key = e.null
        · exact hzn
        · exfalso
          obtain ⟨w, hw, hw1, -⟩ := hD.path (j - 1) z.key z.raw ⟨hz, hzn⟩ j₀ (by omega) (by omega)
          rw [hy₀] at hw; injection hw with hw; subst hw
          exact hw1 hy₀n
    obtain ⟨z, hz, hzn⟩ := hz
    cases hsw : swapSlots (s.set p (destruct e ⟨k, ()⟩)) (j - 1) p with
    | none => rw [hsw] at h; cases h
    | some t =>
      rw [hsw] at h
      simp only [Option.map_some] at h
      injection h with h; injection h with h1 h2
      subst h1
      unfold swapSlots at hsw
      rw [List.getElem?_set_ne (by omega), hz, List.getElem?_set_self hpl] at hsw
      simp only at hsw
      injection hsw with hsw
      have htp : t[p]? = some z := by
        rw [← hsw, List.getElem?_set_self (by rw [List.length_set, List.length_set]; exact hpl)]
      have htl : t.length = s.length := by
        rw [← hsw, List.length_set, List.length_set, List.length_set]
      unfold contains find
      rw [if_neg hat'.2, htl]
      simp only [hidx, hhome]
      rw [drop_of_get htp, findScan, if_neg, if_pos]
      · rfl
      · simp [isEmpty, hzn]
      · rw [isSparse_iff]
        rintro ⟨-, h2, -⟩
        rw [hlay] at h2; cases h2

theorem set_erase_null_bucket_witness :
    (setRun (setEnv none) (freshSet (setEnv none) 12)
      [.insert 3 (), .insert 6 (), .insert 1 (), .erase 3, .contains 6, .size]).map (·.2) =
    some [.inserted (), .inserted (), .inserted (), .number 1, .truth false, .number 2] := by
  decide +kernel

/-- C23 is violated: erasing the element of the last slot reads the memory behind the array. -/
theorem set_erase_last_slot_undefined (e : Env K Unit) (s : Slots K Unit) (hD : Dense e s) (k : K)
    (hat : At e s (s.length - 1) k ()) (hhi : e.hi = none) : setErase e s k = none := by
  have hs : 0 < s.length := by have := get_lt hat.1; omega
  unfold setErase
  rw [find_complete hD.inv hs hat]
  simp only [eraseGcAt, hat.1, hhi]
  rw [List.getElem?_eq_none (by omega)]
  rfl

example : setErase (setEnv none) [⟨1, ()⟩, ⟨2, ()⟩, ⟨3, ()⟩, ⟨4, ()⟩] 4 = none := by decide +kernel

end Verif.Unordered
