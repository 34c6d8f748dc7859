import Verif.Unordered.EraseLemmas
/-!
# Properties of the fixed-size unordered map (C21, C22)

`Spec.Run` (Spec.lean) is the reference: a partial function from keys to values.  A history on the
model is `run`; `none` is undefined behaviour.
-/

namespace Verif.Unordered

set_option linter.unusedSectionVars false

variable {K V : Type} [DecidableEq K]

/-! ## One operation -/

theorem rawAt_eq {e : Env K V} {s : Slots K V} {i : Nat} {k : K} {v : V} (h : At e s i k v) :
    rawAt s i = some v := by
  unfold rawAt; rw [h.1]; rfl

theorem seen_inserted {e : Env K V} {s : Slots K V} {i : Nat} {k : K} {v : V} (h : At e s i k v) :
    seen s (some i, true) = some (.inserted v) := by
  simp only [seen, rawAt_eq h, Option.map_some]

theorem seen_present {e : Env K V} {s : Slots K V} {i : Nat} {k : K} {v : V} (h : At e s i k v) :
    seen s (some i, false) = some (.present v) := by
  simp only [seen, rawAt_eq h, Option.map_some]

/-- Outcomes of `insert_precheck` on a well-formed table. -/
theorem precheck_repr {e : Env K V} {s : Slots K V} {m : K → Option V} (hI : Inv e s)
    (hm : Repr e s m) (hs : 0 < s.length) {k : K} {r : Pre} (h : precheck e s k = some r)
    (hc : ¬ Clobbers e s k) :
    (∃ i, r = .fresh i ∧ m k = none) ∨ (∃ i v, r = .dup i ∧ At e s i k v ∧ m k = some v) ∨
    (r = .refused ∧ m k = none) := by
  by_cases hk : k = e.null
  · right; right
    rw [precheck, if_pos hk] at h
    injection h with h
    refine ⟨h.symm, ?_⟩
    rw [hm.none_iff]
    intro p v hp; exact hp.2 hk
  obtain ⟨j, h1, h2, h3, h4⟩ := precheck_cases e s k hs hk
  -- an element with this key would have been met before slot j
  have hbefore : ∀ p w, At e s p k w → j ≤ p := by
    intro p w hp
    rcases Nat.lt_or_ge p j with h' | h'
    · obtain ⟨y, hy, -, -, hy1⟩ := h3 p (hI.home p k w hp) h'
      have := hp.key_eq hy
      subst this; exact absurd rfl hy1
    · exact h'
  rcases h4 with ⟨h4, h5⟩ | ⟨y, hy, hn, h5⟩ | ⟨y, hy, hn, hne, h5⟩ | ⟨y, hy, hyk, h5⟩
  · have hnone : m k = none := by
      rw [hm.none_iff]
      intro p v hp
      have := hbefore p v hp
      have := get_lt hp.1
      omega
    rw [h] at h5
    cases hh : e.hi with
    | none => rw [hh] at h5; cases h5
    | some x =>
      rw [hh] at h5
      simp only [Option.map_some] at h5
      injection h5 with h5
      split at h5
      · exact Or.inl ⟨j, h5, hnone⟩
      · exact Or.inr (Or.inr ⟨h5, hnone⟩)
  · left
    rw [h] at h5; injection h5 with h5
    refine ⟨j, h5, ?_⟩
    obtain ⟨-, habs, -, -⟩ := insert_inv (v := y.raw) hI hk hs (get_lt hy) (h5 ▸ h) hc
    exact (hm.none_iff k).mpr habs
  · right; right
    rw [h] at h5; injection h5 with h5
    refine ⟨h5, ?_⟩
    rw [hm.none_iff]
    intro p v hp
    have hb := hbefore p v hp
    by_cases hpj : p = j
    · subst hpj
      have := hp.key_eq hy
      subst this; exact hne rfl
    · obtain ⟨z, hz, hz1⟩ := hI.path p k v hp j h1 (by omega)
      rw [hy] at hz; injection hz with hz; subst hz
      rcases hz1 with ⟨-, hz1⟩ | hz1
      · exact hne hz1
      · exact hn ((isSparse_iff e _ _).mp hz1).1
  · right; left
    rw [h] at h5; injection h5 with h5
    have hat : At e s j k y.raw := ⟨by rw [hy, ← hyk], hk⟩
    exact ⟨j, y.raw, h5, hat, hm.some_of_at hat⟩

/-- The slot an insertion takes, and the slots already taken. -/
def Grows (e : Env K V) (s s' : Slots K V) : Prop :=
  ∀ p k v, At e s' p k v → (∃ w, At e s p k w) ∨ precheck e s k = some (.fresh p)

theorem insert_step {e : Env K V} {s : Slots K V} {m : K → Option V} (hI : Inv e s)
    (hm : Repr e s m) (hs : 0 < s.length) {k : K} {v : V} (hc : ¬ Clobbers e s k)
    {s' : Slots K V} {r : InsRes} (h : insert e s k v = some (s', r)) :
    ∃ o m', seen s' r = some o ∧ Spec.Step m (.insert k v) o m' ∧ Inv e s' ∧ Repr e s' m' ∧
      s'.length = s.length ∧ Grows e s s' ∧
      ((r.2 = true ∧ m k = none ∧ m' = Spec.upd m k (some v) ∧ o = .inserted v) ∨
       (m k ≠ none ∧ r.2 = false ∧ ∃ w, o = .present w) ∨
       (m k = none ∧ m' = m ∧ o = .refused)) ∧ (Dense e s → Dense e s') := by
  unfold insert at h
  cases hp : precheck e s k with
  | none => rw [hp] at h; cases h
  | some pr =>
    rw [hp] at h
    rcases precheck_repr hI hm hs hp hc with ⟨i, rfl, hnone⟩ | ⟨i, w, rfl, hat, hw⟩ | ⟨rfl, hnone⟩
    · simp only at h
      split at h
      · rename_i hi
        injection h with h; injection h with h1 h2
        subst h1; subst h2
        have hk : k ≠ e.null := by
          intro hk; rw [precheck, if_pos hk] at hp; cases hp
        obtain ⟨hI', habs, hslot, -⟩ := insert_inv (v := v) hI hk hs hi hp hc
        refine ⟨.inserted v, Spec.upd m k (some v), seen_inserted (at_set_self hi hk),
          ⟨hnone, rfl, rfl⟩, hI', repr_insert hm hk hi habs hslot, List.length_set, ?_,
          Or.inl ⟨rfl, hnone, rfl, rfl⟩, fun hD => dense_insert hD hk hs hi hp⟩
        intro p k' v' hp'
        by_cases hpi : p = i
        · subst hpi
          have := hp'.key_eq (at_set_self (e := e) (v := v) hi hk).1
          injection this with h1; subst h1
          exact Or.inr hp
        · exact Or.inl ⟨v', (at_set_ne hpi).mp hp'⟩
      · cases h
    · injection h with h; injection h with h1 h2
      subst h1; subst h2
      exact ⟨.present w, m, seen_present hat, ⟨hw, rfl⟩, hI, hm, rfl,
        fun p k' v' hp' => Or.inl ⟨v', hp'⟩,
        Or.inr (Or.inl ⟨by rw [hw]; exact nofun, rfl, w, rfl⟩), id⟩
    · injection h with h; injection h with h1 h2
      subst h1; subst h2
      exact ⟨.refused, m, rfl, ⟨hnone, rfl⟩, hI, hm, rfl,
        fun p k' v' hp' => Or.inl ⟨v', hp'⟩, Or.inr (Or.inr ⟨hnone, rfl, rfl⟩), id⟩

/-- Does the operation erase single elements? -/
def Op.erases : Op K V → Bool
  | .erase _ => true
  | _ => false

/-- Each operation on a well-formed table that does not clobber does what the map says, and leaves
a well-formed table. -/
theorem step_refines {e : Env K V} {o : Op K V} (hl : o.erases = true → e.lay.Lawful)
    {s s' : Slots K V} {m : K → Option V} (hI : Inv e s) (hm : Repr e s m) (hs : 0 < s.length)
    {r : Out V} (hc : Clean e s o) (h : step e s o = some (s', r)) :
    ∃ m', Spec.Step m o r m' ∧ Inv e s' ∧ Repr e s' m' ∧ s'.length = s.length ∧ Grows e s s' ∧
      (o.erases = false → Dense e s → Dense e s') := by
  have hsame : Grows e s s := fun p k v hp => Or.inl ⟨v, hp⟩
  cases o with
  | insert k v =>
    simp only [step] at h
    cases hi : insert e s k v with
    | none => rw [hi] at h; cases h
    | some pr =>
      obtain ⟨s1, r1⟩ := pr
      rw [hi] at h
      obtain ⟨o, m', h1, h2, h3, h4, h5, h6, -, h8⟩ := insert_step hI hm hs hc hi
      simp only [h1, Option.map_some] at h
      injection h with h; injection h with ha hb
      subst ha; subst hb
      exact ⟨m', h2, h3, h4, h5, h6, fun _ => h8⟩
  | assign k v =>
    simp only [step] at h
    cases hi : insertOrAssign e s k v with
    | none => rw [hi] at h; cases h
    | some pr =>
      obtain ⟨s1, r1⟩ := pr
      rw [hi] at h
      simp only at h
      unfold insertOrAssign at hi
      cases hf : find e s k with
      | none => rw [hf] at hi; cases hi
      | some fr =>
        rw [hf] at hi
        rcases find_repr hI hm hs k fr hf with ⟨hk, rfl⟩ | ⟨p, u, hk, rfl, hat⟩
        · simp only at hi
          obtain ⟨o, m', h1, h2, h3, h4, h5, h6, h7, h8⟩ := insert_step hI hm hs (hc hf) hi
          simp only [h1, Option.map_some] at h
          injection h with h; injection h with ha hb
          subst ha; subst hb
          refine ⟨m', ?_, h3, h4, h5, h6, fun _ => h8⟩
          rcases h7 with ⟨-, -, hm', rfl⟩ | ⟨hne, -⟩ | ⟨hn, hm', rfl⟩
          · exact ⟨rfl, hm'⟩
          · exact absurd hk hne
          · exact ⟨hn, hm'⟩
        · simp only [hat.1] at hi
          injection hi with hi; injection hi with ha hb
          subst ha; subst hb
          have hlt := get_lt hat.1
          have hself : At e (s.set p ⟨k, v⟩) p k v := at_set_self hlt hat.2
          rw [seen_inserted hself] at h
          simp only [Option.map_some] at h
          injection h with h; injection h with ha hb
          subst ha; subst hb
          refine ⟨Spec.upd m k (some v), ⟨rfl, rfl⟩, assign_inv hI hat, repr_assign hI hm hat,
            List.length_set, ?_, fun _ hD => assign_dense hD hat⟩
          intro q k' v' hq
          by_cases hqp : q = p
          · subst hqp
            have := hq.key_eq hself.1
            injection this with h1; subst h1
            exact Or.inl ⟨u, hat⟩
          · exact Or.inl ⟨v', (at_set_ne hqp).mp hq⟩
  | sub k =>
    simp only [step] at h
    cases hi : subscript e s k with
    | none => rw [hi] at h; cases h
    | some pr =>
      obtain ⟨s1, i1⟩ := pr
      rw [hi] at h
      simp only at h
      unfold subscript at hi
      cases hf : find e s k with
      | none => rw [hf] at hi; cases hi
      | some fr =>
        rw [hf] at hi
        rcases find_repr hI hm hs k fr hf with ⟨hk, rfl⟩ | ⟨p, u, hk, rfl, hat⟩
        · simp only at hi
          cases hp : precheck e s k with
          | none => rw [hp] at hi; cases hi
          | some pr =>
            rw [hp] at hi
            rcases precheck_repr hI hm hs hp (hc hf) with ⟨i, rfl, -⟩ | ⟨i, w, rfl, -, hw⟩ |
              ⟨rfl, -⟩
            · simp only at hi
              cases hx : s[i]? with
              | none => rw [hx] at hi; cases hi
              | some x =>
                rw [hx] at hi
                simp only at hi
                injection hi with hi; injection hi with ha hb
                subst ha; subst hb
                have hlt := get_lt hx
                have hkn : k ≠ e.null := by
                  intro hkn; rw [precheck, if_pos hkn] at hp; cases hp
                have hself : At e (s.set i ⟨k, x.raw⟩) i k x.raw := at_set_self hlt hkn
                rw [rawAt_eq hself] at h
                simp only [Option.map_some] at h
                injection h with h; injection h with ha hb
                subst ha; subst hb
                obtain ⟨hI', habs, hslot, -⟩ := insert_inv (v := x.raw) hI hkn hs hlt hp (hc hf)
                refine ⟨Spec.upd m k (some x.raw), Or.inr ⟨hk, rfl⟩, hI',
                  repr_insert hm hkn hlt habs hslot, List.length_set, ?_,
                  fun _ hD => dense_insert hD hkn hs hlt hp⟩
                intro q k' v' hq
                by_cases hqp : q = i
                · subst hqp
                  have := hq.key_eq hself.1
                  injection this with h1; subst h1
                  exact Or.inr hp
                · exact Or.inl ⟨v', (at_set_ne hqp).mp hq⟩
            · rw [hw] at hk; cases hk
            · cases hi
        · simp only at hi
          injection hi with hi; injection hi with ha hb
          subst ha; subst hb
          rw [rawAt_eq hat] at h
          simp only [Option.map_some] at h
          injection h with h; injection h with ha hb
          subst ha; subst hb
          exact ⟨m, Or.inl ⟨hk, rfl⟩, hI, hm, rfl, hsame, fun _ => id⟩
  | erase k =>
    simp only [step] at h
    cases hi : erase e s k with
    | none => rw [hi] at h; cases h
    | some pr =>
      obtain ⟨s1, n1⟩ := pr
      rw [hi] at h
      simp only [Option.map_some] at h
      injection h with h; injection h with ha hb
      subst ha; subst hb
      unfold erase at hi
      cases hf : find e s k with
      | none => rw [hf] at hi; cases hi
      | some fr =>
        rw [hf] at hi
        rcases find_repr hI hm hs k fr hf with ⟨hk, rfl⟩ | ⟨p, u, hk, rfl, hat⟩
        · simp only at hi
          injection hi with hi; injection hi with ha hb
          subst ha; subst hb
          exact ⟨m, ⟨hk, rfl⟩, hI, hm, rfl, hsame, fun _ => id⟩
        · simp only at hi
          cases he : eraseAt e s p (index e s.length k) with
          | none => rw [he] at hi; cases hi
          | some s2 =>
            rw [he] at hi
            simp only [Option.map_some] at hi
            injection hi with hi; injection hi with ha hb
            subst ha; subst hb
            have hlt : index e s.length k < 64 ∨ LastOfBucket e s p k :=
              Or.imp id (fun h' => h' p u hat) hc
            obtain ⟨a, b, c⟩ := eraseAt_inv (hl rfl) hI hat hlt he
            refine ⟨Spec.upd m k none,
              ⟨by rw [hk]; exact nofun, rfl⟩, b,
              repr_erase hI hm hat c, a, ?_, fun h => by cases h⟩
            intro q k' v' hq
            exact Or.inl ⟨v', ((c q k' v').mp hq).1⟩
  | clear =>
    simp only [step] at h
    injection h with h; injection h with ha hb
    subst ha; subst hb
    have hn := clear_none e s
    refine ⟨fun _ => none, rfl, (dense_of_none hn).inv, ?_, by simp [clear], ?_,
      fun _ _ => dense_of_none hn⟩
    · intro k v
      exact ⟨nofun, fun ⟨p, hp⟩ => absurd hp (hn p k v)⟩
    · intro p k v hp; exact absurd hp (hn p k v)
  | find k =>
    simp only [step, lookup] at h
    cases hf : find e s k with
    | none => rw [hf] at h; cases h
    | some fr =>
      rw [hf] at h
      simp only [Option.map_some] at h
      injection h with h; injection h with ha hb
      subst ha; subst hb
      refine ⟨m, ⟨?_, rfl⟩, hI, hm, rfl, hsame, fun _ => id⟩
      rcases find_repr hI hm hs k fr hf with ⟨hk, rfl⟩ | ⟨p, u, hk, rfl, hat⟩
      · rw [hk]; rfl
      · rw [hk]; simp [hat.1]
  | contains k =>
    simp only [step, contains] at h
    cases hf : find e s k with
    | none => rw [hf] at h; cases h
    | some fr =>
      rw [hf] at h
      simp only [Option.map_some] at h
      injection h with h; injection h with ha hb
      subst ha; subst hb
      refine ⟨m, ⟨?_, rfl⟩, hI, hm, rfl, hsame, fun _ => id⟩
      rcases find_repr hI hm hs k fr hf with ⟨hk, rfl⟩ | ⟨p, u, hk, rfl, hat⟩
      · rw [hk]; rfl
      · rw [hk]; rfl
  | count k =>
    simp only [step] at h
    cases hf : count e s k with
    | none => rw [hf] at h; cases h
    | some n =>
      rw [hf] at h
      simp only [Option.map_some] at h
      injection h with h; injection h with ha hb
      subst ha; subst hb
      exact ⟨m, ⟨count_spec hI hm hf, rfl⟩, hI, hm, rfl, hsame, fun _ => id⟩
  | size =>
    simp only [step] at h
    injection h with h; injection h with ha hb
    subst ha; subst hb
    exact ⟨m, ⟨size_card hI hm, rfl⟩, hI, hm, rfl, hsame, fun _ => id⟩
  | isEmpty =>
    simp only [step] at h
    injection h with h; injection h with ha hb
    subst ha; subst hb
    exact ⟨m, ⟨empty_iff hm, rfl⟩, hI, hm, rfl, hsame, fun _ => id⟩

/-! ## Histories -/

theorem repr_empty {e : Env K V} {s : Slots K V} (h : ∀ p k v, ¬ At e s p k v) :
    Repr e s (fun _ => none) :=
  fun k v => ⟨nofun, fun ⟨p, hp⟩ => absurd hp (h p k v)⟩

theorem run_refines {e : Env K V} (hl : e.lay.Lawful) :
    ∀ (ops : List (Op K V)) (s s' : Slots K V) (m : K → Option V) (outs : List (Out V)),
      Inv e s → Repr e s m → 0 < s.length → CleanRun e s ops → run e s ops = some (s', outs) →
      ∃ m', Spec.Run m ops outs m' ∧ Inv e s' ∧ Repr e s' m' ∧ s'.length = s.length := by
  intro ops
  induction ops with
  | nil =>
    intro s s' m outs hI hm _ _ h
    rw [run] at h
    injection h with h; injection h with h1 h2
    subst h1; subst h2
    exact ⟨m, rfl, hI, hm, rfl⟩
  | cons o os ih =>
    intro s s' m outs hI hm hs hc h
    rw [run] at h
    cases hst : step e s o with
    | none => rw [hst] at h; cases h
    | some pr =>
      obtain ⟨s1, r⟩ := pr
      rw [hst] at h
      simp only at h
      cases hr : run e s1 os with
      | none => rw [hr] at h; cases h
      | some pr2 =>
        obtain ⟨s2, rs⟩ := pr2
        rw [hr] at h
        simp only [Option.map_some] at h
        injection h with h; injection h with h1 h2
        subst h1; subst h2
        obtain ⟨m1, h1, h2, h3, h4, -, -⟩ := step_refines (fun _ => hl) hI hm hs hc.1 hst
        obtain ⟨m2, g1, g2, g3, g4⟩ := ih s1 s2 m1 rs h2 h3 (by omega) (hc.2 s1 r hst) hr
        exact ⟨m2, ⟨m1, h1, g1⟩, g2, g3, by omega⟩

/-- Histories without single-element erasures are clean. -/
theorem cleanRun_of_dense {e : Env K V} :
    ∀ (ops : List (Op K V)) (s : Slots K V) (m : K → Option V), Dense e s → Repr e s m →
      0 < s.length → (∀ o ∈ ops, o.erases = false) → CleanRun e s ops := by
  intro ops
  induction ops with
  | nil => intro s m _ _ _ _; exact trivial
  | cons o os ih =>
    intro s m hD hm hs ho
    have hno := ho o (by simp)
    have hcl : Clean e s o := by
      cases o with
      | insert k v => exact dense_clean hD hs k
      | assign k v => exact fun _ => dense_clean hD hs k
      | sub k => exact fun _ => dense_clean hD hs k
      | erase k => cases hno
      | _ => exact trivial
    refine ⟨hcl, ?_⟩
    intro s1 r hst
    obtain ⟨m1, -, -, h3, h4, -, h6⟩ := step_refines (by rw [hno]; exact nofun) hD.inv hm hs hcl hst
    exact ih s1 m1 (h6 hno hD) h3 (by omega) fun o' ho' => ho o' (by simp [ho'])

end Verif.Unordered
