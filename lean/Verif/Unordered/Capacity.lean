import Verif.Unordered.Lifetimes
import Mathlib.Data.List.Perm.Subperm
import Mathlib.Data.List.Nodup
/-!
# C124: how many elements a fixed-size unordered container takes

`src/estd/internal/container/unordered/base.h:140-144` (`index`), `207-242` (`insert_precheck`): buckets start at the slots
`4 * hash % N`, which are `gcd(4, N)` apart; an element goes to the first free slot from there on, if only elements of its own
bucket are in between.
-/
namespace Verif.Unordered

variable {K V : Type} [DecidableEq K]

/-! ## Specification -/

/-- the keys differ, none is the null key, and no more of them belong to one bucket than fit between two bucket starts -/
structure Spec.Balanced (e : Env K V) (N : Nat) (ks : List K) : Prop where
  distinct : ks.Nodup
  present : e.null ∉ ks
  share : ∀ n, (ks.filter fun k => index e N k = n).length ≤ Nat.gcd 4 N

/-! ## One insertion -/

theorem probe_fresh (e : Env K V) (N n : Nat) (k : K) (s : Slots K V) (y : Slot K V) : ∀ (j p : Nat),
    (∀ i, i < j → ∃ x, s[p + i]? = some x ∧ x.key ≠ e.null ∧ index e N x.key = n ∧ x.key ≠ k) →
    s[p + j]? = some y → y.key = e.null → probe e N n k (s.drop p) p = some (.fresh (p + j)) := by
  intro j
  induction j with
  | zero =>
    intro p _ hy hn
    simp only [Nat.add_zero] at hy ⊢
    have hp := get_lt hy
    rw [List.drop_eq_getElem_cons hp, probe]
    rw [List.getElem?_eq_getElem hp, Option.some.injEq] at hy
    rw [show s[p] = y from hy]
    simp [isEmpty, hn]
  | succ j ih =>
    intro p hx hy hn
    obtain ⟨x, h0, h1, h2, h3⟩ := hx 0 (by omega)
    have hp := get_lt h0
    simp only [Nat.add_zero] at h0 hp
    rw [List.getElem?_eq_getElem hp, Option.some.injEq] at h0
    rw [List.drop_eq_getElem_cons hp, probe, h0]
    have h3' : ¬ k = x.key := fun h => h3 h.symm
    simp only [isEmpty, h1, decide_false, Bool.false_eq_true, if_false, h2, ne_eq, not_true_eq_false, h3']
    rw [ih (p + 1) (fun i hi => by
      obtain ⟨z, hz⟩ := hx (i + 1) (by omega)
      exact ⟨z, by rw [show p + 1 + i = p + (i + 1) by omega]; exact hz⟩) (by rw [← hy]; congr 1; omega) hn]
    congr 2; omega

theorem insert_fresh (e : Env K V) (s : Slots K V) (k : K) (v : V) (j : Nat) (y : Slot K V) (hk : k ≠ e.null)
    (hx : ∀ i, i < j → ∃ x, s[index e s.length k + i]? = some x ∧ x.key ≠ e.null ∧
      index e s.length x.key = index e s.length k ∧ x.key ≠ k)
    (hy : s[index e s.length k + j]? = some y) (hn : y.key = e.null) :
    step e s (.insert k v) = some (s.set (index e s.length k + j) ⟨k, v⟩, .inserted v) := by
  have hlt := get_lt hy
  have hp : precheck e s k = some (.fresh (index e s.length k + j)) := by
    unfold precheck
    rw [if_neg hk]
    exact probe_fresh e _ _ k s y j _ hx hy hn
  unfold step insert
  simp only [hp, if_pos hlt, seen]
  simp [rawAt, hlt]

theorem find_at (e : Env K V) (N n : Nat) (k : K) (hk : k ≠ e.null) (s : Slots K V) (v : V) (hi : index e N k = n) : ∀ (j p : Nat),
    (∀ i, i < j → ∃ x, s[p + i]? = some x ∧ x.key ≠ e.null ∧ index e N x.key = n ∧ x.key ≠ k) →
    s[p + j]? = some ⟨k, v⟩ → findScan e N n k (s.drop p) p = some (some (p + j)) := by
  intro j
  induction j with
  | zero =>
    intro p _ hy
    simp only [Nat.add_zero] at hy ⊢
    have hp := get_lt hy
    rw [List.drop_eq_getElem_cons hp, findScan]
    rw [List.getElem?_eq_getElem hp, Option.some.injEq] at hy
    rw [show s[p] = ⟨k, v⟩ from hy]
    simp [isSparse, isEmpty, hk, hi]
  | succ j ih =>
    intro p hx hy
    obtain ⟨x, h0, h1, h2, h3⟩ := hx 0 (by omega)
    have hp := get_lt h0
    simp only [Nat.add_zero] at h0 hp
    rw [List.getElem?_eq_getElem hp, Option.some.injEq] at h0
    rw [List.drop_eq_getElem_cons hp, findScan, h0]
    have h3' : ¬ k = x.key := fun h => h3 h.symm
    simp only [isSparse, isEmpty, h1, decide_false, Bool.false_and, Bool.false_eq_true, if_false, h2, ne_eq, not_true_eq_false, h3']
    rw [ih (p + 1) (fun i hi => by
      obtain ⟨z, hz⟩ := hx (i + 1) (by omega)
      exact ⟨z, by rw [show p + 1 + i = p + (i + 1) by omega]; exact hz⟩) (by rw [← hy]; congr 1; omega)]
    congr 2; omega

/-! ## A table filled evenly -/

/-- the elements of one bucket, in the order they came -/
def Spec.share (e : Env K V) (N n : Nat) (kvs : List (K × V)) : List (K × V) := kvs.filter fun p => index e N p.1 = n

/-- each bucket holds its elements in order from its start on, followed by free slots -/
structure Even (e : Env K V) (g : Nat) (s : Slots K V) (done : List (K × V)) : Prop where
  slots : ∀ n, g ∣ n → n < s.length → ∀ i, i < g → ∃ y, s[n + i]? = some y ∧
    match (Spec.share e s.length n done)[i]? with
    | some p => y = ⟨p.1, p.2⟩
    | none => y.key = e.null
  size : size e s = done.length

theorem eq_of_slot {g n m i j : Nat} (hn : g ∣ n) (hm : g ∣ m) (hi : i < g) (hj : j < g) (h : n + i = m + j) : n = m ∧ i = j := by
  obtain ⟨a, rfl⟩ := hn
  obtain ⟨b, rfl⟩ := hm
  have h1 : (g * a + i) / g = a := by rw [Nat.mul_add_div (by omega), Nat.div_eq_of_lt hi, Nat.add_zero]
  have h2 : (g * b + j) / g = b := by rw [Nat.mul_add_div (by omega), Nat.div_eq_of_lt hj, Nat.add_zero]
  have : a = b := by rw [← h1, ← h2, h]
  subst this
  exact ⟨rfl, by omega⟩

theorem share_append (e : Env K V) (N n : Nat) (l : List (K × V)) (p : K × V) :
    Spec.share e N n (l ++ [p]) = if index e N p.1 = n then Spec.share e N n l ++ [p] else Spec.share e N n l := by
  unfold Spec.share
  rw [List.filter_append]
  by_cases h : index e N p.1 = n <;> simp [h]

theorem even_step {e : Env K V} {g : Nat} {s : Slots K V} {done : List (K × V)} (hE : Even e g s done) (k : K) (v : V)
    (hk : k ≠ e.null) (hs : 0 < s.length) (hg : g ∣ index e s.length k) (hnew : k ∉ done.map (·.1))
    (hnull : e.null ∉ done.map (·.1)) (hroom : (Spec.share e s.length (index e s.length k) done).length < g) :
    ∃ s', step e s (.insert k v) = some (s', .inserted v) ∧ s'.length = s.length ∧ Even e g s' (done ++ [(k, v)]) := by
  have hlt := index_lt e hs k
  have hmem : ∀ p ∈ Spec.share e s.length (index e s.length k) done, p ∈ done ∧ index e s.length p.1 = index e s.length k := by
    intro p hp; simpa [Spec.share] using hp
  obtain ⟨y, hy, hyn⟩ := hE.slots _ hg hlt _ hroom
  rw [List.getElem?_eq_none (by omega)] at hyn
  have hst := insert_fresh e s k v (Spec.share e s.length (index e s.length k) done).length y hk (by
    intro i hi
    obtain ⟨x, hx, hxs⟩ := hE.slots _ hg hlt i (by omega)
    rw [List.getElem?_eq_getElem hi] at hxs
    simp only at hxs
    obtain ⟨m1, m2⟩ := hmem _ (List.getElem_mem hi)
    refine ⟨x, hx, ?_, ?_, ?_⟩
    · rw [hxs]; intro h; exact hnull (by rw [← h]; exact List.mem_map_of_mem m1)
    · rw [hxs]; exact m2
    · rw [hxs]; intro h; exact hnew (by rw [← h]; exact List.mem_map_of_mem m1)) hy hyn
  refine ⟨_, hst, by simp, ?_, ?_⟩
  · intro n hn hnl i hi
    simp only [List.length_set] at hnl ⊢
    rw [share_append]
    by_cases h : n + i = index e s.length k + (Spec.share e s.length (index e s.length k) done).length
    · obtain ⟨rfl, rfl⟩ := eq_of_slot hn hg hi hroom h
      refine ⟨⟨k, v⟩, by rw [List.getElem?_set_self (get_lt hy)], ?_⟩
      rw [if_pos rfl, List.getElem?_append_right (Nat.le_refl _)]
      simp
    · rw [List.getElem?_set_ne (fun h' => h h'.symm)]
      obtain ⟨x, hx, hxs⟩ := hE.slots n hn hnl i hi
      refine ⟨x, hx, ?_⟩
      by_cases hin : index e s.length k = n
      · subst hin
        rw [if_pos rfl]
        rcases Nat.lt_or_ge i (Spec.share e s.length (index e s.length k) done).length with hl | hl
        · rw [List.getElem?_append_left hl]; exact hxs
        · rw [List.getElem?_eq_none hl] at hxs
          rw [List.getElem?_eq_none (by simp; omega)]; exact hxs
      · rw [if_neg hin]; exact hxs
  · rw [Life.size_fill hy hyn (by exact hk), hE.size]; simp

theorem even_run {e : Env K V} {g : Nat} (hg : ∀ N k, N % g = 0 → g ∣ index e N k) : ∀ (kvs done : List (K × V)) (s : Slots K V),
    Even e g s done → 0 < s.length → s.length % g = 0 → ((done ++ kvs).map (·.1)).Nodup → e.null ∉ (done ++ kvs).map (·.1) →
    (∀ n, (Spec.share e s.length n (done ++ kvs)).length ≤ g) →
    ∃ s', run e s (kvs.map fun p => Op.insert p.1 p.2) = some (s', kvs.map fun p => .inserted p.2) ∧ s'.length = s.length ∧
      Even e g s' (done ++ kvs) := by
  intro kvs
  induction kvs with
  | nil => intro done s hE _ _ _ _ _; exact ⟨s, rfl, rfl, by simpa using hE⟩
  | cons p kvs ih =>
    intro done s hE hs hN hd hnull hsh
    have hsh' := hsh (index e s.length p.1)
    have e1 : Spec.share e s.length (index e s.length p.1) (done ++ p :: kvs) =
        Spec.share e s.length (index e s.length p.1) done ++ p :: Spec.share e s.length (index e s.length p.1) kvs := by
      unfold Spec.share; rw [List.filter_append]; simp
    rw [e1] at hsh'
    simp only [List.length_append, List.length_cons] at hsh'
    simp only [List.map_append, List.map_cons] at hd hnull
    have hk : p.1 ≠ e.null := fun h => hnull (by rw [← h]; simp)
    have hnew : p.1 ∉ done.map (·.1) := fun h => (List.nodup_append.mp hd).2.2 _ h _ (by simp) rfl
    obtain ⟨s', h1, h2, h3⟩ := even_step hE p.1 p.2 hk hs (hg _ _ hN) hnew (fun h => hnull (by simp [h])) (by omega)
    obtain ⟨s'', i1, i2, i3⟩ := ih (done ++ [p]) s' h3 (by omega) (by rw [h2]; exact hN)
      (by simpa using hd) (by simpa using hnull) (by rw [h2]; simpa using hsh)
    refine ⟨s'', ?_, by omega, by simpa using i3⟩
    simp only [List.map_cons]
    rw [run, h1]
    simp only [i1, Option.map_some]

theorem gcd_dvd_index (e : Env K V) (hw : 4 ∣ e.word) (n N : Nat) (k : K) (hN : N % Nat.gcd 4 n = 0) :
    Nat.gcd 4 n ∣ index e N k := by
  have hg4 : Nat.gcd 4 n ∣ 4 := Nat.gcd_dvd_left _ _
  unfold index bucketDepth
  rw [Nat.dvd_mod_iff (Nat.dvd_of_mod_eq_zero hN), Nat.dvd_mod_iff (Nat.dvd_trans hg4 hw)]
  exact Nat.dvd_trans hg4 (Nat.dvd_mul_right _ _)

theorem balanced_share {e : Env K V} {N : Nat} {kvs : List (K × V)} (hb : Spec.Balanced e N (kvs.map (·.1))) (n : Nat) :
    (Spec.share e N n kvs).length ≤ Nat.gcd 4 N := by
  have := hb.share n
  rw [List.filter_map, List.length_map] at this
  exact this

theorem balanced_even (e : Env K V) (hw : 4 ∣ e.word) (raws : List V) (hr : raws ≠ []) (kvs : List (K × V))
    (hb : Spec.Balanced e raws.length (kvs.map (·.1))) :
    ∃ s, run e (init e raws) (kvs.map fun p => Op.insert p.1 p.2) = some (s, kvs.map fun p => .inserted p.2) ∧
      s.length = raws.length ∧ Even e (Nat.gcd 4 raws.length) s kvs := by
  have hpos : 0 < raws.length := List.length_pos_iff.mpr hr
  have hgN : Nat.gcd 4 raws.length ∣ raws.length := Nat.gcd_dvd_right _ _
  have hidx : ∀ N k, N % Nat.gcd 4 raws.length = 0 → Nat.gcd 4 raws.length ∣ index e N k := fun N k => gcd_dvd_index e hw _ N k
  have hlen : (init e raws).length = raws.length := by simp [init]
  have hshare := balanced_share hb
  have h0 : Even e (Nat.gcd 4 raws.length) (init e raws) [] := by
    refine ⟨fun n hn hnl i hi => ?_, ?_⟩
    · rw [hlen] at hnl
      have hlt : n + i < raws.length := by
        obtain ⟨a, ha⟩ := hgN
        obtain ⟨b, rfl⟩ := hn
        have : b < a := by
          have h : Nat.gcd 4 raws.length * b < Nat.gcd 4 raws.length * a := Nat.lt_of_lt_of_eq hnl ha
          exact Nat.lt_of_mul_lt_mul_left h
        calc _ < Nat.gcd 4 raws.length * b + Nat.gcd 4 raws.length := by omega
          _ = Nat.gcd 4 raws.length * (b + 1) := by rw [Nat.mul_add, Nat.mul_one]
          _ ≤ Nat.gcd 4 raws.length * a := Nat.mul_le_mul_left _ this
          _ = raws.length := ha.symm
      refine ⟨⟨e.null, raws[n + i]⟩, by simp [init, hlt], ?_⟩
      simp [Spec.share]
    · simp [Verif.Unordered.size, init, isEmpty, List.filter_map]
  obtain ⟨s, h1, h2, h3⟩ := even_run hidx kvs [] (init e raws) h0 (by omega) (by rw [hlen]; exact Nat.mod_eq_zero_of_dvd hgN)
    (by simpa using hb.distinct) (by simpa using hb.present) (by rw [hlen]; simpa using hshare)
  exact ⟨s, h1, by omega, by simpa using h3⟩

/-- **C124 (partial).** A container of `N` slots takes every set of keys of which no bucket gets more than fit between two
bucket starts: each insertion makes a new element, afterwards each lookup of a key gives its value, and `size()` is the number
of keys.  With a hash that spreads them evenly these are `N` keys (`consecutive_fit`).

Missing: more keys of one bucket than that.  The surplus may be taken, but at the expense of the next bucket
(`spill_starves`), and in the last bucket it is undefined (C21). -/
theorem balanced_fits_partial (e : Env K V) (hw : 4 ∣ e.word) (raws : List V) (hr : raws ≠ []) (kvs : List (K × V))
    (hb : Spec.Balanced e raws.length (kvs.map (·.1))) :
    ∃ s, run e (init e raws) (kvs.map fun p => Op.insert p.1 p.2) = some (s, kvs.map fun p => .inserted p.2) ∧
      (∀ p ∈ kvs, lookup e s p.1 = some (some p.2)) ∧ size e s = kvs.length := by
  have hpos : 0 < raws.length := List.length_pos_iff.mpr hr
  have hgN : Nat.gcd 4 raws.length ∣ raws.length := Nat.gcd_dvd_right _ _
  have hidx : ∀ N k, N % Nat.gcd 4 raws.length = 0 → Nat.gcd 4 raws.length ∣ index e N k := fun N k => gcd_dvd_index e hw _ N k
  have hshare := balanced_share hb
  obtain ⟨s, h1, hls, h3⟩ := balanced_even e hw raws hr kvs hb
  refine ⟨s, h1, fun p hp => ?_, h3.size⟩
  have hpm : p ∈ Spec.share e s.length (index e s.length p.1) kvs := by simp [Spec.share, hp]
  obtain ⟨j, hj, hjp⟩ := List.getElem_of_mem hpm
  have hjg : j < Nat.gcd 4 raws.length := by
    have := hshare (index e s.length p.1)
    rw [← show Spec.share e s.length (index e s.length p.1) kvs = Spec.share e raws.length (index e s.length p.1) kvs by
      rw [hls]] at this
    omega
  have hdiv := hidx s.length p.1 (by rw [hls]; exact Nat.mod_eq_zero_of_dvd hgN)
  have hlt := index_lt e (show 0 < s.length by omega) p.1
  have hk : p.1 ≠ e.null := fun h => hb.present (by rw [← h]; exact List.mem_map_of_mem hp)
  obtain ⟨y, hy, hys⟩ := h3.slots _ hdiv hlt j hjg
  rw [List.getElem?_eq_getElem hj, hjp] at hys
  simp only at hys
  have hnd : ((Spec.share e s.length (index e s.length p.1) kvs).map (·.1)).Nodup :=
    hb.distinct.sublist ((List.filter_sublist).map _)
  have hf := find_at e s.length (index e s.length p.1) p.1 hk s p.2 rfl j (index e s.length p.1) (by
    intro i hi
    obtain ⟨x, hx, hxs⟩ := h3.slots _ hdiv hlt i (by omega)
    rw [List.getElem?_eq_getElem (by omega)] at hxs
    simp only at hxs
    have hm := List.getElem_mem (l := Spec.share e s.length (index e s.length p.1) kvs) (n := i) (by omega)
    have hm' : (Spec.share e s.length (index e s.length p.1) kvs)[i] ∈ kvs ∧
        index e s.length ((Spec.share e s.length (index e s.length p.1) kvs)[i]).1 = index e s.length p.1 := by
      have := List.mem_filter.mp hm
      exact ⟨this.1, by simpa using this.2⟩
    refine ⟨x, hx, ?_, ?_, ?_⟩
    · rw [hxs]; intro h; exact hb.present (by rw [← h]; exact List.mem_map_of_mem hm'.1)
    · rw [hxs]; exact hm'.2
    · rw [hxs]
      intro h
      have := (List.Nodup.getElem_inj_iff hnd (i := i) (j := j) (hi := by simp; omega) (hj := by simpa using hj)).mp (by
        simp only [List.getElem_map]; rw [hjp]; exact h)
      omega) (by rw [hy, hys])
  unfold lookup find
  rw [if_neg hk]
  simp only [hf, Option.map_some, Option.bind_some, hy, hys]

/-! ## More keys of one bucket than fit -/

theorem fill_run (e : Env K V) (n : Nat) : ∀ (kvs : List (K × V)) (s : Slots K V) (j : Nat),
    (∀ p ∈ kvs, p.1 ≠ e.null ∧ index e s.length p.1 = n) → (kvs.map (·.1)).Nodup →
    (∀ i, i < j → ∃ x, s[n + i]? = some x ∧ x.key ≠ e.null ∧ index e s.length x.key = n ∧ x.key ∉ kvs.map (·.1)) →
    (∀ i, i < kvs.length → ∃ y, s[n + (j + i)]? = some y ∧ y.key = e.null) →
    ∃ s', run e s (kvs.map fun p => Op.insert p.1 p.2) = some (s', kvs.map fun p => .inserted p.2) ∧ s'.length = s.length ∧
      ∀ i, i < j + kvs.length → ∃ x, s'[n + i]? = some x ∧ x.key ≠ e.null ∧ index e s.length x.key = n := by
  intro kvs
  induction kvs with
  | nil =>
    intro s j _ _ hx _
    exact ⟨s, rfl, rfl, fun i hi => by obtain ⟨x, h1, h2, h3, _⟩ := hx i (by simpa using hi); exact ⟨x, h1, h2, h3⟩⟩
  | cons p kvs ih =>
    intro s j hk hd hx hy
    obtain ⟨hk0, hki⟩ := hk p (by simp)
    obtain ⟨y, hy0, hyn⟩ := hy 0 (by simp)
    simp only [Nat.add_zero] at hy0
    have hst := insert_fresh e s p.1 p.2 j y hk0 (by
      intro i hi
      obtain ⟨x, h1, h2, h3, h4⟩ := hx i hi
      exact ⟨x, by rw [hki]; exact h1, h2, by rw [hki]; exact h3, fun h => h4 (by simp [h])⟩) (by rw [hki]; exact hy0) hyn
    rw [hki] at hst
    simp only [List.map_cons, List.nodup_cons] at hd
    obtain ⟨s', i1, i2, i3⟩ := ih (s.set (n + j) ⟨p.1, p.2⟩) (j + 1)
      (by intro q hq; simp only [List.length_set]; exact hk q (by simp [hq])) hd.2
      (by
        intro i hi
        simp only [List.length_set]
        by_cases h : i = j
        · subst h
          exact ⟨⟨p.1, p.2⟩, by rw [List.getElem?_set_self (get_lt hy0)], hk0, hki, hd.1⟩
        · obtain ⟨x, h1, h2, h3, h4⟩ := hx i (by omega)
          exact ⟨x, by rw [List.getElem?_set_ne (by omega)]; exact h1, h2, h3, fun hm => h4 (by simp [hm])⟩)
      (by
        intro i hi
        obtain ⟨z, hz, hzn⟩ := hy (i + 1) (by simp; omega)
        exact ⟨z, by rw [List.getElem?_set_ne (by omega), ← hz]; congr 1; omega, hzn⟩)
    simp only [List.length_set] at i2 i3
    refine ⟨s', ?_, i2, fun i hi => i3 i (by simp at hi; omega)⟩
    simp only [List.map_cons]
    rw [run, hst]
    simp only [i1, Option.map_some]

/-- **Violation.** If one bucket gets more elements than fit before the start of the next one, they are taken, from the slots
of the next bucket; and from then on every key of that next bucket is refused, however many slots are free.  Here: the slots
from the start `n` of a bucket up to the start `m` of another one are free, and one more element comes than there are. -/
theorem spill_starves (e : Env K V) (s : Slots K V) (n m : Nat) (hnm : n < m) (kvs : List (K × V)) (hlen : kvs.length = m - n + 1)
    (hk : ∀ p ∈ kvs, p.1 ≠ e.null ∧ index e s.length p.1 = n) (hd : (kvs.map (·.1)).Nodup)
    (hfree : ∀ q, n ≤ q → q ≤ m → ∃ y, s[q]? = some y ∧ y.key = e.null) :
    ∃ s', run e s (kvs.map fun p => Op.insert p.1 p.2) = some (s', kvs.map fun p => .inserted p.2) ∧
      ∀ k v, index e s.length k = m → insert e s' k v = some (s', (none, false)) := by
  obtain ⟨s', h1, h2, h3⟩ := fill_run e n kvs s 0 hk hd (by simp) (by
    intro i hi
    obtain ⟨y, hy⟩ := hfree (n + i) (by omega) (by omega)
    exact ⟨y, by simpa using hy⟩)
  refine ⟨s', h1, fun k v hkm => ?_⟩
  obtain ⟨x, hx, hxn, hxi⟩ := h3 (m - n) (by omega)
  rw [show n + (m - n) = m by omega] at hx
  have hlt := get_lt hx
  unfold insert
  by_cases hk0 : k = e.null
  · simp [precheck, hk0]
  · have : precheck e s' k = some .refused := by
      unfold precheck
      rw [if_neg hk0]
      simp only [h2, hkm]
      rw [List.drop_eq_getElem_cons hlt, probe]
      rw [List.getElem?_eq_getElem hlt, Option.some.injEq] at hx
      rw [show s'[m] = x from hx]
      simp only [isEmpty, hxn, decide_false, Bool.false_eq_true, if_false, hxi]
      rw [if_pos (by omega)]
    simp [this]

/-! ## C49: the order of insertion shows -/

theorem keysOf_free (e : Env K V) (l : List V) : keysOf e (l.map fun r => ⟨e.null, r⟩) = [] := by
  simp [keysOf, isEmpty, List.filter_map]

/-- two keys of one bucket in an empty container lie in the order they came -/
theorem two_inserted (e : Env K V) (raws : List V) (a b : K) (v w : V) (ha : a ≠ e.null) (hb : b ≠ e.null) (hab : a ≠ b)
    (hi : index e raws.length a = index e raws.length b) (hroom : index e raws.length a + 1 < raws.length) :
    ∃ s, run e (init e raws) [.insert a v, .insert b w] = some (s, [.inserted v, .inserted w]) ∧ keysOf e s = [a, b] := by
  generalize hn : index e raws.length a = n at *
  have hsplit : raws = raws.take n ++ raws[n] :: raws[n + 1] :: raws.drop (n + 2) := by
    conv => lhs; rw [← List.take_append_drop n raws, List.drop_eq_getElem_cons (by omega), List.drop_eq_getElem_cons hroom]
  have hlen : (init e raws).length = raws.length := by simp [init]
  have hget : ∀ i, (h : i < raws.length) → (init e raws)[i]? = some ⟨e.null, raws[i]⟩ := by
    intro i h; simp [init, h]
  have h1 := insert_fresh e (init e raws) a v 0 ⟨e.null, raws[n]⟩ ha (by simp) (by rw [hlen, hn]; exact hget n (by omega)) rfl
  rw [hlen, hn, Nat.add_zero] at h1
  have hlen' : ((init e raws).set n ⟨a, v⟩).length = raws.length := by simp [init]
  have h2 := insert_fresh e ((init e raws).set n ⟨a, v⟩) b w 1 ⟨e.null, raws[n + 1]⟩ hb (by
    intro i h
    have : i = 0 := by omega
    subst this
    refine ⟨⟨a, v⟩, ?_, ha, by rw [hlen', hn, hi], hab⟩
    rw [hlen', ← hi, Nat.add_zero, List.getElem?_set_self (by omega)]) (by
      rw [hlen', ← hi, List.getElem?_set_ne (by omega)]; exact hget (n + 1) hroom) rfl
  rw [hlen', ← hi] at h2
  refine ⟨((init e raws).set n ⟨a, v⟩).set (n + 1) ⟨b, w⟩, by simp only [run, h1, h2, Option.map_some], ?_⟩
  have hs : ((init e raws).set n ⟨a, v⟩).set (n + 1) ⟨b, w⟩ =
      (raws.take n).map (fun r => ⟨e.null, r⟩) ++ ⟨a, v⟩ :: ⟨b, w⟩ :: (raws.drop (n + 2)).map fun r => ⟨e.null, r⟩ := by
    have hl : ((raws.take n).map fun r => (⟨e.null, r⟩ : Slot K V)).length = n := by simp; omega
    have hm : init e raws = (raws.take n).map (fun r => ⟨e.null, r⟩) ++ ⟨e.null, raws[n]⟩ :: ⟨e.null, raws[n + 1]⟩ ::
        (raws.drop (n + 2)).map fun r => ⟨e.null, r⟩ := by
      have := congrArg (List.map fun r => (⟨e.null, r⟩ : Slot K V)) hsplit
      simp only [List.map_append, List.map_cons] at this
      exact this
    rw [hm, List.set_append_right _ _ (by omega), hl, Nat.sub_self, List.set_cons_zero,
      List.set_append_right _ _ (by omega), hl, Nat.add_sub_cancel_left]
    rfl
  rw [hs]
  have hk : ∀ (x y : Slots K V), keysOf e (x ++ y) = keysOf e x ++ keysOf e y := by
    intro x y; simp [keysOf]
  rw [hk, keysOf_free, List.nil_append, show ∀ (x y : Slot K V) (l : Slots K V), x :: y :: l = [x, y] ++ l from fun _ _ _ => rfl, hk,
    keysOf_free]
  simp [keysOf, isEmpty, ha, hb]

/-- C49 is violated: **Violation.** for any two keys of the same bucket, the container that got them in one order and the
container that got them in the other compare unequal. -/
theorem equal_order_matters (e : Env K V) (x : Slot K V) (hhi : e.hi = some x) (raws : List V) (a b : K) (v w : V)
    (ha : a ≠ e.null) (hb : b ≠ e.null) (hab : a ≠ b) (hi : index e raws.length a = index e raws.length b)
    (hroom : index e raws.length a + 1 < raws.length) :
    ∃ s t, run e (init e raws) [.insert a v, .insert b w] = some (s, [.inserted v, .inserted w]) ∧
      run e (init e raws) [.insert b w, .insert a v] = some (t, [.inserted w, .inserted v]) ∧ equal e s t = some false := by
  obtain ⟨s, h1, h2⟩ := two_inserted e raws a b v w ha hb hab hi hroom
  obtain ⟨t, h3, h4⟩ := two_inserted e raws b a w v hb ha (fun h => hab h.symm) hi.symm (by rw [← hi]; exact hroom)
  refine ⟨s, t, h1, h3, ?_⟩
  rw [equality_iff_slot_order e s t x hhi, h2, h4]
  simp [hab]

example : index (intEnv none (some ⟨0, 0⟩)) 8 2 = index (intEnv none (some ⟨0, 0⟩)) 8 6 ∧
    index (intEnv none (some ⟨0, 0⟩)) 8 2 + 1 < 8 := by decide

/-! ## Comparing evenly filled containers -/

theorem keysOf_append (e : Env K V) (x y : Slots K V) : keysOf e (x ++ y) = keysOf e x ++ keysOf e y := by
  simp [keysOf]

theorem keysOf_chunk (e : Env K V) : ∀ (l : Slots K V) (L : List (K × V)), L.length ≤ l.length → e.null ∉ L.map (·.1) →
    (∀ i, i < l.length → ∃ y, l[i]? = some y ∧ match L[i]? with | some p => y = ⟨p.1, p.2⟩ | none => y.key = e.null) →
    keysOf e l = L.map (·.1) := by
  intro l
  induction l with
  | nil => intro L hL _ _; rw [show L = [] from List.length_eq_zero_iff.mp (by simpa using hL)]; rfl
  | cons x l ih =>
    intro L hL hn h
    obtain ⟨y, hy, hm⟩ := h 0 (by simp)
    simp only [List.getElem?_cons_zero, Option.some.injEq] at hy
    subst hy
    have hstep : ∀ i, i < l.length → ∃ y, l[i]? = some y ∧
        match L[i + 1]? with | some p => y = ⟨p.1, p.2⟩ | none => y.key = e.null := by
      intro i hi
      obtain ⟨y, hy, hm⟩ := h (i + 1) (by simp; omega)
      exact ⟨y, by simpa using hy, hm⟩
    rw [show x :: l = [x] ++ l from rfl, keysOf_append]
    cases L with
    | nil =>
      simp only [List.getElem?_nil] at hm
      rw [ih [] (by simp) (by simp) (by simpa using hstep)]
      simp [keysOf, isEmpty, hm]
    | cons p L =>
      simp only [List.getElem?_cons_zero] at hm
      simp only [List.map_cons, List.mem_cons, not_or] at hn
      rw [ih L (by simpa using hL) hn.2 (by simpa using hstep)]
      have : ¬ p.1 = e.null := fun h => hn.1 h.symm
      simp [keysOf, isEmpty, hm, this]

theorem keysOf_even {e : Env K V} {g : Nat} {s : Slots K V} {kvs : List (K × V)} (hE : Even e g s kvs)
    (hsh : ∀ n, (Spec.share e s.length n kvs).length ≤ g) (hn : e.null ∉ kvs.map (·.1)) (hg : 0 < g) : ∀ c, g * c ≤ s.length →
    keysOf e (s.take (g * c)) = (List.range c).flatMap fun a => (Spec.share e s.length (g * a) kvs).map (·.1) := by
  intro c
  induction c with
  | zero => intro _; simp [keysOf]
  | succ c ih =>
    intro hc
    rw [Nat.mul_add, Nat.mul_one] at hc ⊢
    rw [List.take_add, keysOf_append, ih (by omega), List.range_succ, List.flatMap_append]
    congr 1
    have hl : ((s.drop (g * c)).take g).length = g := by simp; omega
    rw [keysOf_chunk e _ (Spec.share e s.length (g * c) kvs) (by rw [hl]; exact hsh _) (fun h => hn (by
      obtain ⟨p, hp, hpe⟩ := List.mem_map.mp h
      rw [← hpe]
      exact List.mem_map_of_mem (List.mem_of_mem_filter hp))) (by
      intro i hi
      rw [hl] at hi
      obtain ⟨y, hy, hm⟩ := hE.slots (g * c) (Nat.dvd_mul_right _ _) (by omega) i hi
      exact ⟨y, by rw [List.getElem?_take_of_lt hi, List.getElem?_drop]; exact hy, hm⟩)]
    simp

theorem filter_chunks (f : K → Nat) {g : Nat} (hg : 0 < g) (l : List K) (n : Nat) : ∀ c,
    ((List.range c).flatMap fun a => l.filter fun k => f k = g * a).filter (fun k => f k = n) =
      if ∃ a, a < c ∧ g * a = n then l.filter (fun k => f k = n) else [] := by
  intro c
  induction c with
  | zero => simp
  | succ c ih =>
    rw [List.range_succ, List.flatMap_append, List.filter_append, ih]
    simp only [List.flatMap_cons, List.flatMap_nil, List.append_nil, List.filter_filter]
    by_cases hn : g * c = n
    · have h1 : ¬ ∃ a, a < c ∧ g * a = n := by
        rintro ⟨a, ha, he⟩
        have := Nat.eq_of_mul_eq_mul_left hg (he.trans hn.symm)
        omega
      rw [if_neg h1, if_pos ⟨c, by omega, hn⟩, hn]
      simp
    · have h2 : (∃ a, a < c + 1 ∧ g * a = n) ↔ ∃ a, a < c ∧ g * a = n := by
        constructor
        · rintro ⟨a, ha, he⟩
          rcases Nat.lt_or_ge a c with h | h
          · exact ⟨a, h, he⟩
          · exact absurd (by rw [← he, show a = c by omega]) hn
        · rintro ⟨a, ha, he⟩
          exact ⟨a, by omega, he⟩
      simp only [h2]
      rw [show (l.filter fun k => decide (f k = n) && decide (f k = g * c)) = [] from List.filter_eq_nil_iff.mpr (by
        intro k _ hk
        simp only [Bool.and_eq_true, decide_eq_true_eq] at hk
        exact hn (hk.2.symm.trans hk.1)), List.append_nil]

/-- **C49 (partial).** Two containers of the same number of slots, filled from empty with keys that do not crowd a bucket, compare
equal exactly when for every bucket both got the same keys in the same order.

Missing: the order within a bucket should not matter (`equal_order_matters`), and the values should
(`equal_ignores_values`). -/
theorem equal_iff_bucket_orders_partial (e : Env K V) (hw : 4 ∣ e.word) (x : Slot K V) (hhi : e.hi = some x) (raws raws' : List V)
    (hr : raws ≠ []) (hl : raws'.length = raws.length) (kvs kvs' : List (K × V))
    (hb : Spec.Balanced e raws.length (kvs.map (·.1))) (hb' : Spec.Balanced e raws.length (kvs'.map (·.1))) :
    ∃ s t, run e (init e raws) (kvs.map fun p => Op.insert p.1 p.2) = some (s, kvs.map fun p => .inserted p.2) ∧
      run e (init e raws') (kvs'.map fun p => Op.insert p.1 p.2) = some (t, kvs'.map fun p => .inserted p.2) ∧
      ∃ b, equal e s t = some b ∧ (b = true ↔ ∀ n, (kvs.map (·.1)).filter (fun k => index e raws.length k = n) =
        (kvs'.map (·.1)).filter fun k => index e raws.length k = n) := by
  have hr' : raws' ≠ [] := by
    intro h; rw [h] at hl; exact hr (List.length_eq_zero_iff.mp hl.symm)
  obtain ⟨s, h1, h2, h3⟩ := balanced_even e hw raws hr kvs hb
  obtain ⟨t, h4, h5, h6⟩ := balanced_even e hw raws' hr' kvs' (by rw [hl]; exact hb')
  rw [hl] at h5 h6
  refine ⟨s, t, h1, h4, _, equality_iff_slot_order e s t x hhi, ?_⟩
  obtain ⟨c, hc⟩ := Nat.gcd_dvd_right 4 raws.length
  have hg0 : 0 < Nat.gcd 4 raws.length := Nat.gcd_pos_of_pos_left _ (by omega)
  have hf : ∀ n (l : List (K × V)), (Spec.share e raws.length n l).map (·.1) =
      (l.map (·.1)).filter fun k => index e raws.length k = n := by
    intro n l; rw [List.filter_map]; rfl
  have hs := keysOf_even h3 (by rw [h2]; exact balanced_share hb) hb.present hg0 c (by omega)
  have ht := keysOf_even h6 (by rw [h5]; exact balanced_share hb') hb'.present hg0 c (by omega)
  rw [List.take_of_length_le (by omega), h2] at hs
  rw [List.take_of_length_le (by omega), h5] at ht
  rw [decide_eq_true_eq, hs, ht]
  simp only [hf]
  have back : ∀ (l : List K) (n : Nat), ((List.range c).flatMap fun a =>
      l.filter fun k => index e raws.length k = Nat.gcd 4 raws.length * a).filter (fun k => index e raws.length k = n) =
      l.filter fun k => index e raws.length k = n := by
    intro l n
    rw [filter_chunks _ hg0]
    split
    · rfl
    · rename_i hno
      rw [eq_comm, List.filter_eq_nil_iff]
      intro k _ hk
      simp only [decide_eq_true_eq] at hk
      obtain ⟨a, ha⟩ := gcd_dvd_index e hw raws.length raws.length k (Nat.mod_eq_zero_of_dvd (Nat.gcd_dvd_right _ _))
      have hlt := index_lt e (List.length_pos_iff.mpr hr) k
      refine hno ⟨a, ?_, by rw [← ha, hk]⟩
      have : Nat.gcd 4 raws.length * a < Nat.gcd 4 raws.length * c := by rw [← ha, ← hc]; exact hlt
      exact Nat.lt_of_mul_lt_mul_left this
  constructor
  · intro h n
    rw [← back, h, back]
  · intro h
    congr 1
    funext a
    exact h _

/-- **C49.** Keys of pairwise different buckets may come in any order, with any values: the containers compare equal. -/
theorem equal_any_order (e : Env K V) (hw : 4 ∣ e.word) (x : Slot K V) (hhi : e.hi = some x) (raws raws' : List V)
    (hr : raws ≠ []) (hl : raws'.length = raws.length) (kvs kvs' : List (K × V)) (hperm : (kvs.map (·.1)).Perm (kvs'.map (·.1)))
    (hnull : e.null ∉ kvs.map (·.1)) (hd : (kvs.map fun p => index e raws.length p.1).Nodup) :
    ∃ s t, run e (init e raws) (kvs.map fun p => Op.insert p.1 p.2) = some (s, kvs.map fun p => .inserted p.2) ∧
      run e (init e raws') (kvs'.map fun p => Op.insert p.1 p.2) = some (t, kvs'.map fun p => .inserted p.2) ∧
      equal e s t = some true := by
  have hg0 : 0 < Nat.gcd 4 raws.length := Nat.gcd_pos_of_pos_left _ (by omega)
  have hd1 : ((kvs.map (·.1)).map (index e raws.length)).Nodup := by rw [List.map_map]; exact hd
  have one : ∀ l : List K, (l.map (index e raws.length)).Nodup → ∀ n, (l.filter fun k => index e raws.length k = n).length ≤ 1 := by
    intro l hl n
    have h := (hl.sublist ((List.filter_sublist (l := l) (p := fun k => index e raws.length k = n)).map _))
    rcases hq : l.filter fun k => index e raws.length k = n with _ | ⟨a, _ | ⟨b, q⟩⟩
    · simp
    · simp
    · exfalso
      have ha : a ∈ l.filter fun k => index e raws.length k = n := by rw [hq]; simp
      have hb : b ∈ l.filter fun k => index e raws.length k = n := by rw [hq]; simp
      have ha := (List.mem_filter.mp ha).2
      have hb := (List.mem_filter.mp hb).2
      simp only [decide_eq_true_eq] at ha hb
      rw [hq] at h
      simp [ha, hb] at h
  have hd2 : ((kvs'.map (·.1)).map (index e raws.length)).Nodup := (hperm.map _).nodup_iff.mp hd1
  have b1 : Spec.Balanced e raws.length (kvs.map (·.1)) :=
    ⟨List.Nodup.of_map _ hd1, hnull, fun n => Nat.le_trans (one _ hd1 n) hg0⟩
  have b2 : Spec.Balanced e raws.length (kvs'.map (·.1)) :=
    ⟨List.Nodup.of_map _ hd2, fun h => hnull (hperm.mem_iff.mpr h), fun n => Nat.le_trans (one _ hd2 n) hg0⟩
  obtain ⟨s, t, h1, h2, b, h3, h4⟩ := equal_iff_bucket_orders_partial e hw x hhi raws raws' hr hl kvs kvs' b1 b2
  refine ⟨s, t, h1, h2, ?_⟩
  rw [h3, h4.mpr]
  intro n
  have hp := hperm.filter fun k => index e raws.length k = n
  have := one _ hd1 n
  rcases hq : (kvs.map (·.1)).filter fun k => index e raws.length k = n with _ | ⟨a, _ | ⟨b, q⟩⟩
  · rw [hq] at hp ⊢; exact hp.nil_eq
  · rw [hq] at hp ⊢; exact (List.perm_singleton.mp hp.symm).symm
  · rw [hq] at this; simp at this

example : (4 : Nat) ∣ (intEnv none (some ⟨0, 0⟩)).word ∧
    ([(1, 5), (2, 6)] : List (BitVec 32 × BitVec 32)).map (fun p => index (intEnv none (some ⟨0, 0⟩)) 8 p.1) = [4, 0] ∧
    ((run (intEnv none (some ⟨0, 0⟩)) (fresh (intEnv none (some ⟨0, 0⟩)) 8) [.insert 1 5, .insert 2 6, .insert 6 7]).bind fun a =>
      (run (intEnv none (some ⟨0, 0⟩)) (fresh (intEnv none (some ⟨0, 0⟩)) 8) [.insert 2 9, .insert 6 9, .insert 1 9]).bind fun b =>
      equal (intEnv none (some ⟨0, 0⟩)) a.1 b.1) = some true := by
  refine ⟨by simp [intEnv], by decide, by decide +kernel⟩

/-! ## Whole numbers as keys -/

/-- home slot of a 32-bit key -/
theorem index_int (lo hi : Option (Slot (BitVec 32) (BitVec 32))) (N : Nat) (k : BitVec 32) :
    index (intEnv lo hi) N k = 4 * k.toNat % N := by
  unfold index bucketDepth intEnv
  simp only
  rw [Nat.mod_eq_of_lt (a := 4 * k.toNat) (by have := k.isLt; omega)]

/-- `n` keys from `a + 1` on -/
def Spec.consecutive (a n : Nat) : List (BitVec 32) := (List.range n).map fun i => BitVec.ofNat 32 (a + 1 + i)

theorem consecutive_balanced (lo hi : Option (Slot (BitVec 32) (BitVec 32))) (a N : Nat) (hN : 0 < N) (ha : a + N < 2 ^ 32) :
    Spec.Balanced (intEnv lo hi) N (Spec.consecutive a N) := by
  have hval : ∀ i, i < N → (BitVec.ofNat 32 (a + 1 + i)).toNat = a + 1 + i := by
    intro i hi; rw [BitVec.toNat_ofNat, Nat.mod_eq_of_lt (by omega)]
  refine ⟨?_, ?_, ?_⟩
  · unfold Spec.consecutive
    refine (List.nodup_map_iff_inj_on List.nodup_range).mpr ?_
    intro x hx y hy h
    have := congrArg BitVec.toNat h
    rw [hval x (List.mem_range.mp hx), hval y (List.mem_range.mp hy)] at this
    omega
  · unfold Spec.consecutive
    intro h
    obtain ⟨i, hi, hh⟩ := List.mem_map.mp h
    have := congrArg BitVec.toNat hh
    rw [hval i (List.mem_range.mp hi)] at this
    simp [intEnv] at this
  · intro n
    unfold Spec.consecutive
    rw [List.filter_map, List.length_map]
    obtain ⟨M, hM⟩ := Nat.gcd_dvd_right 4 N
    have hg0 : 0 < Nat.gcd 4 N := Nat.gcd_pos_of_pos_left _ (by omega)
    have hM0 : 0 < M := by
      rcases Nat.eq_zero_or_pos M with h | h
      · rw [h] at hM; omega
      · exact h
    have hmem : ∀ i, i ∈ (List.range N).filter ((fun k => decide (index (intEnv lo hi) N k = n)) ∘ fun i => BitVec.ofNat 32 (a + 1 + i)) →
        i < N ∧ 4 * (a + 1 + i) % N = n := by
      intro i hi
      obtain ⟨h1, h2⟩ := List.mem_filter.mp hi
      have h1 := List.mem_range.mp h1
      simp only [Function.comp, decide_eq_true_eq, index_int, hval i h1] at h2
      exact ⟨h1, h2⟩
    have hnd := (List.nodup_range (n := N)).filter
      ((fun k => decide (index (intEnv lo hi) N k = n)) ∘ fun i => BitVec.ofNat 32 (a + 1 + i))
    generalize (List.range N).filter ((fun k => decide (index (intEnv lo hi) N k = n)) ∘ fun i => BitVec.ofNat 32 (a + 1 + i)) = L
      at hmem hnd
    have hinj : (L.map (· / M)).Nodup := by
      refine (List.nodup_map_iff_inj_on hnd).mpr ?_
      intro x hx y hy hxy
      obtain ⟨x1, x2⟩ := hmem x hx
      obtain ⟨y1, y2⟩ := hmem y hy
      have key : ∀ u w, u ≤ w → 4 * (a + 1 + u) % N = 4 * (a + 1 + w) % N → u / M = w / M → u = w := by
        intro u w huw hm hq
        have h1 : N ∣ 4 * (a + 1 + w) - 4 * (a + 1 + u) := Nat.dvd_of_mod_eq_zero (Nat.sub_mod_eq_zero_of_mod_eq hm.symm)
        rw [show 4 * (a + 1 + w) - 4 * (a + 1 + u) = 4 * (w - u) by omega] at h1
        have h2 : M ∣ w - u := by
          obtain ⟨q, hq4⟩ := Nat.gcd_dvd_left 4 N
          have hco : Nat.Coprime M q := by
            have := Nat.coprime_div_gcd_div_gcd (m := 4) (n := N) hg0
            rw [show 4 / Nat.gcd 4 N = q from Nat.div_eq_of_eq_mul_right hg0 hq4,
              show N / Nat.gcd 4 N = M from Nat.div_eq_of_eq_mul_right hg0 hM] at this
            exact this.symm
          have h3 : Nat.gcd 4 N * M ∣ Nat.gcd 4 N * (q * (w - u)) := by
            rw [← hM, ← Nat.mul_assoc, ← hq4]; exact h1
          exact hco.dvd_of_dvd_mul_left (Nat.dvd_of_mul_dvd_mul_left hg0 h3)
        have h4 : u % M = w % M := by
          obtain ⟨c, hc⟩ := h2
          rw [show w = u + M * c by omega, Nat.add_mul_mod_self_left]
        rw [← Nat.div_add_mod u M, ← Nat.div_add_mod w M, hq, h4]
      rcases Nat.le_total x y with h | h
      · exact key x y h (by rw [x2, y2]) hxy
      · exact (key y x h (by rw [x2, y2]) hxy.symm).symm
    have hsub : L.map (· / M) ⊆ List.range (Nat.gcd 4 N) := by
      intro z hz
      obtain ⟨x, hx, rfl⟩ := List.mem_map.mp hz
      rw [List.mem_range, Nat.div_lt_iff_lt_mul hM0]
      exact Nat.lt_of_lt_of_eq (hmem x hx).1 hM
    have := (hinj.subperm hsub).length_le
    simpa using this

/-- **C124.** A map of `N` slots, whatever `N`, with 32-bit numbers for keys takes `N` keys that follow one another, from any
number but 0 on: each insertion succeeds and each key is found with its value. -/
theorem consecutive_fit (lo hi : Option (Slot (BitVec 32) (BitVec 32))) (raws : List (BitVec 32)) (hr : raws ≠ []) (a : Nat)
    (ha : a + raws.length < 2 ^ 32) (vals : List (BitVec 32)) (hv : vals.length = raws.length) :
    ∃ s, run (intEnv lo hi) (init (intEnv lo hi) raws)
        (((Spec.consecutive a raws.length).zip vals).map fun p => Op.insert p.1 p.2) = some (s, vals.map .inserted) ∧
      (∀ p ∈ (Spec.consecutive a raws.length).zip vals, lookup (intEnv lo hi) s p.1 = some (some p.2)) ∧
      size (intEnv lo hi) s = raws.length := by
  have hl : (Spec.consecutive a raws.length).length = vals.length := by simp [Spec.consecutive, hv]
  have hz : ((Spec.consecutive a raws.length).zip vals).map (·.1) = Spec.consecutive a raws.length :=
    List.map_fst_zip (by omega)
  have hz2 : ((Spec.consecutive a raws.length).zip vals).map (·.2) = vals := List.map_snd_zip (by omega)
  obtain ⟨s, h1, h2, h3⟩ := balanced_fits_partial (intEnv lo hi) (by simp [intEnv]) raws hr
    ((Spec.consecutive a raws.length).zip vals) (by
      rw [hz]; exact consecutive_balanced lo hi a raws.length (List.length_pos_iff.mpr hr) ha)
  refine ⟨s, ?_, h2, ?_⟩
  · rw [h1]
    congr 2
    conv => rhs; rw [← hz2]
    rw [List.map_map]; rfl
  · rw [h3]; simp [hl, hv]

/-- **Violation.** In a map of any number `4 * M` of slots, at least eight, with 32-bit numbers for keys, five keys are enough
to shut out others: `M`, `2 * M`, …, `5 * M` are taken, and then every key that leaves remainder 1 when divided by `M` is
refused, although all the other slots are free. -/
theorem five_keys_starve (lo hi : Option (Slot (BitVec 32) (BitVec 32))) (raws : List (BitVec 32)) (M : Nat) (hM : 2 ≤ M)
    (hr : raws.length = 4 * M) (hM' : 5 * M < 2 ^ 32) (v : BitVec 32) :
    ∃ s, run (intEnv lo hi) (init (intEnv lo hi) raws)
        ((List.range 5).map fun i => Op.insert (BitVec.ofNat 32 ((i + 1) * M)) v) = some (s, List.replicate 5 (.inserted v)) ∧
      ∀ k w, k.toNat % M = 1 → insert (intEnv lo hi) s k w = some (s, (none, false)) := by
  have hlen : (init (intEnv lo hi) raws).length = 4 * M := by simp [init, hr]
  have hval : ∀ i, i < 5 → (BitVec.ofNat 32 ((i + 1) * M)).toNat = (i + 1) * M := by
    intro i hi
    rw [BitVec.toNat_ofNat, Nat.mod_eq_of_lt]
    have : (i + 1) * M ≤ 5 * M := Nat.mul_le_mul_right _ (by omega)
    omega
  obtain ⟨s, h1, h2⟩ := spill_starves (intEnv lo hi) (init (intEnv lo hi) raws) 0 4 (by omega)
    ((List.range 5).map fun i => (BitVec.ofNat 32 ((i + 1) * M), v)) (by simp)
    (by
      intro p hp
      obtain ⟨i, hi, rfl⟩ := List.mem_map.mp hp
      have hi := List.mem_range.mp hi
      refine ⟨fun h => ?_, ?_⟩
      · have := congrArg BitVec.toNat h
        rw [hval i hi] at this
        have h0 : 0 < (i + 1) * M := Nat.mul_pos (by omega) (by omega)
        simp [intEnv] at this
        omega
      · rw [hlen, index_int]
        simp only [hval i hi]
        rw [show 4 * ((i + 1) * M) = (4 * M) * (i + 1) by rw [Nat.mul_comm (i + 1) M, ← Nat.mul_assoc]]
        exact Nat.mul_mod_right _ _)
    (by
      rw [List.map_map]
      refine (List.nodup_map_iff_inj_on List.nodup_range).mpr ?_
      intro x hx y hy h
      have := congrArg BitVec.toNat h
      simp only [Function.comp] at this
      rw [hval x (List.mem_range.mp hx), hval y (List.mem_range.mp hy)] at this
      have := Nat.eq_of_mul_eq_mul_right (show 0 < M by omega) this
      omega)
    (by
      intro q _ hq
      have : q < raws.length := by omega
      exact ⟨⟨0, raws[q]⟩, by simp [init, intEnv, this], rfl⟩)
  refine ⟨s, ?_, fun k w hk => h2 k w ?_⟩
  · rw [List.map_map] at h1
    rw [show ((fun (p : BitVec 32 × BitVec 32) => Op.insert p.1 p.2) ∘ fun i => (BitVec.ofNat 32 ((i + 1) * M), v)) =
      fun i => Op.insert (BitVec.ofNat 32 ((i + 1) * M)) v from rfl] at h1
    rw [h1]; rfl
  · rw [hlen, index_int, Nat.mul_mod_mul_left, hk]

example : Spec.Balanced (intEnv none none) 6 [1, 2, 3, 4, 5, 6] ∧
    Spec.Balanced (intEnv none none) 8 [9, 2, 7, 4] ∧
    (run (intEnv none none) (fresh (intEnv none none) 8)
      [.insert 2 7, .insert 4 7, .insert 6 7, .insert 8 7, .insert 10 7, .insert 1 7]).map (·.2) =
      some [.inserted 7, .inserted 7, .inserted 7, .inserted 7, .inserted 7, .refused] :=
  ⟨consecutive_balanced none none 0 6 (by omega) (by omega), ⟨by decide, by decide, by
    intro n
    by_cases h0 : n = 0
    · subst h0; decide
    · by_cases h4 : n = 4
      · subst h4; decide
      · have : ∀ k ∈ ([9, 2, 7, 4] : List (BitVec 32)), decide (index (intEnv none none) 8 k = n) = false := by
          intro k hk
          have : index (intEnv none none) 8 k = 0 ∨ index (intEnv none none) 8 k = 4 := by
            simp only [List.mem_cons, List.not_mem_nil, or_false] at hk
            rcases hk with rfl | rfl | rfl | rfl <;> simp [index_int]
          simp; omega
        rw [List.filter_eq_nil_iff.mpr (fun k hk => by rw [this k hk]; simp)]
        simp⟩, by decide +kernel⟩

end Verif.Unordered
