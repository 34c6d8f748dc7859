import Verif.Unordered.Capacity
/-!
# C124: whole numbers of any type as keys

`src/estd/internal/functional/hash.h:174-182` (`integral_hash`): the hash is the number converted to `size_t`, of 16, 32 or 64 bits
according to the target; a negative number wraps around.  `src/estd/internal/container/unordered/base.h:140-144`: the bucket is
computed in `size_t` as well.
-/
namespace Verif.Unordered

variable {V : Type}

/-! ## Specification -/

/-- keys are whole numbers and the hash converts them to an unsigned number of `word` values, hash.h:174-182 -/
structure Spec.IntegerKeys (e : Env Int V) : Prop where
  hash : ∀ k, e.hash k = (k % e.word).toNat
  word : 0 < e.word
  four : 4 ∣ e.word

/-- four times the numbers from `k0` to `k0 + N - 1` wrap around in `size_t` the same number of times, or `N` divides the number of
values of `size_t` and wrapping around does not matter -/
def Spec.NoWrap (word N : Nat) (k0 : Int) : Prop :=
  N ∣ word ∨ ∃ c : Int, word * c ≤ 4 * k0 ∧ 4 * (k0 + N - 1) < word * (c + 1)

/-! ## Buckets of whole numbers -/

theorem index_integer {e : Env Int V} (he : Spec.IntegerKeys e) (N : Nat) (k : Int) :
    (index e N k : Int) = 4 * k % e.word % N := by
  have hw : (e.word : Int) ≠ 0 := by have := he.word; omega
  have h0 := Int.emod_nonneg k hw
  unfold index bucketDepth
  rw [he.hash]
  push_cast
  rw [Int.toNat_of_nonneg h0]
  congr 1
  rw [Int.mul_emod, Int.emod_emod, ← Int.mul_emod]

theorem same_index {e : Env Int V} (he : Spec.IntegerKeys e) {N : Nat} {k0 : Int} (hn : Spec.NoWrap e.word N k0) {k k' : Int}
    (h1 : k0 ≤ k) (h2 : k < k0 + N) (h3 : k0 ≤ k') (h4 : k' < k0 + N) (h : index e N k = index e N k') :
    (N : Int) ∣ 4 * (k' - k) := by
  have hw : (0 : Int) < e.word := by have := he.word; omega
  have hi : (4 * k % e.word % N : Int) = 4 * k' % e.word % N := by
    rw [← index_integer he, ← index_integer he, h]
  apply Int.dvd_of_emod_eq_zero
  rcases hn with hd | ⟨c, c1, c2⟩
  · have hd' : (N : Int) ∣ e.word := by exact_mod_cast hd
    rw [Int.emod_emod_of_dvd _ hd', Int.emod_emod_of_dvd _ hd'] at hi
    have := Int.emod_eq_emod_iff_emod_sub_eq_zero.mp hi.symm
    rw [show 4 * (k' - k) = 4 * k' - 4 * k by omega]
    exact this
  · have hq : ∀ x : Int, k0 ≤ x → x < k0 + N → 4 * x % e.word = 4 * x - e.word * c := by
      intro x hx hx'
      have : 4 * x / e.word = c := by
        refine Int.le_antisymm ?_ ?_
        · refine Int.lt_add_one_iff.mp (Int.ediv_lt_of_lt_mul hw ?_)
          rw [Int.mul_comm (c + 1)]; omega
        · refine Int.le_ediv_of_mul_le hw ?_
          rw [Int.mul_comm c]; omega
      rw [Int.emod_def, this]
    rw [hq k h1 h2, hq k' h3 h4] at hi
    have := Int.emod_eq_emod_iff_emod_sub_eq_zero.mp hi.symm
    rw [show 4 * (k' - k) = 4 * k' - e.word * c - (4 * k - e.word * c) by omega]
    exact this

theorem window_balanced {e : Env Int V} (he : Spec.IntegerKeys e) (N : Nat) (hN : 0 < N) (k0 : Int) (hn : Spec.NoWrap e.word N k0)
    (ks : List Int) (hd : ks.Nodup) (hnull : e.null ∉ ks) (hin : ∀ k ∈ ks, k0 ≤ k ∧ k < k0 + N) : Spec.Balanced e N ks := by
  refine ⟨hd, hnull, fun n => ?_⟩
  obtain ⟨M, hM⟩ := Nat.gcd_dvd_right 4 N
  have hg0 : 0 < Nat.gcd 4 N := Nat.gcd_pos_of_pos_left _ (by omega)
  have hM0 : 0 < M := by
    rcases Nat.eq_zero_or_pos M with h | h
    · rw [h] at hM; omega
    · exact h
  have hmem : ∀ k ∈ ks.filter (fun k => index e N k = n), k0 ≤ k ∧ k < k0 + N ∧ index e N k = n := by
    intro k hk
    obtain ⟨h1, h2⟩ := List.mem_filter.mp hk
    exact ⟨(hin k h1).1, (hin k h1).2, by simpa using h2⟩
  have hnd := hd.filter (fun k => decide (index e N k = n))
  generalize ks.filter (fun k => decide (index e N k = n)) = L at hmem hnd
  have hinj : (L.map fun k => (k - k0).toNat / M).Nodup := by
    refine (List.nodup_map_iff_inj_on hnd).mpr ?_
    intro x hx y hy hxy
    obtain ⟨x1, x2, x3⟩ := hmem x hx
    obtain ⟨y1, y2, y3⟩ := hmem y hy
    have key : ∀ u w : Nat, u ≤ w → N ∣ 4 * (w - u) → u / M = w / M → u = w := by
      intro u w huw h1 hq
      have h2 : M ∣ w - u := by
        obtain ⟨q, hq4⟩ := Nat.gcd_dvd_left 4 N
        have hco : Nat.Coprime M q := by
          have := Nat.coprime_div_gcd_div_gcd (m := 4) (n := N) hg0
          rw [show 4 / Nat.gcd 4 N = q from Nat.div_eq_of_eq_mul_right hg0 hq4,
            show N / Nat.gcd 4 N = M from Nat.div_eq_of_eq_mul_right hg0 hM] at this
          exact this.symm
        have h3 : Nat.gcd 4 N * M ∣ Nat.gcd 4 N * (q * (w - u)) := by
          rw [← hM, ← Nat.mul_assoc, ← hq4]; exact h1
        exact hco.dvd_of_dvd_mul_left (Nat.dvd_of_mul_dvd_mul_left hg0 h3)
      have h4 : u % M = w % M := by
        obtain ⟨c, hc⟩ := h2
        rw [show w = u + M * c by omega, Nat.add_mul_mod_self_left]
      rw [← Nat.div_add_mod u M, ← Nat.div_add_mod w M, hq, h4]
    have both : ∀ a b : Int, k0 ≤ a → k0 ≤ b → a ≤ b → (N : Int) ∣ 4 * (b - a) → (a - k0).toNat / M = (b - k0).toNat / M → a = b := by
      intro a b ha hb hab hdv hq
      have := key (a - k0).toNat (b - k0).toNat (by omega) (by
        have e1 : ((4 * ((b - k0).toNat - (a - k0).toNat) : Nat) : Int) = 4 * (b - a) := by omega
        rw [← e1] at hdv
        exact_mod_cast hdv) hq
      omega
    rcases Int.le_total x y with h | h
    · exact both x y x1 y1 h (same_index he hn x1 x2 y1 y2 (by rw [x3, y3])) hxy
    · exact (both y x y1 x1 h (same_index he hn y1 y2 x1 x2 (by rw [x3, y3])) hxy.symm).symm
  have hsub : (L.map fun k => (k - k0).toNat / M) ⊆ List.range (Nat.gcd 4 N) := by
    intro z hz
    obtain ⟨x, hx, rfl⟩ := List.mem_map.mp hz
    obtain ⟨x1, x2, _⟩ := hmem x hx
    rw [List.mem_range, Nat.div_lt_iff_lt_mul hM0, ← hM]
    omega
  have := (hinj.subperm hsub).length_le
  simpa using this

/-- **C124 (partial).** A container of `N` slots, whatever `N`, takes any keys, in any order, out of `N` whole numbers that follow one
another, negative ones included: each insertion succeeds, each key is found with its value, and `size()` is their number.

Missing: windows of numbers in which four times the number wraps around in `size_t` while `N` does not divide the number of its
values (`wrap_refuses`), and keys further apart (`five_keys_starve`). -/
theorem window_fits_partial (e : Env Int V) (he : Spec.IntegerKeys e) (raws : List V) (hr : raws ≠ []) (k0 : Int)
    (hn : Spec.NoWrap e.word raws.length k0) (kvs : List (Int × V)) (hd : (kvs.map (·.1)).Nodup) (hnull : e.null ∉ kvs.map (·.1))
    (hin : ∀ p ∈ kvs, k0 ≤ p.1 ∧ p.1 < k0 + raws.length) :
    ∃ s, run e (init e raws) (kvs.map fun p => Op.insert p.1 p.2) = some (s, kvs.map fun p => .inserted p.2) ∧
      (∀ p ∈ kvs, lookup e s p.1 = some (some p.2)) ∧ size e s = kvs.length :=
  balanced_fits_partial e he.four raws hr kvs (window_balanced he _ (List.length_pos_iff.mpr hr) k0 hn _ hd hnull (by
    intro k hk
    obtain ⟨p, hp, rfl⟩ := List.mem_map.mp hk
    exact hin p hp))

/-- **Violation.** Three slots do not take three numbers that follow one another if four times the number wraps around on the way,
on every target whose `size_t` leaves remainder 1 when divided by three (16, 32 and 64 bits all do): the third is refused. -/
theorem wrap_refuses (e : Env Int V) (he : Spec.IntegerKeys e) (w : Nat) (hw : e.word = 4 * w) (h3 : e.word % 3 = 1) (hw2 : 2 ≤ w)
    (hnull : e.null = 0) (raws : List V) (hr : raws.length = 3) (a b : V) :
    ∃ s, run e (init e raws) [.insert (w - 1) a, .insert w b] = some (s, [.inserted a, .inserted b]) ∧
      ∀ v, insert e s (w + 1) v = some (s, (none, false)) := by
  have hlen : (init e raws).length = 3 := by simp [init, hr]
  have i0 : index e 3 ((w : Int) - 1) = 0 := by
    have := index_integer he 3 ((w : Int) - 1)
    rw [show 4 * ((w : Int) - 1) % e.word = 4 * w - 4 from by
      rw [hw]; rw [show 4 * ((w : Int) - 1) = 4 * w - 4 by omega]
      exact Int.emod_eq_of_lt (by omega) (by push_cast; omega)] at this
    omega
  have i1 : index e 3 (w : Int) = 0 := by
    have := index_integer he 3 (w : Int)
    rw [show 4 * (w : Int) % e.word = 0 from by rw [hw]; push_cast; exact Int.emod_self] at this
    omega
  have i2 : index e 3 ((w : Int) + 1) = 1 := by
    have := index_integer he 3 ((w : Int) + 1)
    rw [show 4 * ((w : Int) + 1) % e.word = 4 from by
      rw [hw, show 4 * ((w : Int) + 1) = 4 + 4 * w by omega]; push_cast
      rw [Int.add_emod_right]
      exact Int.emod_eq_of_lt (by omega) (by omega)] at this
    omega
  obtain ⟨s, h1, h2⟩ := spill_starves e (init e raws) 0 1 (by omega) [((w : Int) - 1, a), ((w : Int), b)] rfl
    (by
      intro p hp
      rw [hlen, hnull]
      simp only [List.mem_cons, List.not_mem_nil, or_false] at hp
      rcases hp with rfl | rfl
      · exact ⟨by simp only; omega, i0⟩
      · exact ⟨by simp only; omega, i1⟩)
    (by simp; omega)
    (by
      intro q _ hq
      have : q < raws.length := by omega
      exact ⟨⟨e.null, raws[q]⟩, by simp [init, this], rfl⟩)
  exact ⟨s, h1, fun v => h2 _ v (by rw [hlen]; exact i2)⟩

/-- a map from `int` to `int` on a target with a `size_t` of `w` values, hash.h:174-182 -/
def exInts (V : Type) (lay : Layout V) (w : Nat) : Env Int V := ⟨0, fun k => (k % w).toNat, w, lay, none, none⟩

theorem exInts_integer (V : Type) (lay : Layout V) (w : Nat) (h0 : 0 < w) (h4 : 4 ∣ w) : Spec.IntegerKeys (exInts V lay w) :=
  ⟨fun _ => rfl, h0, h4⟩

example : (0 : Nat) < 4294967296 ∧ 4 ∣ 4294967296 ∧ Spec.NoWrap 4294967296 7 (-9) ∧ Spec.NoWrap 4294967296 8 (-4) ∧
    Spec.NoWrap 4294967296 100 1 ∧ 4294967296 = 4 * 1073741824 ∧ 4294967296 % 3 = 1 :=
  ⟨by omega, by omega, .inr ⟨-1, by omega, by omega⟩, .inl (by omega), .inr ⟨0, by omega, by omega⟩, by omega, by omega⟩

example : (run (exInts _ layout32 4294967296) (init (exInts _ layout32 4294967296) [0, 0, 0, 0, 0])
    [.insert (-3) 1, .insert (-7) 2, .insert (-5) 3, .insert (-4) 4, .insert (-6) 5]).map (·.2) =
    some [.inserted 1, .inserted 2, .inserted 3, .inserted 4, .inserted 5] ∧
    (run (exInts _ layout32 4294967296) (init (exInts _ layout32 4294967296) [0, 0, 0])
      [.insert 1073741823 1, .insert 1073741824 2, .insert 1073741825 3]).map (·.2) =
      some [.inserted 1, .inserted 2, .refused] := by decide +kernel

end Verif.Unordered
