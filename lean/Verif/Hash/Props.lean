import Verif.Hash.Model

/-!
# C44: the FNV hashes
-/
namespace Verif.Hash

/-! ## Specification: FNV-1 and FNV-1a over the natural numbers, as published -/

/-- FNV-1: multiply by the prime, then xor the octet -/
def Spec.fnv1 (width prime : Nat) (h : Nat) (bytes : List Nat) : Nat :=
  bytes.foldl (fun h b => (h * prime % 2 ^ width) ^^^ b) h

/-- FNV-1a: xor the octet, then multiply by the prime -/
def Spec.fnv1a (width prime : Nat) (h : Nat) (bytes : List Nat) : Nat :=
  bytes.foldl (fun h b => ((h ^^^ b) * prime) % 2 ^ width) h

/-- the octets in `[first, last)` -/
def octets (m : List (BitVec 8)) (first last : Nat) : List (BitVec 8) := (m.take last).drop first

/-! ## Loop -/

theorem loop_foldl (body : BitVec w → BitVec 8 → BitVec w) (m : List (BitVec 8)) (n cur : Nat) (h : BitVec w)
    (hb : cur + n ≤ m.length) : loop body m cur n h = some ((octets m cur (cur + n)).foldl body h) := by
  induction n generalizing cur h with
  | zero => simp [loop, octets, List.drop_take]
  | succ n ih =>
    have hc : cur < m.length := by omega
    have e : octets m cur (cur + (n + 1)) = m[cur] :: octets m (cur + 1) (cur + 1 + n) := by
      unfold octets
      rw [List.drop_eq_getElem_cons (by simp; omega), List.getElem_take]
      congr 3
      omega
    rw [e, List.foldl_cons, ← ih (cur + 1) _ (by omega)]
    simp [loop, rd, hc]

theorem hash_foldl (body : BitVec w → BitVec 8 → BitVec w) (m : List (BitVec 8)) (first last : Nat) (h : BitVec w)
    (hf : first ≤ last) (hl : last ≤ m.length) :
    hash body m first last h = some ((octets m first last).foldl body h) := by
  unfold hash
  rw [if_pos hf, loop_foldl body m _ _ h (by omega)]
  congr 3
  omega

/-! ## The shift-and-add form -/

/-- C44: the shift-and-add step equals multiplication by the FNV prime 2^40 + 0x1b3 modulo 2^64. -/
theorem shift_sum_is_prime (h : BitVec 64) : (h + shiftSum h).toNat = h.toNat * (2 ^ 40 + 0x1b3) % 2 ^ 64 := by
  unfold shiftSum
  simp only [BitVec.toNat_add, BitVec.toNat_shiftLeft, Nat.shiftLeft_eq]
  omega

example : (0xcbf29ce484222325#64 + shiftSum 0xcbf29ce484222325#64).toNat =
    0xcbf29ce484222325 * 1099511628211 % 2 ^ 64 := by decide +kernel

/-! ## Agreement with the specification -/

theorem foldl_toNat (body : BitVec w → BitVec 8 → BitVec w) (sb : Nat → Nat → Nat)
    (hb : ∀ h c, (body h c).toNat = sb h.toNat c.toNat) (l : List (BitVec 8)) (h : BitVec w) :
    (l.foldl body h).toNat = (l.map BitVec.toNat).foldl sb h.toNat := by
  induction l generalizing h with
  | nil => rfl
  | cons c l ih => simp only [List.foldl_cons, List.map_cons, ih, hb]

theorem byte_lt (c : BitVec 8) : c.toNat < 2 ^ 8 := c.isLt

theorem byte_ext (c : BitVec 8) : (c.setWidth 32).toNat = c.toNat ∧ (c.setWidth 64).toNat = c.toNat := by
  have := byte_lt c
  constructor
  · rw [BitVec.toNat_setWidth]; exact Nat.mod_eq_of_lt (by omega)
  · rw [BitVec.toNat_setWidth]; exact Nat.mod_eq_of_lt (by omega)

theorem prime32_toNat : prime32.toNat = 16777619 := by decide +kernel
theorem prime64_eq : 2 ^ 40 + 0x1b3 = 1099511628211 := by decide +kernel

theorem body32_1_toNat (h : BitVec 32) (c : BitVec 8) :
    (body32_1 h c).toNat = (h.toNat * 16777619 % 2 ^ 32) ^^^ c.toNat := by
  unfold body32_1
  rw [BitVec.toNat_xor, BitVec.toNat_mul, (byte_ext c).1, prime32_toNat]

theorem body32_1a_toNat (h : BitVec 32) (c : BitVec 8) :
    (body32_1a h c).toNat = ((h.toNat ^^^ c.toNat) * 16777619) % 2 ^ 32 := by
  unfold body32_1a
  rw [BitVec.toNat_mul, BitVec.toNat_xor, (byte_ext c).1, prime32_toNat]

theorem body64_1_toNat (h : BitVec 64) (c : BitVec 8) :
    (body64_1 h c).toNat = (h.toNat * 1099511628211 % 2 ^ 64) ^^^ c.toNat := by
  unfold body64_1
  rw [BitVec.toNat_xor, shift_sum_is_prime, (byte_ext c).2, prime64_eq]

theorem body64_1a_toNat (h : BitVec 64) (c : BitVec 8) :
    (body64_1a h c).toNat = ((h.toNat ^^^ c.toNat) * 1099511628211) % 2 ^ 64 := by
  unfold body64_1a
  rw [shift_sum_is_prime, BitVec.toNat_xor, (byte_ext c).2, prime64_eq]

/-- C44: each of the four hash functions is the published FNV function of the octets in the range. -/
theorem hash_is_fnv (m : List (BitVec 8)) (first last : Nat) (hf : first ≤ last) (hl : last ≤ m.length) :
    let bytes := (octets m first last).map BitVec.toNat
    (∀ h, ∃ r, hash body32_1 m first last h = some r ∧ r.toNat = Spec.fnv1 32 16777619 h.toNat bytes) ∧
    (∀ h, ∃ r, hash body32_1a m first last h = some r ∧ r.toNat = Spec.fnv1a 32 16777619 h.toNat bytes) ∧
    (∀ h, ∃ r, hash body64_1 m first last h = some r ∧ r.toNat = Spec.fnv1 64 1099511628211 h.toNat bytes) ∧
    (∀ h, ∃ r, hash body64_1a m first last h = some r ∧ r.toNat = Spec.fnv1a 64 1099511628211 h.toNat bytes) := by
  refine ⟨fun h => ⟨_, hash_foldl _ m first last h hf hl, ?_⟩, fun h => ⟨_, hash_foldl _ m first last h hf hl, ?_⟩,
    fun h => ⟨_, hash_foldl _ m first last h hf hl, ?_⟩, fun h => ⟨_, hash_foldl _ m first last h hf hl, ?_⟩⟩
  · exact foldl_toNat _ _ body32_1_toNat _ _
  · exact foldl_toNat _ _ body32_1a_toNat _ _
  · exact foldl_toNat _ _ body64_1_toNat _ _
  · exact foldl_toNat _ _ body64_1a_toNat _ _

/-- The published test vector: FNV-1a of "a" is 0xE40C292C, of "foobar" 0xBF9CF968; 64 bit "a" 0xAF63DC4C8601EC8C. -/
example : hash body32_1a [0x61#8] 0 1 init32 = some 0xe40c292c#32 ∧
    hash body32_1a [0x66#8, 0x6f#8, 0x6f#8, 0x62#8, 0x61#8, 0x72#8] 0 6 init32 = some 0xbf9cf968#32 ∧
    hash body64_1a [0x61#8] 0 1 init64 = some 0xaf63dc4c8601ec8c#64 := by decide +kernel

/-- The initial values are the published offset bases. -/
theorem init_values : init32.toNat = 2166136261 ∧ init64.toNat = 14695981039346656037 := by decide +kernel

/-- C44: hashing a concatenation is hashing the first part and continuing from its value (any of the four). -/
theorem hash_continue (body : BitVec w → BitVec 8 → BitVec w) (m : List (BitVec 8)) (a b c : Nat) (h : BitVec w)
    (hab : a ≤ b) (hbc : b ≤ c) (hc : c ≤ m.length) :
    (hash body m a b h).bind (hash body m b c ·) = hash body m a c h := by
  rw [hash_foldl body m a b h hab (by omega), hash_foldl body m a c h (by omega) hc]
  simp only [Option.bind_some]
  rw [hash_foldl body m b c _ hbc hc, ← List.foldl_append]
  congr 2
  unfold octets
  have : m.take c = m.take b ++ (m.take c).drop b := by
    conv => lhs; rw [← List.take_append_drop b (m.take c)]
    rw [List.take_take, Nat.min_eq_left hbc]
  conv => rhs; rw [this]
  rw [List.drop_append_of_le_length (by simp; omega)]

example : (hash body32_1a [1#8, 2#8, 3#8] 0 1 init32).bind (hash body32_1a [1#8, 2#8, 3#8] 1 3 ·) =
    hash body32_1a [1#8, 2#8, 3#8] 0 3 init32 := by decide +kernel

/-- C44: containers with equal contents hash equally, wherever and in whatever memory the contents lie. -/
theorem container_hash_contents (m m' : List (BitVec 8)) (d d' n n' : Nat) (h : d + n ≤ m.length)
    (h' : d' + n' ≤ m'.length) (he : octets m d (d + n) = octets m' d' (d' + n')) :
    containerHash m d n = containerHash m' d' n' := by
  unfold containerHash
  rw [hash_foldl _ m _ _ _ (by omega) h, hash_foldl _ m' _ _ _ (by omega) h', he]

example : containerHash [7#8, 1#8, 2#8, 9#8] 1 2 = containerHash [1#8, 2#8] 0 2 := by decide +kernel

/-! ## A single changed octet is always noticed -/

theorem mul_odd_inj32 {x y : BitVec 32} (h : x * prime32 = y * prime32) : x = y := by
  have e : prime32 * 899433627#32 = 1#32 := by decide +kernel
  have := congrArg (· * 899433627#32) h
  simpa only [BitVec.mul_assoc, e, BitVec.mul_one] using this

theorem step64_inj {x y : BitVec 64} (h : x + shiftSum x = y + shiftSum y) : x = y := by
  have hx := shift_sum_is_prime x
  have hy := shift_sum_is_prime y
  rw [h, hy] at hx
  have e : ∀ z : Nat, z < 2 ^ 64 → (z * (2 ^ 40 + 0x1b3) % 2 ^ 64) * 0xce965057aff6957b % 2 ^ 64 = z := by
    intro z hz
    rw [Nat.mod_mul_mod, Nat.mul_assoc, Nat.mul_mod]
    have : ((2 ^ 40 + 0x1b3) * 0xce965057aff6957b) % 2 ^ 64 = 1 := by decide +kernel
    rw [this, Nat.mul_one, Nat.mod_mod, Nat.mod_eq_of_lt hz]
  apply BitVec.eq_of_toNat_eq
  rw [← e x.toNat x.isLt, ← e y.toNat y.isLt, hx]

theorem xor_cancel {w} {a b c : BitVec w} (h : a ^^^ c = b ^^^ c) : a = b := by
  have := congrArg (· ^^^ c) h
  simpa [BitVec.xor_assoc] using this

theorem xor_cancel_left {w} {a b c : BitVec w} (h : c ^^^ a = c ^^^ b) : a = b := by
  rw [BitVec.xor_comm c a, BitVec.xor_comm c b] at h; exact xor_cancel h

theorem setWidth_inj {w} (hw : 8 ≤ w) {a b : BitVec 8} (h : a.setWidth w = b.setWidth w) : a = b := by
  have := congrArg BitVec.toNat h
  simp only [BitVec.toNat_setWidth] at this
  have h2 : 2 ^ 8 ≤ 2 ^ w := Nat.pow_le_pow_right (by decide) hw
  rw [Nat.mod_eq_of_lt (Nat.lt_of_lt_of_le a.isLt h2), Nat.mod_eq_of_lt (Nat.lt_of_lt_of_le b.isLt h2)] at this
  exact BitVec.eq_of_toNat_eq this

/-- a step that loses neither the running value nor the octet -/
def Injective2 (body : BitVec w → BitVec 8 → BitVec w) : Prop :=
  (∀ h h' c, body h c = body h' c → h = h') ∧ (∀ h c c', body h c = body h c' → c = c')

theorem bodies_injective :
    Injective2 body32_1 ∧ Injective2 body32_1a ∧ Injective2 body64_1 ∧ Injective2 body64_1a := by
  refine ⟨⟨?_, ?_⟩, ⟨?_, ?_⟩, ⟨?_, ?_⟩, ⟨?_, ?_⟩⟩
  · intro h h' c e; exact mul_odd_inj32 (xor_cancel e)
  · intro h c c' e; exact setWidth_inj (by decide) (xor_cancel_left e)
  · intro h h' c e; exact xor_cancel (mul_odd_inj32 e)
  · intro h c c' e; exact setWidth_inj (by decide) (xor_cancel_left (mul_odd_inj32 e))
  · intro h h' c e; exact step64_inj (xor_cancel e)
  · intro h c c' e; exact setWidth_inj (by decide) (xor_cancel_left e)
  · intro h h' c e; exact xor_cancel (step64_inj e)
  · intro h c c' e; exact setWidth_inj (by decide) (xor_cancel_left (step64_inj e))

theorem foldl_inj {body : BitVec w → BitVec 8 → BitVec w} (hi : Injective2 body) (l : List (BitVec 8))
    {h h' : BitVec w} (e : l.foldl body h = l.foldl body h') : h = h' := by
  induction l generalizing h h' with
  | nil => exact e
  | cons c l ih => exact hi.1 _ _ _ (ih e)

/-- C44: changing exactly one octet always changes the hash — for every content, position and starting value, and for
all four functions. -/
theorem single_octet_change (pre suf : List (BitVec 8)) (c c' : BitVec 8) (hc : c ≠ c') :
    let m := pre ++ c :: suf
    let m' := pre ++ c' :: suf
    (∀ h, hash body32_1 m 0 m.length h ≠ hash body32_1 m' 0 m'.length h) ∧
    (∀ h, hash body32_1a m 0 m.length h ≠ hash body32_1a m' 0 m'.length h) ∧
    (∀ h, hash body64_1 m 0 m.length h ≠ hash body64_1 m' 0 m'.length h) ∧
    (∀ h, hash body64_1a m 0 m.length h ≠ hash body64_1a m' 0 m'.length h) := by
  intro m m'
  have key : ∀ (w : Nat) (body : BitVec w → BitVec 8 → BitVec w), Injective2 body → ∀ h,
      hash body m 0 m.length h ≠ hash body m' 0 m'.length h := by
    intro w body hi h e
    rw [hash_foldl _ m _ _ _ (by omega) (Nat.le_refl _), hash_foldl _ m' _ _ _ (by omega) (Nat.le_refl _)] at e
    simp only [octets, List.take_length, List.drop_zero, m, m', List.foldl_append, List.foldl_cons,
      Option.some.injEq] at e
    exact hc (hi.2 _ _ _ (foldl_inj hi suf e))
  obtain ⟨h1, h2, h3, h4⟩ := bodies_injective
  exact ⟨key _ _ h1, key _ _ h2, key _ _ h3, key _ _ h4⟩

example : hash body32_1a [1#8, 2#8] 0 2 init32 ≠ hash body32_1a [1#8, 3#8] 0 2 init32 := by decide +kernel

end Verif.Hash
