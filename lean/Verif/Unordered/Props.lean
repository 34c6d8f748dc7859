import Verif.Unordered.MapProps
/-!
# C21, C22: theorems about the fixed-size unordered map

The reference is `Spec.Run` of Spec.lean.  `none` as the result of an operation is undefined
behaviour.  `e.hi` / `e.lo` are the slot-sized memory right behind / in front of the array: `none`
when reading it is undefined (strict C++), `some x` on a machine where it can be read.
-/

namespace Verif.Unordered

set_option linter.unusedSectionVars false

variable {K V : Type} [DecidableEq K]

/-! ## A concrete instance -/

/-- `layer1::unordered_map<uint32_t, uint32_t, N>`: the null key is 0 and `hash<uint32_t>` is the
identity (internal/functional/hash.h:174-182, 201-202). -/
def intEnv (lo hi : Option (Slot (BitVec 32) (BitVec 32))) : Env (BitVec 32) (BitVec 32) where
  null := 0
  hash k := k.toNat
  word := 2 ^ 64
  lay := layout32
  lo := lo
  hi := hi

theorem layout32_lawful : layout32.Lawful := by
  refine ⟨?_, ?_, ?_⟩
  · intro n v
    simp only [layout32, BitVec.getLsbD_ofNat, Nat.testBit_zero]
    simp
    omega
  · intro n v
    simp only [layout32, BitVec.toNat_ofNat]
    have := v.isLt
    omega
  · intro v
    simp only [layout32, BitVec.getLsbD_ofNat, Nat.testBit_zero]
    simp

/-- An array of `n` empty slots, storage zeroed. -/
def fresh (e : Env (BitVec 32) (BitVec 32)) (n : Nat) : Slots (BitVec 32) (BitVec 32) :=
  init e (List.replicate n 0)

/-! ## C21: insertion histories -/

/-- C21, for every hash function, layout, array size and history of any operations except the
erasing of single elements: what the caller sees is what a map shows, whenever the history has no
undefined behaviour.  (Missing: the history may have undefined behaviour, see
`lookup_undefined_iff`.) -/
theorem insert_history_partial (e : Env K V) (hl : e.lay.Lawful) (raws : List V)
    (hr : raws ≠ []) (ops : List (Op K V)) (hops : ∀ o ∈ ops, o.erases = false) (s : Slots K V)
    (outs : List (Out V)) (h : run e (init e raws) ops = some (s, outs)) :
    ∃ m, Spec.Run (fun _ => none) ops outs m ∧ Repr e s m := by
  have hn := init_none e raws
  have hs : 0 < (init e raws).length := by
    simp only [init, List.length_map]; exact List.length_pos_iff.mpr hr
  obtain ⟨m, h1, -, h3, -⟩ := run_refines hl ops _ s _ outs (dense_of_none hn).inv (repr_empty hn)
    hs (cleanRun_of_dense ops _ _ (dense_of_none hn) (repr_empty hn) hs hops) h
  exact ⟨m, h1, h3⟩

example : run (intEnv none none) (fresh (intEnv none none) 8)
      [.insert 2 20, .insert 4 40, .insert 2 21, .find 2, .find 6, .assign 4 41, .sub 4, .count 2,
       .size] =
    some ([⟨2, 20⟩, ⟨4, 41⟩, ⟨0, 0⟩, ⟨0, 0⟩, ⟨0, 0⟩, ⟨0, 0⟩, ⟨0, 0⟩, ⟨0, 0⟩],
      [.inserted 20, .inserted 40, .present 20, .value (some 20), .value none, .inserted 41,
       .value (some 41), .number 1, .number 2]) := by decide +kernel

/-- The specification, for insertions only: the entry of `k` is the value of its first successful
insertion. -/
theorem spec_first_insert (kvs : List (K × V)) :
    ∀ (m m' : K → Option V) (outs : List (Out V)) (k : K),
      Spec.Run m (kvs.map fun p => Op.insert p.1 p.2) outs m' →
      m' k = (m k).or (((kvs.zip outs).find? fun q =>
        decide (q.1.1 = k) && (match q.2 with | .inserted _ => true | _ => false)).map (·.1.2)) := by
  induction kvs with
  | nil =>
    intro m m' outs k h
    cases outs with
    | nil =>
      have : m' = m := h
      subst this; simp
    | cons o os => exact absurd h (by simp [Spec.Run])
  | cons p kvs ih =>
    intro m m' outs k h
    obtain ⟨a, b⟩ := p
    cases outs with
    | nil => exact absurd h (by simp [Spec.Run])
    | cons o os =>
      obtain ⟨m1, h1, h2⟩ := h
      rw [ih m1 m' os k h2, List.zip_cons_cons]
      cases o with
      | inserted w =>
        obtain ⟨g1, g2, g3⟩ := h1
        subst g3; subst g2
        by_cases hk : a = k
        · subst hk
          rw [List.find?_cons_of_pos (by simp)]
          simp [Spec.upd, g1]
        · rw [List.find?_cons_of_neg (by simp [hk])]
          have : k ≠ a := fun h => hk h.symm
          simp [Spec.upd, this]
      | present w =>
        obtain ⟨g1, g2⟩ := h1
        subst g2
        rw [List.find?_cons_of_neg (by simp)]
      | refused =>
        obtain ⟨g1, g2⟩ := h1
        subst g2
        rw [List.find?_cons_of_neg (by simp)]
      | _ => exact absurd h1 (by simp [Spec.Step])

/-- C21: after any sequence of insertions, a lookup of `k` answers with the value of the first
insertion of `k` that reported success, and with absence when there was none. -/
theorem first_insert_wins_partial (e : Env K V) (hl : e.lay.Lawful) (raws : List V)
    (hr : raws ≠ []) (kvs : List (K × V)) (s : Slots K V) (outs : List (Out V))
    (h : run e (init e raws) (kvs.map fun p => Op.insert p.1 p.2) = some (s, outs)) (k : K)
    (r : Option V) (hf : lookup e s k = some r) :
    r = ((kvs.zip outs).find? fun q =>
      decide (q.1.1 = k) && (match q.2 with | .inserted _ => true | _ => false)).map (·.1.2) := by
  have hn := init_none e raws
  have hs : 0 < (init e raws).length := by
    simp only [init, List.length_map]; exact List.length_pos_iff.mpr hr
  have hc := cleanRun_of_dense (kvs.map fun p => Op.insert p.1 p.2) _ _ (dense_of_none hn)
    (repr_empty hn) hs (by
      intro o ho
      obtain ⟨p, -, rfl⟩ := List.mem_map.mp ho
      rfl)
  obtain ⟨m, h1, h2, h3, h4⟩ := run_refines hl _ _ s _ outs (dense_of_none hn).inv (repr_empty hn)
    hs hc h
  have h5 := spec_first_insert kvs _ m outs k h1
  unfold lookup at hf
  cases hfd : find e s k with
  | none => rw [hfd] at hf; cases hf
  | some fr =>
    rw [hfd] at hf
    simp only [Option.map_some] at hf
    injection hf with hf
    rcases find_repr h2 h3 (by omega) k fr hfd with ⟨hk, rfl⟩ | ⟨p, u, hk, rfl, hat⟩
    · rw [← hf]
      rw [hk] at h5
      simpa using h5
    · rw [← hf]
      rw [hk] at h5
      simpa [hat.1] using h5

/-- C21: an insertion of a key that is not the null key is refused exactly when the slots from its
home slot on are filled by its own bucket up to a slot of another bucket (or up to the end of the
array, provided the memory there does not look like an empty slot). -/
theorem insert_refused_iff (e : Env K V) (s : Slots K V) (hs : 0 < s.length) (k : K) (v : V)
    (hk : k ≠ e.null) :
    insert e s k v = some (s, (none, false)) ↔
      ∃ j, index e s.length k ≤ j ∧ j ≤ s.length ∧
        Occupied e s (index e s.length k) k (index e s.length k) j ∧
        ((∃ k' v', At e s j k' v' ∧ index e s.length k' ≠ index e s.length k) ∨
         (j = s.length ∧ ∃ h, e.hi = some h ∧ h.key ≠ e.null)) := by
  obtain ⟨j, h1, h2, h3, h4⟩ := precheck_cases e s k hs hk
  constructor
  · intro h
    refine ⟨j, h1, h2, h3, ?_⟩
    unfold insert at h
    rcases h4 with ⟨h4, h5⟩ | ⟨y, hy, hn, h5⟩ | ⟨y, hy, hn, hne, h5⟩ | ⟨y, hy, hyk, h5⟩
    · right
      refine ⟨h4, ?_⟩
      rw [h5] at h
      cases hh : e.hi with
      | none => rw [hh] at h; cases h
      | some x =>
        rw [hh] at h
        simp only [Option.map_some] at h
        refine ⟨x, rfl, ?_⟩
        intro hx
        rw [if_pos hx] at h
        simp only at h
        rw [if_neg (by omega)] at h
        cases h
    · rw [h5] at h
      simp only at h
      rw [if_pos (get_lt hy)] at h
      injection h with h; injection h with h h'; injection h' with h'; cases h'
    · left; exact ⟨y.key, y.raw, ⟨hy, hn⟩, hne⟩
    · rw [h5] at h
      simp only at h
      injection h with h; injection h with h h'; injection h' with h'; cases h'
  · rintro ⟨j', g1, g2, g3, g4⟩
    -- both walks end in the same slot
    have hjj : j = j' := by
      rcases Nat.lt_trichotomy j j' with hlt | heq | hgt
      · exfalso
        obtain ⟨z, hz, hz1, hz2, hz3⟩ := g3 j h1 hlt
        have := get_lt hz
        rcases h4 with ⟨h4, h5⟩ | ⟨y, hy, hn, h5⟩ | ⟨y, hy, hn, hne, h5⟩ | ⟨y, hy, hyk, h5⟩
        · omega
        · rw [hz] at hy; injection hy with hy; subst hy; exact hz1 hn
        · rw [hz] at hy; injection hy with hy; subst hy; exact hne hz2
        · rw [hz] at hy; injection hy with hy; subst hy; exact hz3 hyk
      · exact heq
      · exfalso
        obtain ⟨z, hz, hz1, hz2, hz3⟩ := h3 j' g1 hgt
        have := get_lt hz
        rcases g4 with ⟨k', v', hat, hne⟩ | ⟨h, -⟩
        · have := hat.key_eq hz
          subst this; exact hne hz2
        · omega
    subst hjj
    unfold insert
    rcases h4 with ⟨h4, h5⟩ | ⟨y, hy, hn, h5⟩ | ⟨y, hy, hn, hne, h5⟩ | ⟨y, hy, hyk, h5⟩
    · rcases g4 with ⟨k', v', hat, hne⟩ | ⟨-, x, hx, hxn⟩
      · have := get_lt hat.1; omega
      · rw [h5, hx]; simp [hxn]
    · rcases g4 with ⟨k', v', hat, hne⟩ | ⟨h, -⟩
      · have := hat.key_eq hy; subst this; exact absurd hn hat.2
      · have := get_lt hy; omega
    · rw [h5]
    · rcases g4 with ⟨k', v', hat, hne⟩ | ⟨h, -⟩
      · have := hat.key_eq hy
        subst this
        have hyk' : k' = k := hyk
        rw [hyk'] at hne; exact absurd rfl hne
      · have := get_lt hy; omega

example : insert (intEnv none none) [⟨2, 20⟩, ⟨4, 1⟩, ⟨6, 1⟩, ⟨8, 1⟩, ⟨1, 1⟩, ⟨0, 0⟩, ⟨0, 0⟩, ⟨0, 0⟩]
    10 7 = some ([⟨2, 20⟩, ⟨4, 1⟩, ⟨6, 1⟩, ⟨8, 1⟩, ⟨1, 1⟩, ⟨0, 0⟩, ⟨0, 0⟩, ⟨0, 0⟩], (none, false)) := by
  decide +kernel

/-- C21: the null key `T{}` is never stored: inserting it is refused and looking it up answers
absence. -/
theorem null_key_refused (e : Env K V) (s : Slots K V) (v : V) :
    insert e s e.null v = some (s, (none, false)) ∧ find e s e.null = some none := by
  constructor
  · unfold insert precheck; rw [if_pos rfl]
  · unfold find; rw [if_pos rfl]

/-- C21 does not hold without a condition on the layout: a lookup has undefined behaviour (it reads
the slot behind the array) exactly when nothing between the home slot of the key and the end of the
array ends the bucket. -/
theorem lookup_undefined_iff (e : Env K V) (s : Slots K V) (hs : 0 < s.length) (k : K)
    (hhi : e.hi = none) :
    find e s k = none ↔ k ≠ e.null ∧ ∀ q, index e s.length k ≤ q → q < s.length →
      ∃ y, s[q]? = some y ∧ Passable e s.length (index e s.length k) k y := by
  by_cases hk : k = e.null
  · subst hk
    rw [(null_key_refused e s · |>.2)]
    · simp
    · exact (s[0]'hs).raw
  obtain ⟨j, h1, h2, h3, h4⟩ := find_cases e s k hs hk
  constructor
  · intro h
    refine ⟨hk, ?_⟩
    rcases h4 with ⟨h4, -⟩ | ⟨y, -, -, -, h5⟩ | ⟨y, -, -, -, h5⟩ | ⟨y, -, -, h5⟩
    · subst h4; exact h3
    · rw [h5] at h; cases h
    · rw [h5] at h; cases h
    · rw [h5] at h; cases h
  · rintro ⟨-, h⟩
    rcases h4 with ⟨h4, h5⟩ | ⟨y, hy, hn, hsp, -⟩ | ⟨y, hy, hn, hne, -⟩ | ⟨y, hy, hyk, -⟩
    · rw [h5, hhi]; rfl
    · obtain ⟨z, hz, hz1⟩ := h j h1 (get_lt hy)
      rw [hy] at hz; injection hz with hz; subst hz
      rcases hz1 with hz1 | ⟨hz1, -⟩
      · rw [hsp] at hz1; cases hz1
      · exact absurd hn hz1
    · obtain ⟨z, hz, hz1⟩ := h j h1 (get_lt hy)
      rw [hy] at hz; injection hz with hz; subst hz
      rcases hz1 with hz1 | ⟨-, hz1, -⟩
      · rw [isSparse_false_of_active hn] at hz1; cases hz1
      · exact absurd hz1 hne
    · obtain ⟨z, hz, hz1⟩ := h j h1 (get_lt hy)
      rw [hy] at hz; injection hz with hz; subst hz
      rcases hz1 with hz1 | ⟨-, -, hz1⟩
      · exact absurd (((isSparse_iff e _ _).mp hz1).1) (by rw [hyk]; exact hk)
      · exact absurd hyk hz1

/-- The history that reaches it: fill the last bucket, then look up a key that collides. -/
theorem lookup_undefined_witness :
    (∃ s outs, run (intEnv none none) (fresh (intEnv none none) 4)
      [.insert 1 1, .insert 2 2, .insert 3 3, .insert 4 4] = some (s, outs) ∧
      contains (intEnv none none) s 5 = none ∧ insert (intEnv none none) s 5 5 = none ∧
      contains (intEnv none none) s 4 = some true) := by
  exact ⟨[⟨1, 1⟩, ⟨2, 2⟩, ⟨3, 3⟩, ⟨4, 4⟩], [.inserted 1, .inserted 2, .inserted 3, .inserted 4],
    by decide +kernel⟩

/-- C21: as long as the last slot is empty and carries no erasure mark, lookups, insertions,
`insert_or_assign`, `count` and `bucket_size` never leave the array. -/
theorem defined_while_last_free (e : Env K V) (s : Slots K V) (x : Slot K V)
    (hx : s[s.length - 1]? = some x) (hn : x.key = e.null) (hg : e.lay.gc x.raw = false) (k : K)
    (v : V) :
    (find e s k).isSome = true ∧ (insert e s k v).isSome = true ∧
      (insertOrAssign e s k v).isSome = true ∧ (count e s k).isSome = true ∧
      (∀ n, n < s.length → (bucketSize e s n).isSome = true) := by
  have hs : 0 < s.length := by have := get_lt hx; omega
  have hfind : (find e s k).isSome = true := by
    by_cases hk : k = e.null
    · unfold find; rw [if_pos hk]; rfl
    obtain ⟨j, h1, h2, h3, h4⟩ := find_cases e s k hs hk
    rcases h4 with ⟨h4, -⟩ | ⟨y, -, -, -, h5⟩ | ⟨y, -, -, -, h5⟩ | ⟨y, -, -, h5⟩
    · exfalso
      obtain ⟨y, hy, hp⟩ := h3 (s.length - 1) (by have := index_lt e hs k; omega) (by omega)
      rw [hx] at hy; injection hy with hy; subst hy
      rcases hp with hp | ⟨hp, -⟩
      · rw [((isSparse_iff e _ _).mp hp).2.1] at hg; cases hg
      · exact hp hn
    · rw [h5]; rfl
    · rw [h5]; rfl
    · rw [h5]; rfl
  have hins : (insert e s k v).isSome = true := by
    by_cases hk : k = e.null
    · subst hk; rw [(null_key_refused e s v).1]; rfl
    obtain ⟨j, h1, h2, h3, h4⟩ := precheck_cases e s k hs hk
    unfold insert
    rcases h4 with ⟨h4, -⟩ | ⟨y, hy, -, h5⟩ | ⟨y, -, -, -, h5⟩ | ⟨y, -, -, h5⟩
    · exfalso
      obtain ⟨y, hy, hp, -⟩ := h3 (s.length - 1) (by have := index_lt e hs k; omega) (by omega)
      rw [hx] at hy; injection hy with hy; subst hy
      exact hp hn
    · rw [h5]; simp only; rw [if_pos (get_lt hy)]; rfl
    · rw [h5]; rfl
    · rw [h5]; rfl
  have hb : ∀ n, ∀ (l : Slots K V) (i : Nat), i < s.length → s.drop i = l →
      (bucketScan e s.length n l i).isSome = true := by
    intro n l
    induction l with
    | nil =>
      intro i hi hl
      rw [List.drop_eq_nil_iff] at hl; omega
    | cons z zs ih =>
      intro i hi hl
      obtain ⟨hz, hzs⟩ := drop_cons hl
      rw [bucketScan]
      by_cases hlast : i = s.length - 1
      · subst hlast
        rw [hx] at hz; injection hz with hz; subst hz
        rw [if_neg (by simp [isSparse, hg]), if_pos (by simp [isEmpty, hn])]
        rfl
      · have := ih (i + 1) (by omega) hzs
        split
        · exact this
        · split
          · rfl
          · split
            · rfl
            · rw [Option.isSome_map]; exact this
  refine ⟨hfind, hins, ?_, ?_, ?_⟩
  · unfold insertOrAssign
    cases hf : find e s k with
    | none => rw [hf] at hfind; cases hfind
    | some r =>
      cases r with
      | none => exact hins
      | some i =>
        obtain ⟨u, hu⟩ := find_sound e s k hs i hf
        simp only [hu.1]; rfl
  · unfold count
    simp only [Option.isSome_map]
    exact hb _ _ _ (index_lt e hs k) rfl
  · intro n hlt
    unfold bucketSize
    rw [Option.isSome_map]
    exact hb n _ n hlt rfl

example : (find (intEnv none none) [⟨1, 1⟩, ⟨2, 2⟩, ⟨3, 3⟩, ⟨0, 0⟩] 9) = some none := by
  decide +kernel

/-- C21: on a machine where the memory behind the array can be read and does not look like an empty
slot, lookups, insertions, `count` and `size` are defined in every state. -/
theorem defined_when_readable (e : Env K V) (h : Slot K V) (hhi : e.hi = some h)
    (hh : h.key ≠ e.null) (s : Slots K V) (hs : 0 < s.length) (k : K) (v : V) :
    (find e s k).isSome = true ∧ (insert e s k v).isSome = true ∧ (count e s k).isSome = true := by
  refine ⟨?_, ?_, ?_⟩
  · by_cases hk : k = e.null
    · unfold find; rw [if_pos hk]; rfl
    obtain ⟨j, h1, h2, h3, h4⟩ := find_cases e s k hs hk
    rcases h4 with ⟨-, h5⟩ | ⟨y, -, -, -, h5⟩ | ⟨y, -, -, -, h5⟩ | ⟨y, -, -, h5⟩
    · rw [h5, hhi]; rfl
    all_goals rw [h5]; rfl
  · by_cases hk : k = e.null
    · subst hk; rw [(null_key_refused e s v).1]; rfl
    obtain ⟨j, h1, h2, h3, h4⟩ := precheck_cases e s k hs hk
    unfold insert
    rcases h4 with ⟨-, h5⟩ | ⟨y, hy, -, h5⟩ | ⟨y, -, -, -, h5⟩ | ⟨y, -, -, h5⟩
    · rw [h5, hhi]; simp [hh]
    · rw [h5]; simp only; rw [if_pos (get_lt hy)]; rfl
    · rw [h5]; rfl
    · rw [h5]; rfl
  · unfold count
    simp only [Option.isSome_map]
    generalize index e s.length k = n
    have : ∀ (l : Slots K V) (i : Nat), (bucketScan e s.length n l i).isSome = true := by
      intro l
      induction l with
      | nil => intro i; rw [bucketScan, hhi]; rfl
      | cons z zs ih =>
        intro i
        rw [bucketScan]
        split
        · exact ih _
        · split
          · rfl
          · split
            · rfl
            · rw [Option.isSome_map]; exact ih _
    exact this _ _

/-- neither `operator[]` nor the erasing of a single element -/
def Spec.Tame : Op K V → Prop
  | .sub _ => False
  | .erase _ => False
  | _ => True

theorem step_readable (e : Env K V) (h : Slot K V) (hhi : e.hi = some h) (hh : h.key ≠ e.null) (s : Slots K V)
    (m : K → Option V) (hI : Inv e s) (hm : Repr e s m) (hD : Dense e s) (hs : 0 < s.length) (o : Op K V)
    (ho : Spec.Tame o) : ∃ s' r, step e s o = some (s', r) := by
  have hdef := fun k v => defined_when_readable e h hhi hh s hs k v
  have hins : ∀ k v s1 r1, insert e s k v = some (s1, r1) → ∃ o, seen s1 r1 = some o := by
    intro k v s1 r1 hi
    obtain ⟨o, m', h1, -⟩ := insert_step hI hm hs (dense_clean hD hs k) hi
    exact ⟨o, h1⟩
  cases o with
  | insert k v =>
    obtain ⟨⟨s1, r1⟩, hi⟩ := Option.isSome_iff_exists.mp (hdef k v).2.1
    obtain ⟨o, h1⟩ := hins k v s1 r1 hi
    exact ⟨s1, o, by simp [step, hi, h1]⟩
  | assign k v =>
    obtain ⟨f, hf⟩ := Option.isSome_iff_exists.mp (hdef k v).1
    rcases find_repr hI hm hs k f hf with ⟨-, rfl⟩ | ⟨p, u, -, rfl, hat⟩
    · obtain ⟨⟨s1, r1⟩, hi⟩ := Option.isSome_iff_exists.mp (hdef k v).2.1
      obtain ⟨o, h1⟩ := hins k v s1 r1 hi
      exact ⟨s1, o, by simp [step, insertOrAssign, hf, hi, h1]⟩
    · have hself : At e (s.set p ⟨k, v⟩) p k v := at_set_self (get_lt hat.1) hat.2
      exact ⟨s.set p ⟨k, v⟩, _, by simp only [step, insertOrAssign, hf, hat.1, seen_inserted hself, Option.map_some]; rfl⟩
  | sub k => exact ho.elim
  | erase k => exact ho.elim
  | clear => exact ⟨_, _, rfl⟩
  | find k =>
    obtain ⟨f, hf⟩ := Option.isSome_iff_exists.mp (hdef k h.raw).1
    exact ⟨s, _, by simp only [step, lookup, hf, Option.map_some]; rfl⟩
  | contains k =>
    obtain ⟨f, hf⟩ := Option.isSome_iff_exists.mp (hdef k h.raw).1
    exact ⟨s, _, by simp only [step, contains, hf, Option.map_some]; rfl⟩
  | count k =>
    obtain ⟨f, hf⟩ := Option.isSome_iff_exists.mp (hdef k h.raw).2.2
    exact ⟨s, _, by simp only [step, hf, Option.map_some]; rfl⟩
  | size => exact ⟨_, _, rfl⟩
  | isEmpty => exact ⟨_, _, rfl⟩

/-- C21, without a condition on undefined behaviour: on a machine where the memory behind the array can be read and does not
look like an empty slot, every history of insertions, assignments, clears and observations is defined, and what the caller
sees is what a map shows. -/
theorem insert_history_readable (e : Env K V) (hl : e.lay.Lawful) (h : Slot K V) (hhi : e.hi = some h) (hh : h.key ≠ e.null)
    (raws : List V) (hr : raws ≠ []) (ops : List (Op K V)) (hops : ∀ o ∈ ops, Spec.Tame o) :
    ∃ s outs m, run e (init e raws) ops = some (s, outs) ∧ Spec.Run (fun _ => none) ops outs m ∧ Repr e s m := by
  have hne : ∀ o : Op K V, Spec.Tame o → o.erases = false := by
    intro o ho
    cases o <;> first | rfl | exact ho.elim
  have key : ∀ (ops : List (Op K V)) (s : Slots K V) (m : K → Option V), (∀ o ∈ ops, Spec.Tame o) → Inv e s → Repr e s m →
      Dense e s → 0 < s.length → ∃ s' outs, run e s ops = some (s', outs) := by
    intro ops
    induction ops with
    | nil => intro s m _ _ _ _ _; exact ⟨s, [], rfl⟩
    | cons o ops ih =>
      intro s m ho hI hm hD hs
      have ht := ho o (by simp)
      obtain ⟨s1, r, h1⟩ := step_readable e h hhi hh s m hI hm hD hs o ht
      have hc : Clean e s o := by
        cases o with
        | insert k v => exact dense_clean hD hs k
        | assign k v => exact fun _ => dense_clean hD hs k
        | sub k => exact ht.elim
        | erase k => exact ht.elim
        | _ => trivial
      obtain ⟨m', -, i1, i2, i3, -, i5⟩ := step_refines (o := o) (fun _ => hl) hI hm hs hc h1
      obtain ⟨s2, outs, h2⟩ := ih s1 m' (fun x hx => ho x (by simp [hx])) i1 i2 (i5 (hne o ht) hD) (by omega)
      exact ⟨s2, r :: outs, by simp [run, h1, h2]⟩
  have hn := init_none e raws
  have hs : 0 < (init e raws).length := by
    simp only [init, List.length_map]; exact List.length_pos_iff.mpr hr
  obtain ⟨s, outs, h1⟩ := key ops _ _ hops (dense_of_none hn).inv (repr_empty hn) (dense_of_none hn) hs
  obtain ⟨m, h2, h3⟩ := insert_history_partial e hl raws hr ops (fun o ho => hne o (hops o ho)) s outs h1
  exact ⟨s, outs, m, h1, h2, h3⟩

/-- a table filled to the end whose last bucket is then asked for an absent key -/
example : (run (intEnv none (some ⟨9, 9⟩)) (fresh (intEnv none (some ⟨9, 9⟩)) 4)
    [.insert 1 1, .insert 2 2, .insert 3 3, .insert 4 4, .find 5, .insert 5 5, .assign 4 7, .find 4, .count 3]).isSome = true := by
  decide +kernel

/-- … and when that memory does look like an empty slot, an insertion whose bucket is filled up to
the end of the array constructs the element behind the array (undefined behaviour). -/
theorem insert_behind_end (e : Env K V) (h : Slot K V) (hhi : e.hi = some h)
    (hh : h.key = e.null) (s : Slots K V) (hs : 0 < s.length) (k : K) (v : V) (hk : k ≠ e.null)
    (hfull : Occupied e s (index e s.length k) k (index e s.length k) s.length) :
    precheck e s k = some (.fresh s.length) ∧ insert e s k v = none := by
  have hp : precheck e s k = some (.fresh s.length) := by
    have hn := index_lt e hs k
    rw [precheck, if_neg hk]
    have hd : index e s.length k + (s.length - index e s.length k) = s.length := by omega
    have := probe_skip e s.length (index e s.length k) k s (s.length - index e s.length k)
      (index e s.length k) (by rw [hd]; exact hfull)
    rw [hd] at this
    simp only [this]
    rw [List.drop_length, probe, hhi]
    simp [isEmpty, hh]
  refine ⟨hp, ?_⟩
  unfold insert
  rw [hp]
  simp

example : insert (intEnv none (some ⟨0, 0⟩)) [⟨1, 1⟩, ⟨2, 2⟩, ⟨3, 3⟩, ⟨4, 4⟩] 5 5 = none := by
  decide +kernel

/-! ## Iteration over the whole container -/

theorem iterScan_none (e : Env K V) (hhi : e.hi = none) (l : Slots K V) (i : Nat) :
    iterScan e l i = none := by
  induction l generalizing i with
  | nil => rw [iterScan, hhi]
  | cons x xs ih =>
    rw [iterScan]
    split
    · exact ih _
    · rw [ih]; rfl

/-- C21: iterating from `begin()` to `end()` always reads the slot behind the array, whatever the
container holds. -/
theorem iteration_always_undefined (e : Env K V) (hhi : e.hi = none) (s : Slots K V) :
    iterScan e s 0 = none := iterScan_none e hhi s 0

/-- C21: where that read is harmless, iteration visits every key of the map exactly once and
nothing else — after every clean history. -/
theorem iteration_visits_each_once (e : Env K V) (hl : e.lay.Lawful) (raws : List V)
    (hr : raws ≠ []) (ops : List (Op K V)) (hc : CleanRun e (init e raws) ops) (s : Slots K V)
    (outs : List (Out V)) (h : run e (init e raws) ops = some (s, outs)) (x : Slot K V)
    (hhi : e.hi = some x) :
    ∃ m keys, Spec.Run (fun _ => none) ops outs m ∧ iterKeys e s = some keys ∧ keys.Nodup ∧
      ∀ k, k ∈ keys ↔ m k ≠ none := by
  have hn := init_none e raws
  have hs : 0 < (init e raws).length := by
    simp only [init, List.length_map]; exact List.length_pos_iff.mpr hr
  obtain ⟨m, h1, h2, h3, h4⟩ := run_refines hl ops _ s _ outs (dense_of_none hn).inv (repr_empty hn)
    hs hc h
  have hdef : ∀ (l : Slots K V) (i : Nat), ∃ r, iterScan e l i = some r := by
    intro l
    induction l with
    | nil => intro i; exact ⟨[], by rw [iterScan, hhi]⟩
    | cons y ys ih =>
      intro i
      obtain ⟨r, hr⟩ := ih (i + 1)
      rw [iterScan]
      split
      · exact ⟨r, hr⟩
      · exact ⟨i :: r, by rw [hr]; rfl⟩
  obtain ⟨r, hr'⟩ := hdef s 0
  obtain ⟨a, -⟩ := iterScan_spec e s s 0 r rfl hr'
  refine ⟨m, (s.filter fun x => !isEmpty e x).map (·.key), h1, ?_, keys_nodup h2.uniq, ?_⟩
  · unfold iterKeys; rw [hr', Option.map_some, a]
  · intro k; rw [mem_keys, repr_ne_none h3]

/-! ## C22: erasing -/

/-- C22, C21 for histories with erasures: whenever the history has no undefined behaviour and every
operation is clean (no insertion takes a slot an erasure freed in front of live elements of another
bucket or in front of the same key, and bucket numbers fit six bits), the container behaves as a
map: erasing removes exactly that key.  (Missing: histories that are not clean, for which the
property fails — see `clobber_breaks` and the witnesses — and undefined behaviour.) -/
theorem erase_history_partial (e : Env K V) (hl : e.lay.Lawful) (raws : List V)
    (hr : raws ≠ []) (ops : List (Op K V)) (hc : CleanRun e (init e raws) ops) (s : Slots K V)
    (outs : List (Out V)) (h : run e (init e raws) ops = some (s, outs)) :
    ∃ m, Spec.Run (fun _ => none) ops outs m ∧ Repr e s m := by
  have hn := init_none e raws
  have hs : 0 < (init e raws).length := by
    simp only [init, List.length_map]; exact List.length_pos_iff.mpr hr
  obtain ⟨m, h1, -, h3, -⟩ := run_refines hl ops _ s _ outs (dense_of_none hn).inv (repr_empty hn)
    hs hc h
  exact ⟨m, h1, h3⟩

/-- Does the operation possibly insert? -/
def Op.inserts : Op K V → Bool
  | .insert _ _ => true
  | .assign _ _ => true
  | .sub _ => true
  | _ => false

theorem cleanRun_no_insert {e : Env K V} (hl : e.lay.Lawful) :
    ∀ (ops : List (Op K V)) (s : Slots K V) (m : K → Option V), Inv e s → Repr e s m →
      0 < s.length → s.length ≤ 64 → (∀ o ∈ ops, o.inserts = false) → CleanRun e s ops := by
  intro ops
  induction ops with
  | nil => intro s m _ _ _ _ _; exact trivial
  | cons o os ih =>
    intro s m hI hm hs h64 ho
    have hno := ho o (by simp)
    have hcl : Clean e s o := by
      cases o with
      | insert k v => cases hno
      | assign k v => cases hno
      | sub k => cases hno
      | erase k => exact Or.inl (by have := index_lt e hs k; omega)
      | _ => exact trivial
    refine ⟨hcl, ?_⟩
    intro s1 r hst
    obtain ⟨m1, -, h2, h3, h4, -, -⟩ := step_refines (fun _ => hl) hI hm hs hcl hst
    exact ih s1 m1 h2 h3 (by omega) (by omega) fun o' ho' => ho o' (by simp [ho'])

theorem cleanRun_append {e : Env K V} :
    ∀ (a b : List (Op K V)) (s : Slots K V), CleanRun e s a →
      (∀ s' r, run e s a = some (s', r) → CleanRun e s' b) → CleanRun e s (a ++ b) := by
  intro a
  induction a with
  | nil => intro b s _ h; exact h s [] rfl
  | cons o os ih =>
    intro b s hc h
    refine ⟨hc.1, ?_⟩
    intro s1 r hst
    refine ih b s1 (hc.2 s1 r hst) ?_
    intro s2 rs hr
    exact h s2 (r :: rs) (by rw [run, hst]; simp only; rw [hr]; rfl)

/-- C22, for users who fill a container first and only erase afterwards: any history of operations
other than erase, followed by any history of operations that do not insert (erases, lookups, …),
on at most 64 slots, behaves as a map. -/
theorem fill_then_erase_partial (e : Env K V) (hl : e.lay.Lawful) (raws : List V)
    (hr : raws ≠ []) (h64 : raws.length ≤ 64) (fill drain : List (Op K V))
    (hfill : ∀ o ∈ fill, o.erases = false) (hdrain : ∀ o ∈ drain, o.inserts = false)
    (s : Slots K V) (outs : List (Out V))
    (h : run e (init e raws) (fill ++ drain) = some (s, outs)) :
    ∃ m, Spec.Run (fun _ => none) (fill ++ drain) outs m ∧ Repr e s m := by
  have hn := init_none e raws
  have hs : 0 < (init e raws).length := by
    simp only [init, List.length_map]; exact List.length_pos_iff.mpr hr
  have hcf := cleanRun_of_dense fill _ _ (dense_of_none hn) (repr_empty hn) hs hfill
  refine erase_history_partial e hl raws hr _ ?_ s outs h
  refine cleanRun_append fill drain _ hcf ?_
  intro s' r hr'
  obtain ⟨m, -, h2, h3, h4⟩ := run_refines hl fill _ s' _ r (dense_of_none hn).inv (repr_empty hn)
    hs hcf hr'
  have hlen : (init e raws).length = raws.length := by simp [init]
  exact cleanRun_no_insert hl drain s' m h2 h3 (by omega) (by omega) hdrain

example : (run (intEnv (some ⟨0, 0⟩) none) (fresh (intEnv (some ⟨0, 0⟩) none) 8)
      ([.insert 2 20, .insert 4 40, .insert 6 60] ++
       [.erase 4, .find 6, .erase 2, .erase 2, .find 6, .erase 6, .size])).map (·.2) =
    some [.inserted 20, .inserted 40, .inserted 60, .number 1, .value (some 60), .number 1,
      .number 0, .value (some 60), .number 1, .number 0] := by decide +kernel

/-- The key an operation is about. -/
def Op.key : Op K V → Option K
  | .insert k _ => some k
  | .assign k _ => some k
  | .sub k => some k
  | .erase k => some k
  | .find k => some k
  | .contains k => some k
  | .count k => some k
  | _ => none

theorem spec_keys {m m' : K → Option V} {o : Op K V} {r : Out V} (h : Spec.Step m o r m') (k : K)
    (hk : m' k ≠ none) : m k ≠ none ∨ o.key = some k := by
  have hu : ∀ (a : K) (w : Option V), m' = Spec.upd m a w → m k ≠ none ∨ some a = some k := by
    intro a w he
    by_cases hka : k = a
    · right; rw [hka]
    · left
      rw [he] at hk
      simpa [Spec.upd, hka] using hk
  have hs : m' = m → m k ≠ none := fun he => by rw [he] at hk; exact hk
  unfold Spec.Step at h
  split at h
  · exact hu _ _ h.2.2
  · exact Or.inl (hs h.2)
  · exact Or.inl (hs h.2)
  · exact hu _ _ h.2
  · exact Or.inl (hs h.2)
  · rcases h with h | h
    · exact Or.inl (hs h.2)
    · exact hu _ _ h.2
  · exact hu _ _ h.2
  · exact Or.inl (hs h.2)
  · rw [h] at hk; exact absurd rfl hk
  · exact Or.inl (hs h.2)
  · exact Or.inl (hs h.2)
  · exact Or.inl (hs h.2)
  · exact Or.inl (hs h.2)
  · exact Or.inl (hs h.2)
  · exact absurd h id

theorem cleanRun_collision_free {e : Env K V} (hl : e.lay.Lawful) (S : K → Prop) (N : Nat)
    (hinj : ∀ a b, S a → S b → index e N a = index e N b → a = b) :
    ∀ (ops : List (Op K V)) (s : Slots K V) (m : K → Option V), Inv e s → Repr e s m →
      s.length = N → 0 < N → (∀ p k v, At e s p k v → S k ∧ p = index e N k) →
      (∀ o ∈ ops, ∀ k, o.key = some k → S k) → CleanRun e s ops := by
  intro ops
  induction ops with
  | nil => intro s m _ _ _ _ _ _; exact trivial
  | cons o os ih =>
    intro s m hI hm hN hs hhome hk
    subst hN
    have hnc : ∀ k, ¬ Clobbers e s k := by
      rintro k ⟨i, p, k', v', -, hp, hip, hle, -⟩
      have := (hhome p k' v' hp).2
      omega
    have hcl : Clean e s o := by
      cases o with
      | insert k v => exact hnc k
      | assign k v => exact fun _ => hnc k
      | sub k => exact fun _ => hnc k
      | erase k =>
        right
        intro p v hp p' k' v' hp' he
        have h1 := hhome p k v hp
        have h2 := hhome p' k' v' hp'
        omega
      | _ => exact trivial
    refine ⟨hcl, ?_⟩
    intro s1 r hst
    obtain ⟨m1, h1, h2, h3, h4, h5, -⟩ := step_refines (fun _ => hl) hI hm hs hcl hst
    refine ih s1 m1 h2 h3 h4 hs ?_ fun o' ho' => hk o' (by simp [ho'])
    intro p k v hp
    have hSk : S k := by
      rcases spec_keys h1 k (by rw [h3.some_of_at hp]; exact nofun) with h' | h'
      · obtain ⟨q, w, hq⟩ := (repr_ne_none hm k).mp h'
        exact (hhome q k w hq).1
      · exact hk o (by simp) k h'
    refine ⟨hSk, ?_⟩
    rcases h5 p k v hp with ⟨w, hw⟩ | hpre
    · exact (hhome p k w hw).2
    · obtain ⟨j, g1, g2, g3, g4⟩ := precheck_cases e s k hs hp.2
      have hpl : p < s.length := by have := get_lt hp.1; omega
      have hjp : j = p := by
        rcases g4 with ⟨g4, g5⟩ | ⟨y, hy, hn, g5⟩ | ⟨y, -, -, -, g5⟩ | ⟨y, -, -, g5⟩
        · rw [hpre] at g5
          cases hh : e.hi with
          | none => rw [hh] at g5; cases g5
          | some x =>
            rw [hh] at g5
            simp only [Option.map_some] at g5
            injection g5 with g5
            split at g5
            · injection g5 with g5; omega
            · cases g5
        · rw [hpre] at g5; injection g5 with g5; injection g5 with g5; exact g5.symm
        · rw [hpre] at g5; cases g5
        · rw [hpre] at g5; injection g5 with g5; cases g5
      subst hjp
      rcases Nat.lt_or_ge (index e s.length k) j with hlt | hge
      · exfalso
        obtain ⟨y, hy, hy1, hy2, hy3⟩ := g3 _ (Nat.le_refl _) hlt
        have hyS := (hhome _ y.key y.raw ⟨hy, hy1⟩).1
        exact hy3 (hinj _ _ hyS hSk hy2)
      · omega

/-- C22, for keys without collisions: if the keys a history uses have pairwise different home
slots, the container behaves as a map under every interleaving of insertions and erasures, for
arrays of any size. -/
theorem collision_free_history_partial (e : Env K V) (hl : e.lay.Lawful) (raws : List V)
    (hr : raws ≠ []) (ops : List (Op K V))
    (hinj : ∀ o₁ ∈ ops, ∀ o₂ ∈ ops, ∀ a b, o₁.key = some a → o₂.key = some b →
      index e raws.length a = index e raws.length b → a = b)
    (s : Slots K V) (outs : List (Out V)) (h : run e (init e raws) ops = some (s, outs)) :
    ∃ m, Spec.Run (fun _ => none) ops outs m ∧ Repr e s m := by
  have hn := init_none e raws
  have hlen : (init e raws).length = raws.length := by simp [init]
  have hpos : 0 < raws.length := List.length_pos_iff.mpr hr
  refine erase_history_partial e hl raws hr ops ?_ s outs h
  refine cleanRun_collision_free hl (fun k => ∃ o ∈ ops, o.key = some k) raws.length ?_ ops _
    (fun _ => none) (dense_of_none hn).inv (repr_empty hn) hlen hpos
    (fun p k v hp => absurd hp (hn p k v)) (fun o ho k hk => ⟨o, ho, hk⟩)
  rintro a b ⟨o1, ho1, ha⟩ ⟨o2, ho2, hb⟩ he
  exact hinj o1 ho1 o2 ho2 a b ha hb he

example : (run (intEnv none none) (fresh (intEnv none none) 12)
      [.insert 1 20, .insert 2 40, .erase 1, .insert 1 60, .find 1, .erase 2, .insert 2 7,
       .find 2, .find 1, .size]).map (·.2) =
    some [.inserted 20, .inserted 40, .number 1, .inserted 60, .value (some 60), .number 1,
      .inserted 7, .value (some 7), .value (some 60), .number 2] := by decide +kernel

/-! ## Where C22 fails -/

/-- The cleanness condition on insertions cannot be dropped: an insertion that clobbers either
reports success for a key that was already there (which is then stored twice), or makes another
key, which is still in the array, disappear from lookups. -/
theorem clobber_breaks (e : Env K V) (s s' : Slots K V) (hI : Inv e s) (hs : 0 < s.length) (k : K)
    (v : V) (r : InsRes) (hc : Clobbers e s k) (h : insert e s k v = some (s', r)) :
    (r.2 = true ∧ ∃ p q w, p ≠ q ∧ At e s p k w ∧ At e s' p k w ∧ At e s' q k v) ∨
    (∃ k' p v', k' ≠ k ∧ At e s p k' v' ∧ At e s' p k' v' ∧ find e s k' = some (some p) ∧
      find e s' k' = some none) := by
  obtain ⟨i, p, k', v', hpre, hp, hip, hle, hor⟩ := hc
  have hk : k ≠ e.null := by
    intro hk; rw [precheck, if_pos hk] at hpre; cases hpre
  have hpl := get_lt hp.1
  have hil : i < s.length := by omega
  unfold insert at h
  rw [hpre] at h
  simp only [hil, ↓reduceIte] at h
  injection h with h; injection h with h1 h2
  subst h1; subst h2
  have hself : At e (s.set i ⟨k, v⟩) i k v := at_set_self hil hk
  by_cases hkk : k' = k
  · subst hkk
    left
    exact ⟨rfl, p, i, v', by omega, hp, (at_set_ne (by omega)).mpr hp, hself⟩
  · right
    have hidx : index e s.length k' ≠ index e s.length k := by
      rcases hor with h | h
      · exact h
      · exact absurd h hkk
    refine ⟨k', p, v', hkk, hp, (at_set_ne (by omega)).mpr hp, find_complete hI hs hp, ?_⟩
    have hs' : 0 < (s.set i (⟨k, v⟩ : Slot K V)).length := by rw [List.length_set]; exact hs
    obtain ⟨j, h1, h2, h3, h4⟩ := find_cases e (s.set i ⟨k, v⟩) k' hs' hp.2
    rw [List.length_set] at h1 h2 h3 h4
    have hji : j ≤ i := by
      rcases Nat.lt_or_ge i j with hlt | hge
      · exfalso
        obtain ⟨y, hy, hpass⟩ := h3 i hle hlt
        have := hself.key_eq hy
        subst this
        rcases hpass with hpass | ⟨-, hpass, -⟩
        · exact hk ((isSparse_iff e _ _).mp hpass).1
        · exact hidx hpass.symm
      · exact hge
    rcases h4 with ⟨h4, -⟩ | ⟨y, -, -, -, h5⟩ | ⟨y, -, -, -, h5⟩ | ⟨y, hy, hyk, -⟩
    · omega
    · exact h5
    · exact h5
    · exfalso
      have hat : At e (s.set i ⟨k, v⟩) j k' y.raw := ⟨by rw [hy, ← hyk], hp.2⟩
      by_cases hj : j = i
      · subst hj
        have := hself.key_eq hat.1
        injection this with h1; exact hkk h1
      · have := hI.uniq j p k' _ _ ((at_set_ne hj).mp hat) hp
        omega

/-- C22 is violated: erase one of two colliding keys, insert the other one again: it is stored twice,
and erasing it once does not make it absent. -/
theorem erase_then_insert_duplicates :
    (run (intEnv (some ⟨0, 0⟩) none) (fresh (intEnv (some ⟨0, 0⟩) none) 8)
      [.insert 2 20, .insert 4 40, .erase 2, .insert 4 41, .size, .erase 4, .find 4]).map (·.2) =
    some [.inserted 20, .inserted 40, .number 1, .inserted 41, .number 2, .number 1,
      .value (some 40)] := by decide +kernel

/-- C22 is violated: a key of another bucket takes the slot an erasure freed; an untouched key behind
it is no longer found. -/
theorem erase_then_insert_loses :
    (run (intEnv none none) (fresh (intEnv none none) 8)
      [.insert 2 2, .insert 4 4, .insert 6 6, .insert 8 8, .insert 10 10, .insert 12 12, .erase 10,
       .find 12, .insert 1 1, .find 12, .size]).map (·.2) =
    some [.inserted 2, .inserted 4, .inserted 6, .inserted 8, .inserted 10, .inserted 12, .number 1,
      .value (some 12), .inserted 1, .value none, .number 6] := by decide +kernel

/-- C22 is violated: erasing the element of the first slot, when the next slot is free, reads the
memory in front of the array. -/
theorem erase_first_slot_undefined (e : Env K V) (s : Slots K V) (hI : Inv e s) (k : K) (v : V)
    (hat : At e s 0 k v) (hfree : nextFree e s 1 = true) (hlo : e.lo = none) :
    erase e s k = none := by
  have hs := get_lt hat.1
  unfold erase
  rw [find_complete hI hs hat]
  simp only
  unfold eraseAt
  simp only [hat.1, Nat.zero_add, hfree, ↓reduceIte, prune, hlo, Option.map_none]

example : erase (intEnv none none) [⟨2, 20⟩, ⟨0, 0⟩, ⟨0, 0⟩, ⟨0, 0⟩] 2 = none := by decide +kernel

/-- C22 is violated on arrays of more than 64 slots: the erasure mark keeps the bucket number in six
bits, so erasing an element of a bucket numbered 64 or more makes the next element of the bucket
disappear from lookups. -/
theorem erase_large_bucket_loses (e : Env K V) (hl : e.lay.Lawful) (s s' : Slots K V)
    (hI : Inv e s) (p : Nat) (k k' : K) (v v' : V) (hat : At e s p k v)
    (hat' : At e s (p + 1) k' v') (hidx : index e s.length k' = index e s.length k)
    (h64 : 64 ≤ index e s.length k) (n : Nat) (h : erase e s k = some (s', n)) :
    find e s k' = some (some (p + 1)) ∧ find e s' k' = some none := by
  have hs : 0 < s.length := by have := get_lt hat.1; omega
  have hpl := get_lt hat.1
  refine ⟨find_complete hI hs hat', ?_⟩
  have hnf : nextFree e s (p + 1) = false := by
    unfold nextFree
    rw [hat'.1]
    simp [isNullNotSparse, isEmpty, hat'.2]
  unfold erase at h
  rw [find_complete hI hs hat] at h
  simp only [eraseAt, hat.1, hnf, Bool.false_eq_true, ↓reduceIte, Option.map_some] at h
  injection h with h; injection h with h1 h2
  subst h1
  have hs' : 0 < (s.set p (⟨e.null, e.lay.mark (index e s.length k) (destruct e ⟨k, v⟩).raw⟩ :
      Slot K V)).length := by rw [List.length_set]; exact hs
  obtain ⟨j, h1, h2, h3, h4⟩ := find_cases e _ k' hs' hat'.2
  rw [List.length_set] at h1 h2 h3 h4
  have hhome := hI.home p k v hat
  have hjp : j ≤ p := by
    rcases Nat.lt_or_ge p j with hlt | hge
    · exfalso
      obtain ⟨y, hy, hpass⟩ := h3 p (by omega) hlt
      rw [List.getElem?_set_self hpl] at hy
      injection hy with hy; subst hy
      rcases hpass with hpass | ⟨hpass, -⟩
      · have := ((isSparse_iff e _ _).mp hpass).2.2
        simp only [hl.bkt_mark] at this
        have := Nat.mod_lt (index e s.length k) (show 0 < 64 by omega)
        omega
      · exact hpass rfl
    · exact hge
  rcases h4 with ⟨h4, -⟩ | ⟨y, -, -, -, h5⟩ | ⟨y, -, -, -, h5⟩ | ⟨y, hy, hyk, -⟩
  · omega
  · exact h5
  · exact h5
  · exfalso
    by_cases hj : j = p
    · subst hj
      rw [List.getElem?_set_self hpl] at hy
      injection hy with hy; subst hy
      exact hat'.2 hyk.symm
    · rw [List.getElem?_set_ne (fun h => hj h.symm)] at hy
      have := hI.uniq j (p + 1) k' y.raw v' ⟨by rw [hy, ← hyk], hat'.2⟩ hat'
      omega

/-- The history that reaches it. -/
theorem erase_large_bucket_witness :
    (run (intEnv none none) (fresh (intEnv none none) 128)
      [.insert 16 1, .insert 48 2, .erase 16, .find 48]).map (·.2) =
    some [.inserted 1, .inserted 2, .number 1, .value none] := by decide +kernel

/-- **Violation.** `m[k]` for an absent key does not value-initialise the new element: it shows whatever the slot's
storage held. -/
theorem subscript_shows_leftovers (e : Env K V) (s s' : Slots K V) (k : K) (i : Nat) (hf : find e s k = some none)
    (h : subscript e s k = some (s', i)) (hp : precheck e s k ≠ some (.dup i)) :
    ∃ x, s[i]? = some x ∧ isEmpty e x = true ∧ s' = s.set i ⟨k, x.raw⟩ := by
  unfold subscript at h
  rw [hf] at h
  simp only at h
  cases hpc : precheck e s k with
  | none => rw [hpc] at h; cases h
  | some p =>
    rw [hpc] at h
    cases p with
    | refused => cases h
    | dup j =>
      simp only [Option.some.injEq, Prod.mk.injEq] at h
      exact absurd (by rw [hpc, h.2]) hp
    | fresh j =>
      simp only at h
      cases hj : s[j]? with
      | none => rw [hj] at h; cases h
      | some x =>
        rw [hj] at h
        simp only [Option.some.injEq, Prod.mk.injEq] at h
        obtain ⟨rfl, rfl⟩ := h
        refine ⟨x, hj, ?_, rfl⟩
        have hjl : j < s.length := (List.getElem?_eq_some_iff.mp hj).1
        have hk : k ≠ e.null := by
          intro hk
          rw [precheck, if_pos hk] at hpc
          cases hpc
        obtain ⟨j', _, _, _, h4⟩ := precheck_cases e s k (by omega) hk
        rcases h4 with ⟨h4, h5⟩ | ⟨y, hy, hn, h5⟩ | ⟨y, hy, hn, hne, h5⟩ | ⟨y, hy, hyk, h5⟩
        · rw [hpc] at h5
          cases hh : e.hi with
          | none => rw [hh] at h5; cases h5
          | some hv =>
            rw [hh] at h5
            simp only [Option.map_some] at h5
            split at h5 <;> simp at h5
            omega
        · rw [hpc] at h5
          simp only [Option.some.injEq, Pre.fresh.injEq] at h5
          subst h5
          rw [hj] at hy
          cases hy
          simpa [isEmpty] using hn
        · rw [hpc] at h5; simp at h5
        · rw [hpc] at h5; simp at h5

/-- here what an erased element and its erasure mark left there -/
example :
    (run (intEnv (some ⟨0, 0⟩) none) (fresh (intEnv (some ⟨0, 0⟩) none) 8)
      [.insert 2 1000, .insert 4 40, .erase 2, .sub 6]).map (·.2) =
    some [.inserted 1000, .inserted 40, .number 1, .value (some 897)] := by decide +kernel

/-- `m[k]` for a new key whose bucket has no room dereferences a null pointer. -/
theorem subscript_refused_undefined (e : Env K V) (s : Slots K V) (k : K)
    (hf : find e s k = some none) (hp : precheck e s k = some .refused) :
    subscript e s k = none := by
  unfold subscript; rw [hf]; simp only; rw [hp]

example : subscript (intEnv none none) [⟨2, 20⟩, ⟨4, 1⟩, ⟨6, 1⟩, ⟨8, 1⟩, ⟨1, 1⟩, ⟨0, 0⟩, ⟨0, 0⟩, ⟨0, 0⟩] 10 =
    none := by decide +kernel

end Verif.Unordered
