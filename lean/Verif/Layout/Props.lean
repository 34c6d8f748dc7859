import Verif.Layout.Spec

/-!
# Storage is large enough and aligned (C76)

The calculus itself first (members of a class lie inside it, aligned and apart), then for each
class of the library the exact condition under which an object of type `T` fits.
-/

namespace Verif.Layout
open Spec

/-! ## Rounding and powers of two -/

theorem roundUp_dvd (n a : Nat) : a ∣ roundUp n a := ⟨_, Nat.mul_comm _ _⟩

theorem roundUp_ge {n a : Nat} (h : 0 < a) : n ≤ roundUp n a := by
  have h1 := Nat.div_add_mod (n + a - 1) a
  have h2 := Nat.mod_lt (n + a - 1) h
  have h3 : a * ((n + a - 1) / a) = (n + a - 1) / a * a := Nat.mul_comm _ _
  unfold roundUp; omega

theorem roundUp_lt {n a : Nat} (h : 0 < a) : roundUp n a < n + a := by
  have h1 := Nat.div_add_mod (n + a - 1) a
  have h3 : a * ((n + a - 1) / a) = (n + a - 1) / a * a := Nat.mul_comm _ _
  unfold roundUp; omega

/-- `roundUp` is the least multiple. -/
theorem roundUp_least {n a m : Nat} (h : 0 < a) (hd : a ∣ m) (hm : n ≤ m) : roundUp n a ≤ m := by
  obtain ⟨c, rfl⟩ := hd
  unfold roundUp
  rw [Nat.mul_comm a c]
  apply Nat.mul_le_mul_right
  rw [← Nat.lt_add_one_iff, Nat.div_lt_iff_lt_mul h]
  have : (c + 1) * a = a * c + a := by rw [Nat.add_mul, Nat.mul_comm, Nat.one_mul]
  omega

theorem roundUp_of_dvd {n a : Nat} (h : 0 < a) (hd : a ∣ n) : roundUp n a = n :=
  Nat.le_antisymm (roundUp_least h hd (Nat.le_refl n)) (roundUp_ge h)

theorem roundUp_one (n : Nat) : roundUp n 1 = n := roundUp_of_dvd Nat.one_pos (Nat.one_dvd n)

theorem roundUp_zero {a : Nat} (h : 0 < a) : roundUp 0 a = 0 := roundUp_of_dvd h (Nat.dvd_zero a)

theorem pow2_pos {a : Nat} (h : ∃ k, a = 2 ^ k) : 0 < a := by
  obtain ⟨k, rfl⟩ := h; exact Nat.two_pow_pos k

theorem pow2_dvd {a b : Nat} (ha : ∃ k, a = 2 ^ k) (hb : ∃ k, b = 2 ^ k) (h : a ≤ b) : a ∣ b := by
  obtain ⟨i, rfl⟩ := ha
  obtain ⟨j, rfl⟩ := hb
  have : i ≤ j := by
    rcases Nat.lt_or_ge j i with hlt | hge
    · have := Nat.pow_lt_pow_right (a := 2) (by decide) hlt
      omega
    · exact hge
  exact Nat.pow_dvd_pow 2 this

theorem pow2_max {a b : Nat} (ha : ∃ k, a = 2 ^ k) (hb : ∃ k, b = 2 ^ k) :
    ∃ k, max a b = 2 ^ k := by
  rcases Nat.le_total a b with h | h
  · rw [Nat.max_eq_right h]; exact hb
  · rw [Nat.max_eq_left h]; exact ha

theorem pow2_one : ∃ k, 1 = 2 ^ k := ⟨0, rfl⟩

theorem Ty.Ok.apos {t : Ty} (h : t.Ok) : 0 < t.align := pow2_pos h.pow2

/-! ## The calculus -/

/-- Which offsets and alignments make an object fit. -/
theorem holds_iff {outer t : Ty} {off : Nat} :
    Holds outer off t ↔ off + t.size ≤ outer.size ∧ t.align ∣ outer.align ∧ t.align ∣ off := by
  constructor
  · rintro ⟨h1, h2⟩
    have h0 : t.align ∣ off := by simpa using h2 0 (Nat.dvd_zero _)
    have ha := h2 outer.align (Nat.dvd_refl _)
    exact ⟨h1, (Nat.dvd_add_left h0).mp ha, h0⟩
  · rintro ⟨h1, h2, h3⟩
    exact ⟨h1, fun addr h => Nat.dvd_add (Nat.dvd_trans h2 h) h3⟩

/-- An alignment a type may have; `place` keeps to them. -/
theorem place_align (ts : List Ty) : ∀ off al, (∃ k, al = 2 ^ k) →
    (∀ t ∈ ts, ∃ k, t.align = 2 ^ k) →
    (∃ k, (place off al ts).2.2 = 2 ^ k) ∧ al ≤ (place off al ts).2.2 ∧
      (∀ t ∈ ts, t.align ≤ (place off al ts).2.2) := by
  induction ts with
  | nil => intro off al h _; exact ⟨h, Nat.le_refl _, by simp⟩
  | cons t ts ih =>
    intro off al h hts
    have := ih (roundUp off t.align + t.size) (max al t.align)
      (pow2_max h (hts t (by simp))) (fun u hu => hts u (by simp [hu]))
    refine ⟨this.1, Nat.le_trans (Nat.le_max_left _ _) this.2.1, ?_⟩
    intro u hu
    rcases List.mem_cons.mp hu with rfl | hu
    · exact Nat.le_trans (Nat.le_max_right _ _) this.2.1
    · exact this.2.2 u hu

theorem place_end (ts : List Ty) : ∀ off al, (∀ t ∈ ts, ∃ k, t.align = 2 ^ k) →
    off ≤ (place off al ts).2.1 := by
  induction ts with
  | nil => intro off al _; exact Nat.le_refl _
  | cons t ts ih =>
    intro off al hts
    have h1 := ih (roundUp off t.align + t.size) (max al t.align) (fun u hu => hts u (by simp [hu]))
    have h2 := roundUp_ge (n := off) (pow2_pos (hts t (by simp)))
    exact Nat.le_trans (Nat.le_trans h2 (Nat.le_add_right _ _)) h1

theorem place_member (ts : List Ty) : ∀ off al, (∀ t ∈ ts, ∃ k, t.align = 2 ^ k) →
    ∀ (i : Nat) t, ts[i]? = some t → ∃ o, (place off al ts).1[i]? = some o ∧
      off ≤ o ∧ t.align ∣ o ∧ o + t.size ≤ (place off al ts).2.1 := by
  induction ts with
  | nil => intro off al _ i t h; simp at h
  | cons u ts ih =>
    intro off al hts i t h
    have h2 := roundUp_ge (n := off) (pow2_pos (hts u (by simp)))
    cases i with
    | zero =>
      simp at h; subst h
      exact ⟨_, rfl, h2, roundUp_dvd _ _,
        place_end ts _ _ (fun v hv => hts v (by simp [hv]))⟩
    | succ i =>
      obtain ⟨o, h3, h4, h5, h6⟩ := ih (roundUp off u.align + u.size) (max al u.align)
        (fun v hv => hts v (by simp [hv])) i t (by simpa using h)
      exact ⟨o, by simpa [place] using h3, by omega, h5, h6⟩

theorem place_apart (ts : List Ty) : ∀ off al, (∀ t ∈ ts, ∃ k, t.align = 2 ^ k) →
    ∀ (i j : Nat) t o o', i < j → ts[i]? = some t → (place off al ts).1[i]? = some o →
      (place off al ts).1[j]? = some o' → o + t.size ≤ o' := by
  induction ts with
  | nil => intro off al _ i j t o o' _ h; simp at h
  | cons u ts ih =>
    intro off al hts i j t o o' hij h h1 h2
    cases j with
    | zero => omega
    | succ j =>
      simp only [place, List.getElem?_cons_succ] at h2
      have hj : j < ts.length := by
        have hlen : ∀ (l : List Ty) a b, (place a b l).1.length = l.length := by
          intro l
          induction l with
          | nil => intro a b; rfl
          | cons x l ih => intro a b; simp [place, ih]
        obtain ⟨hj, _⟩ := List.getElem?_eq_some_iff.mp h2
        rw [hlen] at hj; exact hj
      cases i with
      | zero =>
        simp [place] at h1 h; subst h; subst h1
        obtain ⟨o2, h3, h4, _, _⟩ := place_member ts (roundUp off u.align + u.size)
          (max al u.align) (fun v hv => hts v (by simp [hv])) j ts[j] (by simp)
        rw [h2] at h3; cases h3
        exact h4
      | succ i =>
        exact ih _ _ (fun v hv => hts v (by simp [hv])) i j t o o' (by omega)
          (by simpa using h) (by simpa [place] using h1) h2

/-- The members of a class, for all member types: each has its offset, at which the class has
aligned room for it. -/
theorem struct_member {ts : List Ty} (hts : ∀ t ∈ ts, ∃ k, t.align = 2 ^ k) {i : Nat} {t : Ty}
    (h : ts[i]? = some t) : ∃ o, (offsets ts)[i]? = some o ∧ Holds (struct ts) o t := by
  obtain ⟨o, h1, _, h3, h4⟩ := place_member ts 0 1 hts i t h
  obtain ⟨ha, _, hm⟩ := place_align ts 0 1 pow2_one hts
  refine ⟨o, h1, holds_iff.mpr ⟨Nat.le_trans h4 (roundUp_ge (pow2_pos ha)), ?_, h3⟩⟩
  have hmem : t ∈ ts := List.mem_of_getElem? h
  exact pow2_dvd (hts t hmem) ha (hm t hmem)

/-- Two different members do not overlap. -/
theorem struct_members_apart {ts : List Ty} (hts : ∀ t ∈ ts, ∃ k, t.align = 2 ^ k)
    {i j : Nat} {t : Ty} {o o' : Nat} (hij : i < j) (h : ts[i]? = some t)
    (h1 : (offsets ts)[i]? = some o) (h2 : (offsets ts)[j]? = some o') : o + t.size ≤ o' :=
  place_apart ts 0 1 hts i j t o o' hij h h1 h2

/-- A class's size is a multiple of its alignment, so that arrays of it stay aligned. -/
theorem struct_mult (ts : List Ty) : (struct ts).align ∣ (struct ts).size := roundUp_dvd _ _

example : struct [⟨1, 1⟩, ⟨4, 4⟩, ⟨2, 2⟩] = ⟨12, 4⟩ ∧ offsets [⟨1, 1⟩, ⟨4, 4⟩, ⟨2, 2⟩] = [0, 4, 8] := by
  decide

theorem struct_one (t : Ty) (h : t.align ∣ t.size) (hp : 0 < t.align) : struct [t] = t := by
  have h1 : max 1 t.align = t.align := Nat.max_eq_right hp
  simp only [struct, place, roundUp_zero hp, Nat.zero_add, h1, roundUp_of_dvd hp h]

theorem struct_bytes (n : Nat) : struct [bytes n] = bytes n :=
  struct_one _ (Nat.one_dvd _) Nat.one_pos

theorem struct_two (t u : Ty) (ht : 0 < t.align) (hu : 0 < u.align) :
    struct [t, u] = ⟨roundUp (roundUp t.size u.align + u.size) (max t.align u.align),
      max t.align u.align⟩ := by
  have h1 : max 1 t.align = t.align := Nat.max_eq_right ht
  simp only [struct, place, roundUp_zero ht, Nat.zero_add, h1]

theorem offsets_two (t u : Ty) (ht : 0 < t.align) :
    offsets [t, u] = [0, roundUp t.size u.align] := by
  simp only [offsets, place, roundUp_zero ht, Nat.zero_add]

theorem foldl_align_ge (ts : List Ty) : ∀ a, a ≤ ts.foldl (fun a t => max a t.align) a := by
  induction ts with
  | nil => intro a; exact Nat.le_refl _
  | cons t ts ih => intro a; exact Nat.le_trans (Nat.le_max_left _ _) (ih _)

theorem foldl_align_mem (ts : List Ty) : ∀ a, ∀ t ∈ ts,
    t.align ≤ ts.foldl (fun a t => max a t.align) a := by
  induction ts with
  | nil => intro a t h; simp at h
  | cons u ts ih =>
    intro a t h
    rcases List.mem_cons.mp h with rfl | h
    · exact Nat.le_trans (Nat.le_max_right _ _) (foldl_align_ge ts _)
    · exact ih _ t h

theorem foldl_align_pow2 (ts : List Ty) : ∀ a, (∃ k, a = 2 ^ k) →
    (∀ t ∈ ts, ∃ k, t.align = 2 ^ k) →
    ∃ k, ts.foldl (fun a t => max a t.align) a = 2 ^ k := by
  induction ts with
  | nil => intro a h _; exact h
  | cons u ts ih =>
    intro a h hts
    exact ih _ (pow2_max h (hts u (by simp))) (fun v hv => hts v (by simp [hv]))

theorem foldl_size_ge (ts : List Ty) : ∀ a, a ≤ ts.foldl (fun a t => max a t.size) a := by
  induction ts with
  | nil => intro a; exact Nat.le_refl _
  | cons t ts ih => intro a; exact Nat.le_trans (Nat.le_max_left _ _) (ih _)

theorem foldl_size_mem (ts : List Ty) : ∀ a, ∀ t ∈ ts,
    t.size ≤ ts.foldl (fun a t => max a t.size) a := by
  induction ts with
  | nil => intro a t h; simp at h
  | cons u ts ih =>
    intro a t h
    rcases List.mem_cons.mp h with rfl | h
    · exact Nat.le_trans (Nat.le_max_right _ _) (foldl_size_ge ts _)
    · exact ih _ t h

/-- Every member of a union fits, at its start. -/
theorem union_member {ts : List Ty} (hts : ∀ t ∈ ts, ∃ k, t.align = 2 ^ k) {t : Ty}
    (h : t ∈ ts) : Holds (union ts) 0 t := by
  have hp := foldl_align_pow2 ts 1 pow2_one hts
  refine holds_iff.mpr ⟨?_, pow2_dvd (hts t h) hp (foldl_align_mem ts 1 t h), Nat.dvd_zero _⟩
  have h1 := foldl_size_mem ts 0 t h
  have h2 := roundUp_ge (n := maxSize ts) (pow2_pos hp)
  simp only [union, maxSize, maxAlign] at *
  omega

theorem holds_trans {a b c : Ty} {o o' : Nat} (h1 : Holds a o b) (h2 : Holds b o' c) :
    Holds a (o + o') c := by
  rw [holds_iff] at *
  refine ⟨by omega, Nat.dvd_trans h2.2.1 h1.2.1, ?_⟩
  exact Nat.dvd_add (Nat.dvd_trans h2.2.1 h1.2.2) h2.2.2

theorem holds_refl (t : Ty) : Holds t 0 t := holds_iff.mpr ⟨by omega, Nat.dvd_refl _, Nat.dvd_zero _⟩

theorem arr_member {t : Ty} (h : t.align ∣ t.size) {n i : Nat} (hi : i < n) :
    Holds (arr n t) (i * t.size) t := by
  refine holds_iff.mpr ⟨?_, Nat.dvd_refl _, Nat.dvd_trans h (Nat.dvd_mul_left _ _)⟩
  have : (i + 1) * t.size ≤ n * t.size := Nat.mul_le_mul_right _ hi
  rw [Nat.add_mul, Nat.one_mul] at this
  exact this

/-! ## `aligned_storage` -/

/-- With `alignas`, `aligned_storage<Len, Align>` has room for every type no larger than `Len`
and no more strictly aligned than `Align`. -/
theorem alignedStorage_holds {t : Ty} (ht : t.Ok) {len align : Nat} (ha : ∃ k, align = 2 ^ k)
    (hs : t.size ≤ len) (hal : t.align ≤ align) : Holds (alignedStorage true len align) 0 t := by
  have h1 : max align 1 = align := Nat.max_eq_left (pow2_pos ha)
  have hd := roundUp_dvd len align
  have hge := roundUp_ge (n := len) (pow2_pos ha)
  have : alignedStorage true len align = ⟨roundUp len align, align⟩ := by
    simp only [alignedStorage, if_true, alignas, bytes, h1]
    exact struct_one _ hd (pow2_pos ha)
  rw [this, holds_iff]
  exact ⟨by simp only; omega, pow2_dvd ht.pow2 ha hal, Nat.dvd_zero _⟩

/-- `instance_wrapper<T>` has room for a `T`. -/
theorem instanceWrapper_holds {t : Ty} (ht : t.Ok) : Holds (instanceWrapper t) 0 t := by
  have h := alignedStorage_holds ht ht.pow2 (Nat.le_refl _) (Nat.le_refl _)
  have h1 : max t.align 1 = t.align := Nat.max_eq_left ht.apos
  have : instanceWrapper t = alignedStorage true t.size t.align := by
    unfold instanceWrapper
    refine struct_one _ (struct_mult _) ?_
    simp only [alignedStorage, if_true, alignas, bytes, h1]
    have := struct_one ⟨roundUp t.size t.align, t.align⟩ (roundUp_dvd _ _) ht.apos
    rw [this]; exact ht.apos
  rw [this]; exact h

/-- **Violation.**  Where the compiler has no `alignas`, `aligned_storage<sizeof(T), alignof(T)>`
has room for a `T` only if `T` is a single byte: the array has `alignof(T)` bytes, not
`sizeof(T)`. -/
theorem alignedStorage_without_alignas {t : Ty} (ht : t.Ok) :
    Holds (alignedStorage false t.size t.align) 0 t ↔ t.size = 1 := by
  have : alignedStorage false t.size t.align = bytes t.align := by
    simp only [alignedStorage]; exact struct_bytes _
  rw [this, holds_iff]
  simp only [bytes, Nat.dvd_one, Nat.dvd_zero, and_true, Nat.zero_add]
  have := Nat.le_of_dvd ht.pos ht.mult
  have := ht.pos
  constructor
  · rintro ⟨h1, h2⟩; omega
  · intro h; have := ht.apos; omega

example : (⟨12, 4⟩ : Ty).Ok := ⟨⟨2, rfl⟩, ⟨3, rfl⟩, by decide⟩
example : ¬ Holds (alignedStorage false 12 4) 0 ⟨12, 4⟩ := by
  rw [alignedStorage_without_alignas (t := ⟨12, 4⟩) ⟨⟨2, rfl⟩, ⟨3, rfl⟩, by decide⟩]; decide

/-! ## Raw bytes -/

/-- `raw_instance_provider<T>` is always large enough, and aligned only for types that may
lie anywhere. -/
theorem rawInstance_holds (t : Ty) {size : Nat} (hs : t.size ≤ size) :
    Holds (rawInstance size) 0 t ↔ t.align = 1 := by
  unfold rawInstance
  rw [struct_bytes, holds_iff]
  simp only [bytes, Nat.dvd_one, Nat.dvd_zero, and_true, Nat.zero_add]
  exact ⟨fun h => h.2, fun h => ⟨hs, h⟩⟩

theorem uninitializedArray_eq (t : Ty) (n : Nat) : uninitializedArray t n = bytes (n * t.size) := by
  unfold uninitializedArray
  rw [struct_bytes]
  exact struct_bytes _

/-- The elements of an `uninitialized_array` of a class type lie one behind the other inside
it; they are aligned only if their type may lie anywhere. -/
theorem uninitializedArray_holds (t : Ty) {n : Nat} (hn : 0 < n) :
    (∀ i, i < n → Holds (uninitializedArray t n) (i * t.size) t) ↔ t.align = 1 := by
  rw [uninitializedArray_eq]
  constructor
  · intro h
    have := (holds_iff.mp (h 0 hn)).2.1
    exact Nat.dvd_one.mp this
  · intro h i hi
    rw [holds_iff, h]
    refine ⟨?_, Nat.one_dvd _, Nat.one_dvd _⟩
    have : (i + 1) * t.size ≤ n * t.size := Nat.mul_le_mul_right _ hi
    rw [Nat.add_mul, Nat.one_mul] at this
    exact this

/-- Large enough it always is. -/
theorem uninitializedArray_fits (t : Ty) {n i : Nat} (hi : i < n) :
    i * t.size + t.size ≤ (uninitializedArray t n).size := by
  rw [uninitializedArray_eq]
  have : (i + 1) * t.size ≤ n * t.size := Nat.mul_le_mul_right _ hi
  rw [Nat.add_mul, Nat.one_mul] at this
  exact this

/-- `estd::array` keeps its elements aligned, unless the compiler lets `packed` reach the base
class; then it does so only for types that may lie anywhere. -/
theorem estdArray_holds (packsBases : Bool) {t : Ty} (ht : t.Ok) {n : Nat} (hn : 0 < n) :
    (∀ i, i < n → Holds (estdArray packsBases t n) (i * t.size) t) ↔
      packsBases = false ∨ t.align = 1 := by
  cases packsBases with
  | true =>
    have := uninitializedArray_holds t hn
    rw [uninitializedArray_eq] at this
    simp only [estdArray, if_true]
    rw [this]; simp
  | false =>
    refine ⟨fun _ => .inl rfl, fun _ i hi => ?_⟩
    have : estdArray false t n = arr n t := by
      simp only [estdArray, Bool.false_eq_true, if_false]
      exact struct_one _ (Nat.dvd_trans ht.mult (Nat.dvd_mul_left _ _)) ht.apos
    rw [this]
    exact arr_member ht.mult hi

/-! ## Vectors -/

/-- Every element of a `layer1::vector<T, N>`, for all `T` and `N`: aligned if `T` is integral,
otherwise only as far as the type of the vector's own size field is. -/
theorem layer1Vector_holds (integral : Bool) {sz t : Ty} (hsz : sz.Ok) (ht : t.Ok) {n : Nat}
    (hn : 0 < n) :
    (∀ i, i < n → Holds (layer1Vector integral sz t n) (i * t.size) t) ↔
      integral = true ∨ t.align ∣ sz.align := by
  have hbuf : ∀ b, (∃ k, (layer1Buffer b t n).align = 2 ^ k) := by
    intro b
    cases b
    · simp only [layer1Buffer, Bool.false_eq_true, if_false]
      rw [uninitializedArray_eq]; exact pow2_one
    · exact ht.pow2
  have hstart : ∀ b, Holds (layer1Vector b sz t n) 0 (layer1Buffer b t n) := by
    intro b
    obtain ⟨o, h1, h2⟩ := struct_member (ts := [layer1Buffer b t n, sz]) (i := 0)
      (by intro u hu; simp at hu; rcases hu with rfl | rfl; exact hbuf b; exact hsz.pow2) rfl
    rw [offsets_two _ _ (pow2_pos (hbuf b))] at h1
    simp at h1; subst h1; exact h2
  cases integral with
  | true =>
    refine ⟨fun _ => .inl rfl, fun _ i hi => ?_⟩
    have := holds_trans (hstart true) (arr_member ht.mult hi)
    simpa using this
  | false =>
    have hal : (layer1Vector false sz t n).align = sz.align := by
      unfold layer1Vector
      rw [struct_two _ _ (pow2_pos (hbuf false)) hsz.apos]
      simp only [layer1Buffer, Bool.false_eq_true, if_false]
      rw [uninitializedArray_eq]
      exact Nat.max_eq_right hsz.apos
    constructor
    · intro h
      have := (holds_iff.mp (h 0 hn)).2.1
      rw [hal] at this; exact .inr this
    · intro h i hi
      rw [holds_iff, hal]
      refine ⟨?_, by simpa using h, Nat.dvd_trans ht.mult (Nat.dvd_mul_left _ _)⟩
      have h1 := (holds_iff.mp (hstart false)).1
      have h2 := uninitializedArray_fits t hi
      simp only [layer1Buffer, Bool.false_eq_true, if_false] at h1
      omega

/-- **Violation.**  A vector of up to 255 objects of any class type that needs an alignment
greater than 1 does not keep them aligned: its only aligned member is an 8-bit size. -/
theorem layer1Vector_misaligned {t : Ty} (ht : t.Ok) (hal : 1 < t.align) {n : Nat} (hn : 0 < n) :
    ¬ ∀ i, i < n → Holds (layer1Vector false ⟨1, 1⟩ t n) (i * t.size) t := by
  rw [layer1Vector_holds false ⟨⟨0, rfl⟩, ⟨1, rfl⟩, by decide⟩ ht hn]
  rintro (h | h)
  · cases h
  · have := Nat.dvd_one.mp h; omega

example : Holds (layer1Vector true ⟨1, 1⟩ ⟨4, 4⟩ 10) 36 ⟨4, 4⟩ :=
  (layer1Vector_holds true ⟨⟨0, rfl⟩, ⟨1, rfl⟩, by decide⟩ ⟨⟨2, rfl⟩, ⟨1, rfl⟩, by decide⟩
    (by decide)).mpr (.inl rfl) 9 (by decide)

/-! ## Sums -/

theorem largestType_spec (ts : List Ty) : ∀ t, t.size ≤ (largestType t ts).size ∧
    (∀ u ∈ ts, u.size ≤ (largestType t ts).size) ∧ (largestType t ts ∈ t :: ts) := by
  induction ts with
  | nil => intro t; simp [largestType]
  | cons u ts ih =>
    intro t
    simp only [largestType]
    have hw : t.size ≤ (if u.size ≤ t.size then t else u).size ∧
        u.size ≤ (if u.size ≤ t.size then t else u).size := by split <;> omega
    obtain ⟨h1, h2, h3⟩ := ih (if u.size ≤ t.size then t else u)
    refine ⟨Nat.le_trans hw.1 h1, ?_, ?_⟩
    · intro v hv
      rcases List.mem_cons.mp hv with rfl | hv
      · exact Nat.le_trans hw.2 h1
      · exact h2 v hv
    · rcases List.mem_cons.mp h3 with h | h
      · rw [h]; split <;> simp
      · simp [h]

/-- The largest of the alternatives is one of them, and none is larger. -/
theorem largestType_largest (t : Ty) (ts : List Ty) :
    largestType t ts ∈ t :: ts ∧ ∀ u ∈ t :: ts, u.size ≤ (largestType t ts).size := by
  obtain ⟨h1, h2, h3⟩ := largestType_spec ts t
  refine ⟨h3, fun u hu => ?_⟩
  rcases List.mem_cons.mp hu with rfl | hu
  · exact h1
  · exact h2 u hu

theorem union_bytes (n : Nat) : union [bytes n] = bytes n := by
  simp [union, maxSize, maxAlign, bytes, roundUp_one]

theorem variantStorage_bytes (t : Ty) (ts : List Ty) :
    variantStorage false t ts = bytes (max (largestType t ts).size 1) := by
  have : union [bytes (largestType t ts).size, monostate] = bytes (max (largestType t ts).size 1) := by
    simp [union, maxSize, maxAlign, bytes, monostate, roundUp_one]
  simp only [variantStorage, variantUnion, Bool.false_eq_true, if_false]
  rw [union_bytes, this]; exact struct_bytes _

theorem union_pow2 {ts : List Ty} (hts : ∀ t ∈ ts, ∃ k, t.align = 2 ^ k) :
    ∃ k, (union ts).align = 2 ^ k := foldl_align_pow2 ts 1 pow2_one hts

/-- Every trivial alternative of a variant's storage has aligned room in it. -/
theorem variantStorage_trivial {t : Ty} {ts : List Ty} (hok : ∀ u ∈ t :: ts, u.Ok) {u : Ty}
    (hu : u ∈ t :: ts) :
    (∃ k, (variantStorage true t ts).align = 2 ^ k) ∧ Holds (variantStorage true t ts) 0 u := by
  have hp : ∀ v ∈ t :: ts ++ [bytes 0], ∃ k, v.align = 2 ^ k := by
    intro v hv
    rcases List.mem_append.mp hv with h | h
    · exact (hok v h).pow2
    · simp at h; subst h; exact pow2_one
  have h1 : Holds (variantUnion true t ts) 0 u :=
    union_member hp (List.mem_append.mpr (.inl hu))
  have hq : ∀ v ∈ [variantUnion true t ts, monostate], ∃ k, v.align = 2 ^ k := by
    intro v hv
    simp at hv
    rcases hv with rfl | rfl
    · exact union_pow2 hp
    · exact pow2_one
  have h2 := union_member hq (t := variantUnion true t ts) (by simp)
  have h3 : variantStorage true t ts = union [variantUnion true t ts, monostate] :=
    struct_one _ (roundUp_dvd _ _) (pow2_pos (union_pow2 hq))
  rw [h3]
  exact ⟨union_pow2 hq, by simpa using holds_trans h2 h1⟩

/-- What holds of the storage followed by one more member, `f`. -/
theorem sum_holds (trivial : Bool) {t f : Ty} {ts : List Ty} (hok : ∀ u ∈ t :: ts, u.Ok)
    (hf : f.Ok) {u : Ty} (hu : u ∈ t :: ts) :
    Holds (struct [variantStorage trivial t ts, f]) 0 u ↔ trivial = true ∨ u.align ∣ f.align := by
  have hp : ∃ k, (variantStorage trivial t ts).align = 2 ^ k := by
    cases trivial
    · rw [variantStorage_bytes]; exact pow2_one
    · exact (variantStorage_trivial hok hu).1
  obtain ⟨o, h1, h2⟩ := struct_member (ts := [variantStorage trivial t ts, f]) (i := 0)
    (by intro u hu; simp at hu; rcases hu with rfl | rfl; exact hp; exact hf.pow2) rfl
  rw [offsets_two _ _ (pow2_pos hp)] at h1
  simp at h1; subst h1
  cases trivial with
  | true =>
    refine ⟨fun _ => .inl rfl, fun _ => ?_⟩
    simpa using holds_trans h2 (variantStorage_trivial hok hu).2
  | false =>
    have hal : (struct [variantStorage false t ts, f]).align = f.align := by
      rw [struct_two _ _ (pow2_pos hp) hf.apos, variantStorage_bytes]
      exact Nat.max_eq_right hf.apos
    have hsz : u.size ≤ (struct [variantStorage false t ts, f]).size := by
      have h3 := (holds_iff.mp h2).1
      have h4 := (largestType_largest t ts).2 u hu
      rw [variantStorage_bytes] at h3 ⊢
      simp only [bytes] at h3 ⊢
      omega
    rw [holds_iff, hal]
    simp only [Nat.zero_add, Nat.dvd_zero, and_true, Bool.false_eq_true, false_or]
    exact ⟨fun h => h.2, fun h => ⟨hsz, h⟩⟩

/-- Every alternative of a `variant`, for all alternatives: aligned if all of them are trivial,
otherwise as far as `size_t`, the type of the index, is. -/
theorem variant_holds {P : Platform} (hP : P.Ok) (trivial : Bool) {t : Ty} {ts : List Ty}
    (hok : ∀ u ∈ t :: ts, u.Ok) {u : Ty} (hu : u ∈ t :: ts) :
    Holds (variant P trivial t ts) 0 u ↔ trivial = true ∨ u.align ∣ P.sizeT.align :=
  sum_holds trivial hok hP.sizeT hu

theorem monostate_ok : monostate.Ok := ⟨pow2_one, ⟨1, rfl⟩, by decide⟩
theorem bool_ok : bool.Ok := ⟨pow2_one, ⟨1, rfl⟩, by decide⟩

/-- The value of an `optional<T>`, for all `T`: aligned if `T` is trivial; otherwise only if `T`
may lie anywhere, the flag beside it being a byte. -/
theorem optional_holds (trivial : Bool) {t : Ty} (ht : t.Ok) :
    Holds (optional trivial t) 0 t ↔ trivial = true ∨ t.align = 1 := by
  have := sum_holds trivial (t := t) (f := bool) (ts := [monostate])
    (by intro u hu; simp at hu; rcases hu with rfl | rfl; exact ht; exact monostate_ok)
    bool_ok (u := t) (by simp)
  unfold optional
  rw [this]
  simp [bool]

/-- Value and error of an `expected<T, E>`, likewise. -/
theorem expected_holds (trivial : Bool) {t e : Ty} (ht : t.Ok) (he : e.Ok) {u : Ty}
    (hu : u = t ∨ u = e) : Holds (expected trivial t e) 0 u ↔ trivial = true ∨ u.align = 1 := by
  have := sum_holds trivial (t := t) (f := bool) (ts := [e])
    (by intro u hu; simp at hu; rcases hu with rfl | rfl; exact ht; exact he)
    bool_ok (u := u) (by simpa using hu)
  unfold expected
  rw [this]
  simp [bool]

/-- **Violation.**  An optional of any non-trivial type that needs an alignment greater than 1
does not keep its value aligned. -/
theorem optional_misaligned {t : Ty} (ht : t.Ok) (hal : 1 < t.align) :
    ¬ Holds (optional false t) 0 t := by
  rw [optional_holds false ht]; simp; omega

example : Holds (optional true ⟨8, 8⟩) 0 ⟨8, 8⟩ ∧ optional true ⟨8, 8⟩ = ⟨16, 8⟩ ∧
    optional false ⟨8, 8⟩ = ⟨9, 1⟩ :=
  ⟨(optional_holds true ⟨⟨3, rfl⟩, ⟨1, rfl⟩, by decide⟩).mpr (.inl rfl), by decide, by decide⟩

/-! ## Shared pointers, byte buffers, pools -/

theorem mem_ok {P : Platform} (hP : P.Ok) (weak : Bool) :
    ∀ t ∈ (P.ptr :: P.ptr :: P.u16 :: (if weak then [P.u16] else []) ++ [bool]),
      ∃ k, t.align = 2 ^ k := by
  intro t ht
  have : t = P.ptr ∨ t = P.u16 ∨ t = bool := by
    cases weak <;> simp at ht <;> grind
  rcases this with rfl | rfl | rfl
  · exact hP.ptr.pow2
  · exact hP.u16.pow2
  · exact bool_ok.pow2

theorem sharedControl_align {P : Platform} (hP : P.Ok) (weak : Bool) :
    (sharedControl P weak).align = max P.ptr.align P.u16.align := by
  have h1 := hP.ptr.apos
  have h2 := hP.u16.apos
  cases weak <;> simp only [sharedControl, struct, place, Bool.false_eq_true, if_true, if_false,
    List.nil_append, List.cons_append, bool] <;> omega

theorem layer1Shared_offset {P : Platform} (hP : P.Ok) (weak : Bool) (size : Nat) :
    struct (layer1SharedMembers P weak size) =
      ⟨roundUp ((sharedControl P weak).size + size) (sharedControl P weak).align,
        (sharedControl P weak).align⟩ ∧
    offsets (layer1SharedMembers P weak size) = [0, (sharedControl P weak).size] := by
  have hp : 0 < (sharedControl P weak).align := by
    rw [sharedControl_align hP]; have := hP.ptr.apos; omega
  have h1 : struct [sharedControl P weak] = sharedControl P weak :=
    struct_one _ (struct_mult _) hp
  have h2 : rawInstance size = bytes size := struct_bytes size
  unfold layer1SharedMembers
  rw [h1, h2, struct_two _ _ hp Nat.one_pos, offsets_two _ _ hp]
  simp only [bytes, roundUp_one]
  have : max (sharedControl P weak).align 1 = (sharedControl P weak).align := Nat.max_eq_left hp
  rw [this]; exact ⟨rfl, trivial⟩

/-- The object of a `layer1::shared_ptr<T>`, for all `T`: aligned as far as the control block
before it is. -/
theorem layer1Shared_holds {P : Platform} (hP : P.Ok) (weak : Bool) (t : Ty) {size : Nat}
    (hs : t.size ≤ size) :
    ∃ o, (offsets (layer1SharedMembers P weak size))[1]? = some o ∧
      (Holds (struct (layer1SharedMembers P weak size)) o t ↔
        t.align ∣ max P.ptr.align P.u16.align) := by
  obtain ⟨h1, h2⟩ := layer1Shared_offset hP weak size
  refine ⟨(sharedControl P weak).size, by rw [h2]; rfl, ?_⟩
  have hp : 0 < (sharedControl P weak).align := by
    rw [sharedControl_align hP]; have := hP.ptr.apos; omega
  rw [h1, holds_iff, ← sharedControl_align hP weak]
  constructor
  · exact fun h => h.2.1
  · intro h
    refine ⟨?_, h, Nat.dvd_trans h (struct_mult _)⟩
    have := roundUp_ge (n := (sharedControl P weak).size + size) hp
    simp only; omega

theorem bip_pow2 {P : Platform} (hP : P.Ok) : ∀ t ∈ bipMembers P, ∃ k, t.align = 2 ^ k := by
  intro t ht
  have : t = P.ulong ∨ t = P.int ∨ t = bytes 0 := by simp [bipMembers] at ht; grind
  rcases this with rfl | rfl | rfl
  · exact hP.ulong.pow2
  · exact hP.int.pow2
  · exact pow2_one

/-- The bytes of a `layer1::bipbuf<N>` are enough for the header and `N` bytes of data behind
its last member. -/
theorem layer1Bip_fits {P : Platform} (hP : P.Ok) (n : Nat) :
    ∃ d, (offsets (bipMembers P))[5]? = some d ∧
      (struct (bipMembers P)).size ≤ (layer1Bip P n).size ∧ d + n ≤ (layer1Bip P n).size := by
  obtain ⟨d, h1, h2⟩ := struct_member (bip_pow2 hP) (i := 5) (t := bytes 0) rfl
  have h3 := (holds_iff.mp h2).1
  refine ⟨d, h1, ?_, ?_⟩ <;> (unfold layer1Bip; rw [struct_bytes]; simp only [bytes] at *; omega)

/-- The header at the start of a `layer1::bipbuf<N>` is aligned only where `unsigned long` and
`int` may lie anywhere. -/
theorem layer1Bip_holds {P : Platform} (hP : P.Ok) (n : Nat) :
    Holds (layer1Bip P n) 0 (struct (bipMembers P)) ↔ P.ulong.align = 1 ∧ P.int.align = 1 := by
  have hal : (struct (bipMembers P)).align = max P.ulong.align P.int.align := by
    have h1 := hP.ulong.apos
    have h2 := hP.int.apos
    simp only [struct, place, bipMembers, bytes]; omega
  have h1 := hP.ulong.apos
  have h2 := hP.int.apos
  unfold layer1Bip
  rw [struct_bytes, holds_iff, hal]
  simp only [bytes, Nat.dvd_one, Nat.dvd_zero, and_true, Nat.zero_add]
  constructor
  · rintro ⟨_, h⟩; omega
  · rintro ⟨h3, h4⟩; exact ⟨by omega, by omega⟩

theorem poolCore_eq {P : Platform} (hP : P.Ok) : poolCore P = P.ptr := by
  have h1 := hP.ptr.apos
  have h2 := hP.ptr.pos
  have ha : max (max 1 P.ptr.align) 1 = P.ptr.align := by omega
  have hs : max (max 0 P.ptr.size) 1 = P.ptr.size := by omega
  simp only [poolCore, union, maxAlign, maxSize, bytes, List.foldl, ha, hs,
    roundUp_of_dvd h1 hP.ptr.mult]

theorem poolControl_eq {P : Platform} (hP : P.Ok) (bs : Nat) :
    poolControl P bs = ⟨roundUp (max P.ptr.size bs) P.ptr.align, P.ptr.align⟩ := by
  have h1 := hP.ptr.apos
  have ha : max (max 1 P.ptr.align) 1 = P.ptr.align := by omega
  have hs : max (max 0 P.ptr.size) bs = max P.ptr.size bs := by omega
  unfold poolControl
  rw [poolCore_eq hP]
  simp only [union, maxAlign, maxSize, bytes, List.foldl, ha, hs]

/-- Block `i` of a fixed pool holds, when free, the link of the free list, aligned. -/
theorem pool_link_holds {P : Platform} (hP : P.Ok) (bs : Nat) {blocks i : Nat} (hi : i < blocks) :
    ∃ o, (offsets (poolMembers P bs blocks))[1]? = some o ∧
      Holds (struct (poolMembers P bs blocks)) (o + i * (poolControl P bs).size) P.ptr := by
  have hc : ∃ k, (poolControl P bs).align = 2 ^ k := by rw [poolControl_eq hP]; exact hP.ptr.pow2
  obtain ⟨o, h1, h2⟩ := struct_member (ts := poolMembers P bs blocks) (i := 1)
    (t := arr blocks (poolControl P bs))
    (by intro t ht; simp [poolMembers] at ht; rcases ht with rfl | rfl; exact hP.ptr.pow2; exact hc)
    rfl
  refine ⟨o, h1, ?_⟩
  have h3 := arr_member (t := poolControl P bs) (roundUp_dvd _ _) hi
  have h4 : Holds (poolControl P bs) 0 P.ptr := by
    rw [poolControl_eq hP, holds_iff]
    refine ⟨?_, Nat.dvd_refl _, Nat.dvd_zero _⟩
    have := roundUp_ge (n := max P.ptr.size bs) hP.ptr.apos
    simp only; omega
  simpa using holds_trans (holds_trans h2 h3) h4

/-- Every block of a `typed_pool<T, blocks>`, for all `T`: large enough, and aligned as far as
a pointer is. -/
theorem typedPool_holds {P : Platform} (hP : P.Ok) (t : Ty) {blocks : Nat} (hb : 0 < blocks) :
    ∃ o, (offsets (poolMembers P t.size blocks))[1]? = some o ∧
      ((∀ i, i < blocks → Holds (struct (poolMembers P t.size blocks))
          (o + i * (poolControl P t.size).size) t) ↔ t.align ∣ P.ptr.align) := by
  have hc : ∃ k, (poolControl P t.size).align = 2 ^ k := by
    rw [poolControl_eq hP]; exact hP.ptr.pow2
  obtain ⟨o, h1, h2⟩ := struct_member (ts := poolMembers P t.size blocks) (i := 1)
    (t := arr blocks (poolControl P t.size))
    (by intro t ht; simp [poolMembers] at ht; rcases ht with rfl | rfl; exact hP.ptr.pow2; exact hc)
    rfl
  refine ⟨o, h1, ?_⟩
  have hal : (struct (poolMembers P t.size blocks)).align = P.ptr.align := by
    unfold poolMembers
    rw [struct_two _ _ hP.ptr.apos (by exact pow2_pos hc), poolControl_eq hP]
    simp only [arr]; omega
  constructor
  · intro h
    have := (holds_iff.mp (h 0 hb)).2.1
    rwa [hal] at this
  · intro h i hi
    have h3 := arr_member (t := poolControl P t.size) (roundUp_dvd _ _) hi
    have h4 : Holds (poolControl P t.size) 0 t := by
      rw [poolControl_eq hP, holds_iff]
      refine ⟨?_, h, Nat.dvd_zero _⟩
      have := roundUp_ge (n := max P.ptr.size t.size) hP.ptr.apos
      simp only; omega
    simpa using holds_trans (holds_trans h2 h3) h4

/-- The item of a `memory_pool`: aligned as far as the handle behind it is. -/
theorem poolItem_holds {handle t : Ty} (hh : handle.Ok) :
    Holds (poolItem handle t) 0 t ↔ t.align ∣ handle.align := by
  have h1 : rawInstance t.size = bytes t.size := struct_bytes _
  have h2 : poolItem handle t = ⟨roundUp (roundUp t.size handle.align + handle.size) handle.align,
      handle.align⟩ := by
    unfold poolItem
    rw [h1, struct_two _ _ Nat.one_pos hh.apos]
    have : max (bytes t.size).align handle.align = handle.align := Nat.max_eq_right hh.apos
    rw [this]; rfl
  rw [h2, holds_iff]
  simp only [Nat.dvd_zero, and_true, Nat.zero_add]
  have h3 := roundUp_ge (n := t.size) hh.apos
  have h4 := roundUp_ge (n := roundUp t.size handle.align + handle.size) hh.apos
  exact ⟨fun h => h.2, fun h => ⟨by omega, h⟩⟩

/-! ## Unordered maps -/

theorem align_pick (k m : Ty) :
    (if m.align > k.align then m.align else k.align) = max k.align m.align := by
  split <;> omega

theorem u16_align {P : Platform} (hP : P.Ok) : P.u16.align = 1 ∨ P.u16.align = 2 := by
  have h1 := Nat.le_of_dvd hP.u16.pos hP.u16.mult
  rw [hP.u16_size] at h1
  have := hP.u16.apos
  omega

theorem metaUnion_eq {P : Platform} (hP : P.Ok) (m : Ty) :
    union [bytes m.size, struct [P.u16], P.u16] =
      ⟨roundUp (max m.size 2) P.u16.align, P.u16.align⟩ := by
  have h1 := hP.u16.apos
  have ha : max (max (max 1 1) P.u16.align) P.u16.align = P.u16.align := by omega
  have hs : max (max (max 0 m.size) P.u16.size) P.u16.size = max m.size 2 := by
    rw [hP.u16_size]; omega
  rw [struct_one _ hP.u16.mult h1]
  simp only [union, maxAlign, maxSize, bytes, List.foldl, ha, hs]

theorem meta_eq {P : Platform} (hP : P.Ok) (k m : Ty) :
    metaTy P k m = ⟨roundUp (roundUp (max m.size 2) P.u16.align)
        (max (max k.align m.align) P.u16.align), max (max k.align m.align) P.u16.align⟩ := by
  unfold metaTy
  rw [align_pick, metaUnion_eq hP]; rfl

/-- In its control entry the mapped value has aligned room, whatever its type. -/
theorem meta_holds {P : Platform} (hP : P.Ok) {k m : Ty} (hk : k.Ok) (hm : m.Ok) :
    ∃ o, (offsets (controlMembers P k m))[1]? = some o ∧
      Holds (struct (controlMembers P k m)) o m := by
  have hp : ∃ j, (metaTy P k m).align = 2 ^ j := by
    rw [meta_eq hP]; exact pow2_max (pow2_max hk.pow2 hm.pow2) hP.u16.pow2
  obtain ⟨o, h1, h2⟩ := struct_member (ts := controlMembers P k m) (i := 1) (t := metaTy P k m)
    (by intro t ht; simp [controlMembers] at ht; rcases ht with rfl | rfl; exact hk.pow2; exact hp)
    rfl
  refine ⟨o, h1, ?_⟩
  have h3 : Holds (metaTy P k m) 0 m := by
    rw [holds_iff]
    refine ⟨?_, pow2_dvd hm.pow2 hp (by rw [meta_eq hP]; simp only; omega), Nat.dvd_zero _⟩
    have h4 := roundUp_ge (n := max m.size 2) hP.u16.apos
    have h5 := roundUp_ge (n := roundUp (max m.size 2) P.u16.align) (pow2_pos hp)
    rw [meta_eq hP] at h5 ⊢
    simp only at h5 ⊢; omega
  simpa using holds_trans h2 h3

theorem offset_value {k m : Ty} (hk : k.Ok) (hm : m.Ok) :
    roundUp k.size (max k.align m.align) = roundUp k.size m.align := by
  rcases Nat.le_total k.align m.align with h | h
  · rw [Nat.max_eq_right h]
  · rw [Nat.max_eq_left h, roundUp_of_dvd hk.apos hk.mult,
      roundUp_of_dvd hm.apos (Nat.dvd_trans (pow2_dvd hm.pow2 hk.pow2 h) hk.mult)]

theorem roundUp_two (n : Nat) : roundUp n 2 = n + n % 2 := by
  unfold roundUp; omega

/-- The iterators of an `unordered_map` look at a control entry as at a
`pair<const key, mapped>`.  For all key and mapped types: the two agree on where the mapped
value is, except when neither type needs an alignment, the 16-bit word beside them does, and
the size of the key is odd. -/
theorem map_second_offset {P : Platform} (hP : P.Ok) {k m : Ty} (hk : k.Ok) (hm : m.Ok) :
    (offsets (controlMembers P k m))[1]? = (offsets (valueMembers k m))[1]? ↔
      ¬ (k.align = 1 ∧ m.align = 1 ∧ P.u16.align = 2 ∧ k.size % 2 = 1) := by
  unfold controlMembers valueMembers
  rw [offsets_two _ _ hk.apos, offsets_two _ _ hk.apos]
  simp only [List.getElem?_cons_succ, List.getElem?_cons_zero, Option.some.injEq]
  rw [meta_eq hP]
  simp only
  have hk1 := hk.apos
  have hm1 := hm.apos
  by_cases h : k.align = 1 ∧ m.align = 1
  · rw [h.1, h.2, roundUp_one]
    rcases u16_align hP with hu | hu <;> rw [hu]
    · simp [roundUp_one]
    · have : max (max 1 1) 2 = 2 := rfl
      rw [this, roundUp_two]; omega
  · have hA : 2 ≤ max k.align m.align := by omega
    have : max (max k.align m.align) P.u16.align = max k.align m.align := by
      rcases u16_align hP with hu | hu <;> omega
    rw [this, offset_value hk hm]
    simp only [true_iff]
    grind

theorem roundUp_add {n a c : Nat} (h : 0 < a) (hd : a ∣ c) : roundUp (c + n) a = c + roundUp n a := by
  obtain ⟨q, rfl⟩ := hd
  unfold roundUp
  have : a * q + n + a - 1 = n + a - 1 + a * q := by omega
  rw [this, Nat.add_mul_div_left _ _ h, Nat.add_mul, Nat.mul_comm q a]; omega

/-- Advancing such an iterator goes from one control entry to the next, except when neither
type needs an alignment and either the 16-bit word does and one of the sizes is odd, or it does
not and the mapped value is a single byte. -/
theorem map_iterator_step {P : Platform} (hP : P.Ok) {k m : Ty} (hk : k.Ok) (hm : m.Ok) :
    (struct (valueMembers k m)).size = (struct (controlMembers P k m)).size ↔
      ¬ (k.align = 1 ∧ m.align = 1 ∧
        ((P.u16.align = 2 ∧ (k.size % 2 = 1 ∨ m.size % 2 = 1)) ∨
          (P.u16.align = 1 ∧ m.size = 1))) := by
  have hk1 := hk.apos
  have hm1 := hm.apos
  have hmp := hm.pos
  have hu1 := hP.u16.apos
  unfold controlMembers valueMembers
  rw [struct_two _ _ hk1 hm1, struct_two _ _ hk1 (by rw [meta_eq hP]; simp only; omega), meta_eq hP]
  simp only
  by_cases h : k.align = 1 ∧ m.align = 1
  · rw [h.1, h.2]
    simp only [roundUp_one, Nat.max_self]
    rcases u16_align hP with hu | hu <;> rw [hu]
    · rcases Nat.lt_or_ge m.size 2 with h2 | h2
      · have h3 : m.size = 1 := by omega
        simp [roundUp_one, h3]
      · have h3 : max m.size 2 = m.size := by omega
        have h4 : m.size ≠ 1 := by omega
        simp [roundUp_one, h3, h4]
    · have e1 : max 1 2 = 2 := rfl
      rcases Nat.lt_or_ge m.size 2 with h2 | h2
      · have h3 : m.size = 1 := by omega
        simp only [e1, roundUp_two, h3]
        simp
        omega
      · have h3 : max m.size 2 = m.size := by omega
        simp only [e1, roundUp_two, h3]
        simp
        omega
  · have hA : 2 ≤ max k.align m.align := by omega
    have e : max (max k.align m.align) P.u16.align = max k.align m.align := by
      rcases u16_align hP with hu | hu <;> omega
    have e2 : max k.align (max k.align m.align) = max k.align m.align := by omega
    have hpow := pow2_max hk.pow2 hm.pow2
    rw [e, e2, offset_value hk hm]
    have hd : max k.align m.align ∣ roundUp k.size m.align := by
      rw [← offset_value hk hm]; exact roundUp_dvd _ _
    rw [roundUp_add (pow2_pos hpow) hd, roundUp_add (pow2_pos hpow) hd]
    have h3 : roundUp m.size (max k.align m.align) =
        roundUp (roundUp (roundUp (max m.size 2) P.u16.align) (max k.align m.align))
          (max k.align m.align) := by
      rw [roundUp_of_dvd (n := roundUp _ _) (pow2_pos hpow) (roundUp_dvd _ _)]
      apply Nat.le_antisymm
      · apply roundUp_least (pow2_pos hpow) (roundUp_dvd _ _)
        have h4 := roundUp_ge (n := max m.size 2) hu1
        have h5 := roundUp_ge (n := roundUp (max m.size 2) P.u16.align) (pow2_pos hpow)
        omega
      · apply roundUp_least (pow2_pos hpow) (roundUp_dvd _ _)
        have hge := roundUp_ge (n := m.size) (pow2_pos hpow)
        have hpos : 0 < roundUp m.size (max k.align m.align) := by omega
        have h2 := Nat.le_of_dvd hpos (roundUp_dvd m.size (max k.align m.align))
        have hu2 : P.u16.align ∣ roundUp m.size (max k.align m.align) :=
          Nat.dvd_trans (pow2_dvd hP.u16.pow2 hpow (by rcases u16_align hP with hu | hu <;> omega))
            (roundUp_dvd _ _)
        exact roundUp_least hu1 hu2 (by omega)
    rw [h3]
    simp only [true_iff]
    grind

def sample : Platform := ⟨⟨8, 8⟩, ⟨8, 8⟩, ⟨2, 2⟩, ⟨8, 8⟩, ⟨4, 4⟩⟩

theorem sample_ok : sample.Ok :=
  ⟨⟨⟨3, rfl⟩, ⟨1, rfl⟩, by decide⟩, ⟨⟨3, rfl⟩, ⟨1, rfl⟩, by decide⟩, ⟨⟨1, rfl⟩, ⟨1, rfl⟩, by decide⟩,
    rfl, ⟨⟨3, rfl⟩, ⟨1, rfl⟩, by decide⟩, ⟨⟨2, rfl⟩, ⟨1, rfl⟩, by decide⟩⟩

/-- **Violation.**  A map from single bytes (or any key of odd size without alignment) to values
without alignment: the iterators show as the mapped value bytes that are not the mapped value's,
the first of them being padding. -/
theorem map_second_misread {P : Platform} (hP : P.Ok) {k m : Ty} (hk : k.Ok) (hm : m.Ok)
    (hka : k.align = 1) (hma : m.align = 1) (hu : P.u16.align = 2) (hodd : k.size % 2 = 1) :
    offsets (valueMembers k m) = [0, k.size] ∧ offsets (controlMembers P k m) = [0, k.size + 1] := by
  unfold controlMembers valueMembers
  rw [offsets_two _ _ hk.apos, offsets_two _ _ hk.apos, meta_eq hP, hka, hma, hu]
  have e1 : max (max 1 1) 2 = 2 := rfl
  simp only [e1, roundUp_two, roundUp_one, hodd]
  exact ⟨trivial, trivial⟩

example : offsets (controlMembers sample ⟨1, 1⟩ ⟨1, 1⟩) = [0, 2] ∧
    offsets (valueMembers ⟨1, 1⟩ ⟨1, 1⟩) = [0, 1] ∧
    offsets (controlMembers sample ⟨2, 2⟩ ⟨8, 8⟩) = offsets (valueMembers ⟨2, 2⟩ ⟨8, 8⟩) := by decide

/-- The entries of a `layer1::unordered_map` (keys of class type or not) lie inside it one
behind the other, and are aligned only where the entry type may lie anywhere. -/
theorem layer1Map_holds {P : Platform} (hP : P.Ok) {k m : Ty} (hk : k.Ok) (hm : m.Ok) {n : Nat}
    (hn : 0 < n) :
    (∀ i, i < n → Holds (layer1Map P k m n) (i * (struct (controlMembers P k m)).size)
      (struct (controlMembers P k m))) ↔ k.align = 1 ∧ m.align = 1 ∧ P.u16.align = 1 := by
  have h1 : layer1Map P k m n = uninitializedArray (struct (controlMembers P k m)) n := by
    unfold layer1Map; rw [uninitializedArray_eq]; exact struct_bytes _
  rw [h1, uninitializedArray_holds _ hn]
  have hk1 := hk.apos
  have hm1 := hm.apos
  have hu1 := hP.u16.apos
  unfold controlMembers
  rw [struct_two _ _ hk1 (by rw [meta_eq hP]; simp only; omega), meta_eq hP]
  simp only
  omega

/-! ## List nodes with the value behind them -/

/-- The value a list node is emplaced with lies behind the node, inside what was allocated,
whatever its size; it is aligned as far as the node is. -/
theorem emplaced_holds {node t : Ty} (hn : node.Ok) :
    Holds (arr (emplacedNodes node t) node) node.size t ↔ t.align ∣ node.align := by
  rw [holds_iff]
  simp only [arr]
  constructor
  · exact fun h => h.2.1
  · intro h
    refine ⟨?_, h, Nat.dvd_trans h hn.mult⟩
    have h1 := Nat.div_add_mod t.size node.size
    have h2 := Nat.mod_lt t.size hn.pos
    unfold emplacedNodes
    rw [Nat.add_mul, Nat.add_mul, Nat.one_mul, Nat.mul_comm (t.size / node.size)]
    omega

example : Holds (arr (emplacedNodes ⟨16, 8⟩ ⟨40, 4⟩) ⟨16, 8⟩) 16 ⟨40, 4⟩ :=
  (emplaced_holds ⟨⟨3, rfl⟩, ⟨2, rfl⟩, by decide⟩).mpr ⟨2, rfl⟩

/-! ## On a usual 64-bit platform -/

/-- **Violation.**  Where 16-bit words need an even address, no `layer1::unordered_map` keeps its
entries aligned. -/
theorem layer1Map_misaligned {P : Platform} (hP : P.Ok) (hu : P.u16.align = 2) {k m : Ty}
    (hk : k.Ok) (hm : m.Ok) {n : Nat} (hn : 0 < n) :
    ¬ ∀ i, i < n → Holds (layer1Map P k m n) (i * (struct (controlMembers P k m)).size)
      (struct (controlMembers P k m)) := by
  rw [layer1Map_holds hP hk hm hn]; omega

/-- **Violation.**  Where `int` needs an alignment, no `layer1::bipbuf` keeps its header
aligned. -/
theorem layer1Bip_misaligned {P : Platform} (hP : P.Ok) (hi : 1 < P.int.align) (n : Nat) :
    ¬ Holds (layer1Bip P n) 0 (struct (bipMembers P)) := by
  rw [layer1Bip_holds hP]; omega

example : ¬ Holds (layer1Bip sample 128) 0 (struct (bipMembers sample)) :=
  layer1Bip_misaligned sample_ok (by decide) 128

/-- A non-trivial alternative that is aligned like a pointer, and one that needs more. -/
example : Holds (variant sample false ⟨24, 8⟩ [⟨4, 4⟩]) 0 ⟨24, 8⟩ ∧
    ¬ Holds (variant sample false ⟨32, 16⟩ [⟨4, 4⟩]) 0 ⟨32, 16⟩ := by
  have h4 : (⟨4, 4⟩ : Ty).Ok := ⟨⟨2, rfl⟩, ⟨1, rfl⟩, by decide⟩
  have h24 : (⟨24, 8⟩ : Ty).Ok := ⟨⟨3, rfl⟩, ⟨3, rfl⟩, by decide⟩
  have h32 : (⟨32, 16⟩ : Ty).Ok := ⟨⟨4, rfl⟩, ⟨2, rfl⟩, by decide⟩
  constructor
  · exact (variant_holds sample_ok false (by simp [h4, h24]) (by simp)).mpr (.inr ⟨1, rfl⟩)
  · rw [variant_holds sample_ok false (by simp [h4, h32]) (by simp)]
    decide

example : ∃ o, (offsets (layer1SharedMembers sample true 24))[1]? = some o ∧
    Holds (struct (layer1SharedMembers sample true 24)) o ⟨24, 8⟩ := by
  obtain ⟨o, h1, h2⟩ := layer1Shared_holds sample_ok true ⟨24, 8⟩ (Nat.le_refl 24)
  exact ⟨o, h1, h2.mpr ⟨1, rfl⟩⟩

example : ∃ o, (offsets (poolMembers sample 3 10))[1]? = some o ∧
    Holds (struct (poolMembers sample 3 10)) (o + 9 * (poolControl sample 3).size) ⟨3, 1⟩ := by
  obtain ⟨o, h1, h2⟩ := typedPool_holds sample_ok ⟨3, 1⟩ (blocks := 10) (by decide)
  exact ⟨o, h1, h2.mpr ⟨8, rfl⟩ 9 (by decide)⟩

example : ¬ Holds (poolItem ⟨1, 1⟩ ⟨8, 8⟩) 0 ⟨8, 8⟩ := by
  rw [poolItem_holds ⟨⟨0, rfl⟩, ⟨1, rfl⟩, by decide⟩]; decide

end Verif.Layout
