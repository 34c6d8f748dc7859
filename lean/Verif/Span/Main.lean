/-!
# Spans over shared memory (C113)

Modelled from `src/estd/span.h:28-249`: any number of spans, of fixed and dynamic extent, and byte views over the same
memory.  An object is its `w` bytes (`sizeof(T)`).  A span of fixed extent differs only in that its size is a constant
(span.h:69-82); the size of such a span is recorded here like that of a dynamic one.

`first<count>()` (span.h:43-47) needs two user conversions from a pointer and does not compile; it is not modelled.
C15 has the slices of one span; here several spans, their bytes and assignments interact.
-/
namespace Verif.Span

abbrev Byte := BitVec 8

/-- `data_` and `size_` (or the extent), span.h:38, 94 -/
structure Span where
  addr : Nat
  len : Nat
  deriving DecidableEq, Repr

/-- the `w` bytes at an address; `none` where there is no memory.  (Reading an object, span.h:58-66.) -/
def load (mem : List Byte) (a w : Nat) : Option (List Byte) :=
  if a + w ≤ mem.length then some ((mem.drop a).take w) else none

/-- assigning an object, through the reference of span.h:63-66 -/
def store (mem : List Byte) (a : Nat) (v : List Byte) : Option (List Byte) :=
  if a + v.length ≤ mem.length then some (mem.take a ++ v ++ mem.drop (a + v.length)) else none

/-- `s[idx]`, span.h:58-66: not checked against the size -/
def Span.get (mem : List Byte) (w : Nat) (s : Span) (i : Nat) : Option (List Byte) := load mem (s.addr + i * w) w

/-- `s[idx] = v`, span.h:63-66 -/
def Span.set (mem : List Byte) (w : Nat) (s : Span) (i : Nat) (v : List Byte) : Option (List Byte) :=
  store mem (s.addr + i * w) v

/-- `size_bytes()`, span.h:136-137, in `size_t` (below `W`) -/
def Span.sizeBytes (W w : Nat) (s : Span) : Nat := s.len * w % W

/-- `as_bytes(s)`, `as_writable_bytes(s)`, span.h:219-249: a span of bytes -/
def Span.asBytes (W w : Nat) (s : Span) : Span := ⟨s.addr, s.sizeBytes W w⟩

/-- `s.subspan(offset, count)`, span.h:201-208; `dynamic_extent` is the largest `size_t` -/
def Span.subspan (W w : Nat) (s : Span) (off count : Nat) : Span :=
  ⟨s.addr + off * w, if count = W - 1 then s.len else count⟩

/-- `s.first(count)`, span.h:49-52 -/
def Span.first (s : Span) (count : Nat) : Span := ⟨s.addr, count⟩

/-- `span(first, last)`, span.h:161-163, for two pointers to elements of size `w` -/
def Span.ofPointers (w first last : Nat) : Span := ⟨first, (last - first) / w⟩

/-- `for (p = s.begin(); p != s.end(); ++p)`, span.h:55, 144: from `p` on, `k` elements before `end()` -/
def eachFrom (mem : List Byte) (w : Nat) : Nat → Nat → Option (List (List Byte))
  | _, 0 => some []
  | p, k + 1 => (load mem p w).bind fun v => (eachFrom mem w (p + w) k).map (v :: ·)

/-- the whole loop, span.h:55, 144 -/
def Span.each (mem : List Byte) (w : Nat) (s : Span) : Option (List (List Byte)) := eachFrom mem w s.addr s.len

/-- what a program does with its spans, which are numbered; the last four make or change spans -/
inductive Op where
  | get (x i : Nat)
  | set (x i : Nat) (v : List Byte)
  | getByte (x j : Nat)
  | setByte (x j : Nat) (b : Byte)
  | each (x : Nat)
  | size (x : Nat)
  | sizeBytes (x : Nat)
  | empty (x : Nat)
  | sub (x off count : Nat)
  | first (x count : Nat)
  | copy (x : Nat)
  | range (x i j : Nat)
  | assign (x y : Nat)
  deriving DecidableEq, Repr

inductive Out where
  | unit
  | val (v : List Byte)
  | vals (vs : List (List Byte))
  | num (n : Nat)
  | bool (b : Bool)
  deriving DecidableEq, Repr

structure State where
  mem : List Byte
  spans : List Span
  deriving DecidableEq, Repr

/-- a new span, span.h:161-194 -/
def State.push (st : State) (s : Span) : State := { st with spans := st.spans ++ [s] }

/-- one operation: `operator[]` span.h:58-66, byte views 219-249, `begin`/`end` 55, 144, `size` 79, 96, `size_bytes`
136-137, `empty` 139-142, `subspan` 201-208, `first` 49-52, copies 102-104, 190-194 (also a fixed extent to a dynamic
one, 174-177), two pointers 161-163, assignment 196-199 (which reseats the span) -/
def State.step (W w : Nat) (st : State) : Op → Option (State × Out)
  | .get x i => st.spans[x]?.bind fun s => (s.get st.mem w i).map fun v => (st, .val v)
  | .set x i v => st.spans[x]?.bind fun s => (s.set st.mem w i v).map fun m => ({ st with mem := m }, .unit)
  | .getByte x j => st.spans[x]?.bind fun s => ((s.asBytes W w).get st.mem 1 j).map fun v => (st, .val v)
  | .setByte x j b => st.spans[x]?.bind fun s =>
      ((s.asBytes W w).set st.mem 1 j [b]).map fun m => ({ st with mem := m }, .unit)
  | .each x => st.spans[x]?.bind fun s => (s.each st.mem w).map fun vs => (st, .vals vs)
  | .size x => st.spans[x]?.map fun s => (st, .num s.len)
  | .sizeBytes x => st.spans[x]?.map fun s => (st, .num (s.sizeBytes W w))
  | .empty x => st.spans[x]?.map fun s => (st, .bool (s.len == 0))
  | .sub x off count => st.spans[x]?.map fun s => (st.push (s.subspan W w off count), .unit)
  | .first x count => st.spans[x]?.map fun s => (st.push (s.first count), .unit)
  | .copy x => st.spans[x]?.map fun s => (st.push s, .unit)
  | .range x i j => st.spans[x]?.map fun s => (st.push (.ofPointers w (s.addr + i * w) (s.addr + j * w)), .unit)
  | .assign x y => st.spans[y]?.bind fun s =>
      if x < st.spans.length then some ({ st with spans := st.spans.set x s }, .unit) else none

/-- a history, and what it shows -/
def State.run (W w : Nat) : State → List Op → Option (State × List Out)
  | st, [] => some (st, [])
  | st, o :: os => (st.step W w o).bind fun (st', r) => (st'.run W w os).map fun (st'', rs) => (st'', r :: rs)

/-! ## Specification: one array of objects, and spans as windows (first element, number of elements) on it -/

structure Spec.State where
  arr : List (List Byte)
  wins : List (Nat × Nat)
  deriving DecidableEq, Repr

/-- what each operation means; `none` is a request the caller must not make (an index or a slice outside the span) -/
def Spec.step (w : Nat) (st : Spec.State) : Op → Option (Spec.State × Out)
  | .get x i => st.wins[x]?.bind fun (lo, n) => if i < n then st.arr[lo + i]?.map fun v => (st, .val v) else none
  | .set x i v => st.wins[x]?.bind fun (lo, n) =>
      if i < n ∧ v.length = w then some ({ st with arr := st.arr.set (lo + i) v }, .unit) else none
  | .getByte x j => st.wins[x]?.bind fun (lo, n) =>
      if j / w < n then st.arr[lo + j / w]?.bind fun v => v[j % w]?.map fun b => (st, .val [b]) else none
  | .setByte x j b => st.wins[x]?.bind fun (lo, n) =>
      if j / w < n then st.arr[lo + j / w]?.map fun v =>
        ({ st with arr := st.arr.set (lo + j / w) (v.set (j % w) b) }, .unit) else none
  | .each x => st.wins[x]?.map fun (lo, n) => (st, .vals ((st.arr.drop lo).take n))
  | .size x => st.wins[x]?.map fun (_, n) => (st, .num n)
  | .sizeBytes x => st.wins[x]?.map fun (_, n) => (st, .num (n * w))
  | .empty x => st.wins[x]?.map fun (_, n) => (st, .bool (n == 0))
  | .sub x off count => st.wins[x]?.bind fun (lo, n) =>
      if off + count ≤ n then some ({ st with wins := st.wins ++ [(lo + off, count)] }, .unit) else none
  | .first x count => st.wins[x]?.bind fun (lo, n) =>
      if count ≤ n then some ({ st with wins := st.wins ++ [(lo, count)] }, .unit) else none
  | .copy x => st.wins[x]?.map fun win => ({ st with wins := st.wins ++ [win] }, .unit)
  | .range x i j => st.wins[x]?.bind fun (lo, n) =>
      if i ≤ j ∧ j ≤ n then some ({ st with wins := st.wins ++ [(lo + i, j - i)] }, .unit) else none
  | .assign x y => st.wins[y]?.bind fun win =>
      if x < st.wins.length then some ({ st with wins := st.wins.set x win }, .unit) else none

def Spec.run (w : Nat) : Spec.State → List Op → Option (Spec.State × List Out)
  | st, [] => some (st, [])
  | st, o :: os => (Spec.step w st o).bind fun (st', r) => (Spec.run w st' os).map fun (st'', rs) => (st'', r :: rs)

/-- the memory holds the array between `pre` and `post`, and every span is its window.  All of it can be addressed with
numbers below `W - 1`. -/
structure Spec.Shows (W w : Nat) (pre post : List Byte) (st : Verif.Span.State) (sp : Spec.State) : Prop where
  mem : st.mem = pre ++ sp.arr.flatten ++ post
  elem : ∀ e ∈ sp.arr, e.length = w
  spans : st.spans = sp.wins.map fun win => ⟨pre.length + win.1 * w, win.2⟩
  inside : ∀ win ∈ sp.wins, win.1 + win.2 ≤ sp.arr.length
  small : st.mem.length + 1 < W

/-! ## Proofs -/

theorem load_mid (P e Q : List Byte) {a w : Nat} (ha : a = P.length) (hw : w = e.length) :
    load (P ++ e ++ Q) a w = some e := by
  subst ha hw
  simp [load, List.append_assoc]

theorem store_mid (P e e' Q : List Byte) {a : Nat} (ha : a = P.length) (hw : e'.length = e.length) :
    store (P ++ e ++ Q) a e' = some (P ++ e' ++ Q) := by
  subst ha
  have : (P ++ (e ++ Q)).drop (P.length + e.length) = Q := by
    rw [← List.append_assoc, ← List.length_append, List.drop_left]
  simp [store, List.append_assoc, hw, this]

theorem flatten_len {w : Nat} : ∀ {l : List (List Byte)}, (∀ e ∈ l, e.length = w) → l.flatten.length = l.length * w
  | [], _ => by simp
  | e :: l, h => by
    have h1 := h e (by simp)
    have h2 := flatten_len (l := l) (fun e he => h e (by simp [he]))
    rw [List.flatten_cons, List.length_append, h1, h2, List.length_cons, Nat.succ_mul, Nat.add_comm]

/-- one element in its place -/
theorem place {w : Nat} {arr : List (List Byte)} (pre post : List Byte) (h : ∀ e ∈ arr, e.length = w) {i : Nat}
    {e : List Byte} (hi : arr[i]? = some e) :
    ∃ P Q, P.length = pre.length + i * w ∧ pre ++ arr.flatten ++ post = P ++ e ++ Q ∧
      ∀ e', pre ++ (arr.set i e').flatten ++ post = P ++ e' ++ Q := by
  obtain ⟨hlt, he⟩ := List.getElem?_eq_some_iff.mp hi
  have hset : ∀ e', arr.set i e' = arr.take i ++ e' :: arr.drop (i + 1) := fun e' => by
    rw [List.set_eq_take_append_cons_drop, if_pos hlt]
  have hself : arr = arr.take i ++ e :: arr.drop (i + 1) := by
    have := hset e
    rw [← he, List.set_getElem_self, he] at this
    exact this
  have hl : (arr.take i).flatten.length = i * w := by
    rw [flatten_len (fun e he => h e (List.mem_of_mem_take he)), List.length_take, Nat.min_eq_left (by omega)]
  refine ⟨pre ++ (arr.take i).flatten, (arr.drop (i + 1)).flatten ++ post, by simp [hl], ?_, fun e' => ?_⟩
  · rw [show arr.flatten = (arr.take i ++ e :: arr.drop (i + 1)).flatten from congrArg _ hself]
    simp [List.append_assoc]
  · rw [hset]; simp [List.append_assoc]

/-- one byte of an element in its place -/
theorem placeByte {e : List Byte} {r : Nat} {b : Byte} (hr : e[r]? = some b) :
    e = e.take r ++ [b] ++ e.drop (r + 1) ∧ (e.take r).length = r ∧
      ∀ b', e.set r b' = e.take r ++ [b'] ++ e.drop (r + 1) := by
  obtain ⟨hlt, he⟩ := List.getElem?_eq_some_iff.mp hr
  have hset : ∀ b', e.set r b' = e.take r ++ [b'] ++ e.drop (r + 1) := fun b' => by
    rw [List.set_eq_take_append_cons_drop, if_pos hlt]; simp
  refine ⟨?_, by rw [List.length_take]; omega, hset⟩
  have := hset b
  rw [← he, List.set_getElem_self, he] at this
  exact this

theorem each_shows {w : Nat} {arr : List (List Byte)} (pre post : List Byte) (h : ∀ e ∈ arr, e.length = w) :
    ∀ (n lo : Nat), lo + n ≤ arr.length →
    eachFrom (pre ++ arr.flatten ++ post) w (pre.length + lo * w) n = some ((arr.drop lo).take n) := by
  intro n
  induction n with
  | zero => intro lo _; simp [eachFrom]
  | succ n ih =>
    intro lo hl
    have hi : arr[lo]? = some arr[lo] := List.getElem?_eq_getElem (by omega)
    obtain ⟨P, Q, hP, hmem, _⟩ := place pre post h hi
    have := ih (lo + 1) (by omega)
    rw [Nat.succ_mul, ← Nat.add_assoc] at this
    rw [eachFrom, this]
    rw [hmem, load_mid P _ Q hP.symm (h _ (List.getElem_mem _)).symm, List.drop_eq_getElem_cons (l := arr) (i := lo) (by omega)]
    rfl

theorem map_get {w : Nat} {pre : List Byte} {wins : List (Nat × Nat)} {x lo n : Nat} (h : wins[x]? = some (lo, n)) :
    (wins.map fun win => (⟨pre.length + win.1 * w, win.2⟩ : Span))[x]? = some ⟨pre.length + lo * w, n⟩ := by
  rw [List.getElem?_map, h]; rfl

theorem step_shows {W w : Nat} {pre post : List Byte} {st : State} {sp sp' : Spec.State} {o : Op} {r : Out} (hw : 0 < w)
    (h : Spec.Shows W w pre post st sp) (hs : Spec.step w sp o = some (sp', r)) :
    ∃ st', st.step W w o = some (st', r) ∧ Spec.Shows W w pre post st' sp' := by
  obtain ⟨mem, spans⟩ := st
  obtain ⟨hmem, helem, hspans, hin, hsmall⟩ := h
  simp only at hmem hspans hsmall
  have hlen : sp.arr.length * w ≤ mem.length := by
    rw [hmem, List.length_append, List.length_append, flatten_len helem]; omega
  have hbytes : ∀ lo n, (lo, n) ∈ sp.wins → n * w < W := fun lo n hm => by
    have h1 := hin _ hm
    have h2 : n * w ≤ sp.arr.length * w := Nat.mul_le_mul_right _ (by simp only at h1; omega)
    omega
  have hnum : ∀ lo n, (lo, n) ∈ sp.wins → n ≤ sp.arr.length * w := fun lo n hm => by
    have h1 := hin _ hm
    simp only at h1
    exact Nat.le_trans (by omega : n ≤ sp.arr.length) (Nat.le_mul_of_pos_right _ hw)
  subst hspans
  cases o with
  | get x i =>
    simp only [Spec.step, Option.bind_eq_some_iff] at hs
    obtain ⟨⟨lo, n⟩, hx, hs⟩ := hs
    simp only at hs
    split at hs
    · rw [Option.map_eq_some_iff] at hs
      obtain ⟨v, hv, he⟩ := hs
      cases he
      obtain ⟨P, Q, hP, hm, _⟩ := place pre post helem hv
      refine ⟨⟨mem, _⟩, ?_, ⟨hmem, helem, rfl, hin, hsmall⟩⟩
      simp only [State.step, map_get hx, Option.bind_some, Span.get]
      rw [hmem, hm, load_mid P v Q (by rw [hP, Nat.add_mul, Nat.add_assoc])
        (helem _ (List.mem_of_getElem? hv)).symm]
      simp only [Option.map_some, ← hm, ← hmem]
    · cases hs
  | set x i v =>
    simp only [Spec.step, Option.bind_eq_some_iff] at hs
    obtain ⟨⟨lo, n⟩, hx, hs⟩ := hs
    simp only at hs
    split at hs
    · rename_i hc
      cases hs
      have hwin := hin _ (List.mem_of_getElem? hx)
      simp only at hwin
      have hv : sp.arr[lo + i]? = some sp.arr[lo + i] := List.getElem?_eq_getElem (by omega)
      obtain ⟨P, Q, hP, hm, hset⟩ := place pre post helem hv
      have hvl := helem _ (List.mem_of_getElem? hv)
      refine ⟨⟨pre ++ (sp.arr.set (lo + i) v).flatten ++ post, _⟩, ?_, ⟨rfl, ?_, rfl, ?_, ?_⟩⟩
      · simp only [State.step, map_get hx, Option.bind_some, Span.set]
        rw [hmem, hm, store_mid P _ v Q (by rw [hP, Nat.add_mul, Nat.add_assoc]) (by rw [hc.2, hvl]), hset]
        rfl
      · intro e he
        rcases List.mem_or_eq_of_mem_set he with he | rfl
        · exact helem _ he
        · exact hc.2
      · intro win hwi; rw [List.length_set]; exact hin win hwi
      · show (pre ++ (sp.arr.set (lo + i) v).flatten ++ post).length + 1 < W
        rw [hset]
        rw [hmem, hm] at hsmall
        simp only [List.length_append] at hsmall ⊢
        omega
    · cases hs
  | getByte x j =>
    simp only [Spec.step, Option.bind_eq_some_iff] at hs
    obtain ⟨⟨lo, n⟩, hx, hs⟩ := hs
    simp only at hs
    split at hs
    · rw [Option.bind_eq_some_iff] at hs
      obtain ⟨v, hv, hs⟩ := hs
      rw [Option.map_eq_some_iff] at hs
      obtain ⟨b, hb, he⟩ := hs
      cases he
      obtain ⟨P, Q, hP, hm, _⟩ := place pre post helem hv
      obtain ⟨hvb, hvl, _⟩ := placeByte hb
      have hm' : mem = (P ++ v.take (j % w)) ++ [b] ++ (v.drop (j % w + 1) ++ Q) := by
        rw [hmem, hm]
        rw [show P ++ v ++ Q = P ++ (v.take (j % w) ++ [b] ++ v.drop (j % w + 1)) ++ Q from by rw [← hvb]]
        simp only [List.append_assoc]
      have hj : pre.length + lo * w + j * 1 = (P ++ v.take (j % w)).length := by
        rw [List.length_append, hP, hvl, Nat.add_mul, Nat.mul_one]
        have := Nat.div_add_mod j w
        rw [Nat.mul_comm] at this
        omega
      refine ⟨⟨mem, _⟩, ?_, ⟨hmem, helem, rfl, hin, hsmall⟩⟩
      simp only [State.step, map_get hx, Option.bind_some, Span.get, Span.asBytes]
      rw [show load mem (pre.length + lo * w + j * 1) 1 = some [b] from by
        rw [hm']; exact load_mid _ _ _ hj rfl]
      rfl
    · cases hs
  | setByte x j b' =>
    simp only [Spec.step, Option.bind_eq_some_iff] at hs
    obtain ⟨⟨lo, n⟩, hx, hs⟩ := hs
    simp only at hs
    split at hs
    · rw [Option.map_eq_some_iff] at hs
      obtain ⟨v, hv, he⟩ := hs
      cases he
      have hvw := helem _ (List.mem_of_getElem? hv)
      have hjw : j % w < v.length := by rw [hvw]; exact Nat.mod_lt _ hw
      obtain ⟨P, Q, hP, hm, hset⟩ := place pre post helem hv
      obtain ⟨hvb, hvl, hvset⟩ := placeByte (List.getElem?_eq_getElem hjw)
      have hm' : mem = (P ++ v.take (j % w)) ++ [v[j % w]] ++ (v.drop (j % w + 1) ++ Q) := by
        rw [hmem, hm]
        rw [show P ++ v ++ Q = P ++ (v.take (j % w) ++ [v[j % w]] ++ v.drop (j % w + 1)) ++ Q from by rw [← hvb]]
        simp only [List.append_assoc]
      have hj : pre.length + lo * w + j * 1 = (P ++ v.take (j % w)).length := by
        rw [List.length_append, hP, hvl, Nat.add_mul, Nat.mul_one]
        have := Nat.div_add_mod j w
        rw [Nat.mul_comm] at this
        omega
      have hst : store mem (pre.length + lo * w + j * 1) [b'] =
          some (pre ++ (sp.arr.set (lo + j / w) (v.set (j % w) b')).flatten ++ post) := by
        rw [hm', store_mid _ [v[j % w]] [b'] _ hj rfl, hset, hvset]
        simp only [List.append_assoc]
      refine ⟨⟨pre ++ (sp.arr.set (lo + j / w) (v.set (j % w) b')).flatten ++ post, _⟩, ?_, ⟨rfl, ?_, rfl, ?_, ?_⟩⟩
      · simp only [State.step, map_get hx, Option.bind_some, Span.set, Span.asBytes]
        rw [hst]
        rfl
      · intro e he
        rcases List.mem_or_eq_of_mem_set he with he | rfl
        · exact helem _ he
        · rw [List.length_set]; exact hvw
      · intro win hwi; rw [List.length_set]; exact hin win hwi
      · show (pre ++ (sp.arr.set (lo + j / w) (v.set (j % w) b')).flatten ++ post).length + 1 < W
        rw [hset]
        rw [hmem, hm] at hsmall
        simp only [List.length_append, List.length_set] at hsmall ⊢
        omega
    · cases hs
  | each x =>
    simp only [Spec.step, Option.map_eq_some_iff] at hs
    obtain ⟨⟨lo, n⟩, hx, he⟩ := hs
    cases he
    refine ⟨⟨mem, _⟩, ?_, ⟨hmem, helem, rfl, hin, hsmall⟩⟩
    simp only [State.step, map_get hx, Option.bind_some, Span.each]
    rw [hmem, each_shows pre post helem n lo (hin _ (List.mem_of_getElem? hx))]
    rfl
  | size x =>
    simp only [Spec.step, Option.map_eq_some_iff] at hs
    obtain ⟨⟨lo, n⟩, hx, he⟩ := hs
    cases he
    exact ⟨⟨mem, _⟩, by simp only [State.step, map_get hx, Option.map_some], ⟨hmem, helem, rfl, hin, hsmall⟩⟩
  | sizeBytes x =>
    simp only [Spec.step, Option.map_eq_some_iff] at hs
    obtain ⟨⟨lo, n⟩, hx, he⟩ := hs
    cases he
    refine ⟨⟨mem, _⟩, ?_, ⟨hmem, helem, rfl, hin, hsmall⟩⟩
    simp only [State.step, map_get hx, Option.map_some, Span.sizeBytes]
    rw [Nat.mod_eq_of_lt (hbytes lo n (List.mem_of_getElem? hx))]
  | empty x =>
    simp only [Spec.step, Option.map_eq_some_iff] at hs
    obtain ⟨⟨lo, n⟩, hx, he⟩ := hs
    cases he
    exact ⟨⟨mem, _⟩, by simp only [State.step, map_get hx, Option.map_some], ⟨hmem, helem, rfl, hin, hsmall⟩⟩
  | sub x off count =>
    simp only [Spec.step, Option.bind_eq_some_iff] at hs
    obtain ⟨⟨lo, n⟩, hx, hs⟩ := hs
    simp only at hs
    split at hs
    · rename_i hc
      cases hs
      have hm := List.mem_of_getElem? hx
      have hwin := hin _ hm
      have hn := hnum lo n hm
      simp only at hwin
      refine ⟨⟨mem, (sp.wins.map fun win => ⟨pre.length + win.1 * w, win.2⟩) ++ [Span.subspan W w ⟨pre.length + lo * w, n⟩ off count]⟩,
        by simp only [State.step, map_get hx, Option.map_some, State.push], ⟨hmem, helem, ?_, ?_, hsmall⟩⟩
      · simp only [Span.subspan, List.map_append, List.map_cons, List.map_nil]
        rw [if_neg (by omega), Nat.add_mul, Nat.add_assoc]
      · intro win hwi
        rcases List.mem_append.mp hwi with hwi | hwi
        · exact hin win hwi
        · rw [List.mem_singleton.mp hwi]; simp only; omega
    · cases hs
  | first x count =>
    simp only [Spec.step, Option.bind_eq_some_iff] at hs
    obtain ⟨⟨lo, n⟩, hx, hs⟩ := hs
    simp only at hs
    split at hs
    · rename_i hc
      cases hs
      have hwin := hin _ (List.mem_of_getElem? hx)
      simp only at hwin
      refine ⟨⟨mem, (sp.wins.map fun win => ⟨pre.length + win.1 * w, win.2⟩) ++ [Span.first ⟨pre.length + lo * w, n⟩ count]⟩,
        by simp only [State.step, map_get hx, Option.map_some, State.push], ⟨hmem, helem, ?_, ?_, hsmall⟩⟩
      · simp only [Span.first, List.map_append, List.map_cons, List.map_nil]
      · intro win hwi
        rcases List.mem_append.mp hwi with hwi | hwi
        · exact hin win hwi
        · rw [List.mem_singleton.mp hwi]; simp only; omega
    · cases hs
  | copy x =>
    simp only [Spec.step, Option.map_eq_some_iff] at hs
    obtain ⟨⟨lo, n⟩, hx, he⟩ := hs
    cases he
    refine ⟨⟨mem, (sp.wins.map fun win => ⟨pre.length + win.1 * w, win.2⟩) ++ [⟨pre.length + lo * w, n⟩]⟩,
      by simp only [State.step, map_get hx, Option.map_some, State.push], ⟨hmem, helem, ?_, ?_, hsmall⟩⟩
    · simp only [List.map_append, List.map_cons, List.map_nil]
    · intro win hwi
      rcases List.mem_append.mp hwi with hwi | hwi
      · exact hin win hwi
      · rw [List.mem_singleton.mp hwi]; exact hin _ (List.mem_of_getElem? hx)
  | range x i j =>
    simp only [Spec.step, Option.bind_eq_some_iff] at hs
    obtain ⟨⟨lo, n⟩, hx, hs⟩ := hs
    simp only at hs
    split at hs
    · rename_i hc
      cases hs
      have hwin := hin _ (List.mem_of_getElem? hx)
      simp only at hwin
      refine ⟨⟨mem, (sp.wins.map fun win => ⟨pre.length + win.1 * w, win.2⟩) ++ [Span.ofPointers w (pre.length + lo * w + i * w) (pre.length + lo * w + j * w)]⟩,
        by simp only [State.step, map_get hx, Option.map_some, State.push], ⟨hmem, helem, ?_, ?_, hsmall⟩⟩
      · simp only [Span.ofPointers, List.map_append, List.map_cons, List.map_nil]
        rw [Nat.add_sub_add_left, ← Nat.sub_mul, Nat.mul_div_cancel _ hw, Nat.add_mul, Nat.add_assoc]
      · intro win hwi
        rcases List.mem_append.mp hwi with hwi | hwi
        · exact hin win hwi
        · rw [List.mem_singleton.mp hwi]; simp only; omega
    · cases hs
  | assign x y =>
    simp only [Spec.step, Option.bind_eq_some_iff] at hs
    obtain ⟨⟨lo, n⟩, hy, hs⟩ := hs
    split at hs
    · rename_i hc
      cases hs
      refine ⟨⟨mem, (sp.wins.map fun win => ⟨pre.length + win.1 * w, win.2⟩).set x ⟨pre.length + lo * w, n⟩⟩, ?_,
        ⟨hmem, helem, ?_, ?_, hsmall⟩⟩
      rotate_left
      · simp only [List.map_set]
      · intro win hwi
        rcases List.mem_or_eq_of_mem_set hwi with hwi | rfl
        · exact hin win hwi
        · exact hin _ (List.mem_of_getElem? hy)
      · simp only [State.step, map_get hy, Option.bind_some, List.length_map]
        rw [if_pos hc]
    · cases hs

/-- **Every history.**  However spans over an array are made from each other, copied and assigned, every read, through
any of them or its bytes, shows what the writes through all of them left there, sizes are those of the slices, and memory
outside the array keeps its contents.  Missing: `subspan` without a count (`rest_reaches_past`). -/
theorem span_history_partial (W w : Nat) (hw : 0 < w) (pre post : List Byte) (ops : List Op) :
    ∀ (st : State) (sp sp' : Spec.State) (rs : List Out), Spec.Shows W w pre post st sp →
    Spec.run w sp ops = some (sp', rs) →
    ∃ st', st.run W w ops = some (st', rs) ∧ Spec.Shows W w pre post st' sp' := by
  induction ops with
  | nil =>
    intro st sp sp' rs h hs
    cases hs
    exact ⟨st, rfl, h⟩
  | cons o ops ih =>
    intro st sp sp' rs h hs
    simp only [Spec.run, Option.bind_eq_some_iff] at hs
    obtain ⟨⟨sp1, r⟩, h1, hs⟩ := hs
    rw [Option.map_eq_some_iff] at hs
    obtain ⟨⟨sp2, rs2⟩, h2, he⟩ := hs
    cases he
    obtain ⟨st1, e1, hsh⟩ := step_shows hw h h1
    obtain ⟨st2, e2, hsh2⟩ := ih st1 sp1 sp2 rs2 hsh h2
    exact ⟨st2, by simp only [State.run, e1, Option.bind_some, e2, Option.map_some], hsh2⟩

/-- An array of three two-byte objects at address 1, and one span on all of it. -/
example : Spec.Shows 65536 2 [9] [8, 8] ⟨[9, 1, 2, 3, 4, 5, 6, 8, 8], [⟨1, 3⟩]⟩ ⟨[[1, 2], [3, 4], [5, 6]], [(0, 3)]⟩ :=
  ⟨by decide, by decide, by decide, by decide, by decide⟩

/-- Meets the hypotheses: a slice, writes through it and through its bytes, a reassigned span. -/
example : (Spec.run 2 ⟨[[1, 2], [3, 4], [5, 6]], [(0, 3)]⟩
    [.sub 0 1 2, .set 1 0 [7, 7], .setByte 1 3 0, .each 0, .range 0 0 2, .assign 0 2, .size 0, .sizeBytes 1,
      .getByte 1 2]).map (·.2) =
    some [.unit, .unit, .unit, .vals [[1, 2], [7, 7], [5, 0]], .unit, .unit, .num 2, .num 4, .val [5]] := by decide

/-- **Making, copying, slicing and assigning spans never changes memory** (assignment reseats the span, it does not copy
elements), whatever the arguments. -/
theorem spans_are_shallow (W w : Nat) (st st' : State) (r : Out) (o : Op) (h : st.step W w o = some (st', r))
    (ho : ∀ x i v, o ≠ .set x i v) (hb : ∀ x j b, o ≠ .setByte x j b) : st'.mem = st.mem := by
  cases o with
  | set x i v => exact absurd rfl (ho x i v)
  | setByte x j b => exact absurd rfl (hb x j b)
  | assign x y =>
    simp only [State.step, Option.bind_eq_some_iff] at h
    obtain ⟨s, _, h⟩ := h
    split at h
    · cases h; rfl
    · cases h
  | get x i =>
    simp only [State.step, Option.bind_eq_some_iff, Option.map_eq_some_iff] at h
    obtain ⟨s, _, v, _, he⟩ := h
    cases he; rfl
  | getByte x i =>
    simp only [State.step, Option.bind_eq_some_iff, Option.map_eq_some_iff] at h
    obtain ⟨s, _, v, _, he⟩ := h
    cases he; rfl
  | each x =>
    simp only [State.step, Option.bind_eq_some_iff, Option.map_eq_some_iff] at h
    obtain ⟨s, _, v, _, he⟩ := h
    cases he; rfl
  | _ =>
    simp only [State.step, Option.map_eq_some_iff] at h
    obtain ⟨s, _, he⟩ := h
    cases he; rfl

/-- **The bytes of a span are the bytes of its elements, in order.** -/
theorem bytes_are_elements (W w : Nat) (hw : 0 < w) (pre post : List Byte) (st : State) (sp : Spec.State) (x lo n : Nat)
    (h : Spec.Shows W w pre post st sp) (hx : sp.wins[x]? = some (lo, n)) (s : Span) (hs : st.spans[x]? = some s) :
    (s.asBytes W w).len = n * w ∧
    (s.asBytes W w).each st.mem 1 = some (((sp.arr.drop lo).take n).flatten.map ([·])) := by
  obtain ⟨mem, spans⟩ := st
  obtain ⟨hmem, helem, hspans, hin, hsmall⟩ := h
  simp only at hmem hspans hsmall hs
  subst hspans
  rw [map_get hx] at hs
  cases hs
  have hwin := hin _ (List.mem_of_getElem? hx)
  simp only at hwin
  have hl : sp.arr.flatten.length = sp.arr.length * w := flatten_len helem
  have hlen : sp.arr.length * w ≤ mem.length := by
    rw [hmem, List.length_append, List.length_append, hl]; omega
  have h2 : n * w ≤ sp.arr.length * w := Nat.mul_le_mul_right _ (by omega)
  have h3 : lo * w + n * w ≤ sp.arr.length * w := by rw [← Nat.add_mul]; exact Nat.mul_le_mul_right _ hwin
  have hsz : n * w % W = n * w := Nat.mod_eq_of_lt (by omega)
  refine ⟨hsz, ?_⟩
  simp only [Span.each, Span.asBytes, Span.sizeBytes, hsz]
  have hfl : ∀ l : List Byte, (l.map ([·])).flatten = l := fun l => by induction l with
    | nil => rfl
    | cons a l ih => simp only [List.map_cons, List.flatten_cons, ih]; rfl
  have hcut : ∀ l : List (List Byte), (∀ e ∈ l, e.length = w) → ∀ k, l.flatten.drop (k * w) = (l.drop k).flatten ∧
      l.flatten.take (k * w) = (l.take k).flatten := by
    intro l
    induction l with
    | nil => intro _ k; simp
    | cons e l ih =>
      intro hl k
      have he := hl e (by simp)
      cases k with
      | zero => simp
      | succ k =>
        obtain ⟨i1, i2⟩ := ih (fun e' he' => hl e' (by simp [he'])) k
        have hk : (k + 1) * w = e.length + k * w := by rw [Nat.succ_mul, he, Nat.add_comm]
        rw [List.flatten_cons, hk, List.drop_length_add_append, List.take_length_add_append, i1, i2]
        simp
  have key := each_shows (w := 1) (arr := sp.arr.flatten.map ([·])) pre post
    (by intro e he; obtain ⟨b, _, rfl⟩ := List.mem_map.mp he; rfl) (n * w) (lo * w) (by rw [List.length_map]; omega)
  rw [hfl, ← hmem, Nat.mul_one] at key
  rw [key, ← List.map_drop, ← List.map_take, (hcut _ helem lo).1,
    (hcut _ (fun e he => helem e (List.mem_of_mem_drop he)) n).2]

/-- Meets the hypotheses. -/
example : (Span.asBytes 65536 2 ⟨3, 2⟩).each [9, 1, 2, 3, 4, 5, 6, 8, 8] 1 = some [[3], [4], [5], [6]] := by decide

/-- **Violation.**  `subspan(offset)` with the count left out has as many elements as the whole span, not the rest: over an
array in memory, its loop shows `offset` elements of what follows, and writing to one of them, although its index is
below `size()`, changes what follows. -/
theorem rest_reaches_past (W w : Nat) (pre post : List Byte) (arr after : List (List Byte)) (off : Nat)
    (he : ∀ e ∈ arr ++ after, e.length = w) (h0 : 0 < off) (ho : off ≤ arr.length) (ha : after.length = off) :
    (Span.subspan W w ⟨pre.length, arr.length⟩ off (W - 1)).each (pre ++ arr.flatten ++ (after.flatten ++ post)) w =
        some (arr.drop off ++ after) ∧
    arr.length - off < (Span.subspan W w ⟨pre.length, arr.length⟩ off (W - 1)).len ∧
    ∀ v, v.length = w →
      (Span.subspan W w ⟨pre.length, arr.length⟩ off (W - 1)).set (pre ++ arr.flatten ++ (after.flatten ++ post)) w
        (arr.length - off) v = some (pre ++ arr.flatten ++ ((after.set 0 v).flatten ++ post)) := by
  have hm : pre ++ arr.flatten ++ (after.flatten ++ post) = pre ++ (arr ++ after).flatten ++ post := by
    simp [List.append_assoc]
  refine ⟨?_, ?_, ?_⟩
  · simp only [Span.each, Span.subspan, if_true]
    rw [hm, each_shows pre post he arr.length off (by rw [List.length_append]; omega), List.drop_append_of_le_length ho,
      List.take_of_length_le (by rw [List.length_append, List.length_drop]; omega)]
  · simp only [Span.subspan, if_true]; omega
  · intro v hv
    have hi : (arr ++ after)[arr.length]? = some after[0] := by
      rw [List.getElem?_append_right (Nat.le_refl _), Nat.sub_self]; exact List.getElem?_eq_getElem (by omega)
    obtain ⟨P, Q, hP, hmem, hset⟩ := place pre post he hi
    simp only [Span.set, Span.subspan, if_true]
    rw [hm, hmem, store_mid P _ v Q ?_ (by rw [hv, he _ (List.mem_of_getElem? hi)]), ← hset]
    · rw [List.set_append_right _ _ (Nat.le_refl _), Nat.sub_self]
      simp [List.append_assoc]
    · rw [hP, Nat.add_assoc, ← Nat.add_mul]
      congr 2
      omega

/-- Meets the hypotheses: two of three one-byte elements asked for, three shown. -/
example : (Span.subspan 65536 1 ⟨1, 3⟩ 1 65535).each [9, 1, 2, 3, 7, 8] 1 = some [[2], [3], [7]] := by decide

end Verif.Span
