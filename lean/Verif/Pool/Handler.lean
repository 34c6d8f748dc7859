import Verif.Pool.Props

/-!
# The block pool shared by the main program and an interrupt handler (C108)

`alloc` and `free` of `src/estd/internal/memory/v1/pool.h` take no lock.  The calls of the main program are taken apart
into single accesses of `head_free_` and of the links in the blocks, in the order of the source; an interrupt handler may
run between any two of them, any number of times, and its own calls run to the end.  Both run on one core.
-/
namespace Verif.Pool.Handler
open Verif Verif.Pool

/-! ## Model -/

/-- where the main program is in `alloc()` or `free(c)`; `a`, `h`, `n` are pointers already fetched -/
inductive Pc where
  /-- between calls -/
  | idle
  /-- pool.h:36, fetch `head_free_` into `allocated`; `f` is what `full()` fetched -/
  | allocHead (f : Option Nat)
  /-- pool.h:38, fetch `head_free_` again -/
  | allocHead2 (a : Option Nat)
  /-- pool.h:38, fetch `next_` of it -/
  | allocNext (a h : Option Nat)
  /-- pool.h:38, store `head_free_`; then the caller gets `a->value_` -/
  | allocStore (a n : Option Nat)
  /-- pool.h:25, fetch `*head` -/
  | freeHead (c : Nat)
  /-- pool.h:25, store `next_` -/
  | freeNext (c : Nat) (h : Option Nat)
  /-- pool.h:26, store `*head` -/
  | freeStore (c : Nat)
  deriving DecidableEq, Repr

/-- the pool, the main program's place in its calls, and the blocks that the main program and the handler were given
and have not freed; pool.h:12-79.  A block being freed is the main program's until `free` returns. -/
structure St where
  p : Pool
  pc : Pc
  mine : List Nat
  his : List Nat
  deriving DecidableEq, Repr

/-- one access of the main program, pool.h:23-27, 33-41, 64-78.  `none` is an access through a null pointer or outside
the storage. -/
def tick (s : St) : Option St :=
  match s.pc with
  | .idle => some s
  | .allocHead _ => some { s with pc := .allocHead2 s.p.head }
  | .allocHead2 a => some { s with pc := .allocNext a s.p.head }
  | .allocNext a h =>
    match h with
    | none => none
    | some b => (rd s.p.mem b).map fun n => { s with pc := .allocStore a n }
  | .allocStore a n =>
    match a with
    | none => none
    | some b => some { s with p := { s.p with head := n }, pc := .idle, mine := b :: s.mine }
  | .freeHead c => some { s with pc := .freeNext c s.p.head }
  | .freeNext c h => (wr s.p.mem c h).map fun m => { s with p := { s.p with mem := m }, pc := .freeStore c }
  | .freeStore c => some { s with p := { s.p with head := some c }, pc := .idle, mine := s.mine.erase c }

/-- `head_free_` is not volatile: instead of fetching it again the compiler may use what it fetched before;
pool.h:36, 38, 49, 73 -/
def reuse (s : St) : St :=
  match s.pc with
  | .allocHead f => { s with pc := .allocHead2 f }
  | .allocHead2 a => { s with pc := .allocNext a a }
  | _ => s

/-- an interrupt that uses the pool for itself only: it takes a block for each of `vs` (until there is none), writes
into it, and gives them all back, the last taken first; pool.h:64-78 -/
def scratch (p : Pool) : List (Option Nat) → Option Pool
  | [] => some p
  | v :: vs =>
    match alloc p with
    | none => none
    | some (p', none) => some p'
    | some (p', some b) => (userWrite p' b v).bind fun q => (scratch q vs).bind fun r => free r b

/-- what happens next; pool.h:64-78 -/
inductive Act where
  /-- the main program calls `alloc()` -/
  | alloc
  /-- the main program calls `free(c)` -/
  | free (c : Nat)
  /-- the main program makes its next access -/
  | tick
  /-- the main program does without its next access, see `reuse` -/
  | reuse
  /-- the main program, between calls, writes into a block -/
  | write (b : Nat) (v : Option Nat)
  /-- an interrupt: the handler allocates a block and keeps it -/
  | hAlloc
  /-- an interrupt: the handler frees a block -/
  | hFree (b : Nat)
  /-- an interrupt: the handler writes into a block -/
  | hWrite (b : Nat) (v : Option Nat)
  /-- an interrupt that leaves nothing behind, see `scratch` -/
  | hScratch (vs : List (Option Nat))
  deriving DecidableEq, Repr

/-- one action, pool.h:49, 64-78.  `alloc()` has already asked `full()`.  A call while one is in progress is not one, and
does nothing. -/
def step (s : St) : Act → Option St
  | .alloc =>
    match s.pc with
    | .idle => some (if full s.p then s else { s with pc := .allocHead s.p.head })
    | _ => some s
  | .free c =>
    match s.pc with
    | .idle => some { s with pc := .freeHead c }
    | _ => some s
  | .tick => tick s
  | .reuse => some (reuse s)
  | .write b v =>
    match s.pc with
    | .idle => (userWrite s.p b v).map fun p => { s with p := p }
    | _ => some s
  | .hAlloc => (Pool.alloc s.p).map fun r => { s with p := r.1, his := r.2.toList ++ s.his }
  | .hFree b => (Pool.free s.p b).map fun p => { s with p := p, his := s.his.erase b }
  | .hWrite b v => (userWrite s.p b v).map fun p => { s with p := p }
  | .hScratch vs => (scratch s.p vs).map fun p => { s with p := p }

/-- a sequence of actions -/
def run (s : St) : List Act → Option St
  | [] => some s
  | a :: as => (step s a).bind fun s' => run s' as

/-- a new pool, pool.h:112-118, 136 -/
def start (mem : List (Option Nat)) : Option St := (create mem).map fun p => ⟨p, .idle, [], []⟩

/-! ## Specification -/

/-- Each frees and writes only what it was given, and while the main program is inside a call an interrupt neither keeps
a block nor frees one from before. -/
def allowed (s : St) : Act → Prop
  | .alloc | .tick | .reuse | .hScratch _ => True
  | .free c => s.pc = .idle → c ∈ s.mine
  | .write b _ => s.pc = .idle → b ∈ s.mine
  | .hAlloc => s.pc = .idle
  | .hFree b => s.pc = .idle ∧ b ∈ s.his
  | .hWrite b _ => b ∈ s.his

def legal (s : St) : List Act → Prop
  | [] => True
  | a :: as => allowed s a ∧ ∀ s', step s a = some s' → legal s' as

/-- the states such programs reach, from a pool of `n` blocks -/
def Reached (n : Nat) (s : St) : Prop :=
  ∃ mem s0 as, mem.length = n ∧ start mem = some s0 ∧ legal s0 as ∧ run s0 as = some s

/-! ## Proofs -/

theorem run_cons (s : St) (a : Act) (as : List Act) : run s (a :: as) = (step s a).bind fun s' => run s' as := rfl

theorem inv_perm {n : Nat} {p : Pool} {o o' : List Nat} (h : Inv n p o) (hp : o.Perm o') : Inv n p o' := by
  obtain ⟨hl, fl, hc, hnd, hlt, hlen⟩ := h
  exact ⟨hl, fl, hc, (hp.append_left fl).nodup_iff.mp hnd, fun b hb => hlt b (hp.mem_iff.mpr hb), by rw [← hp.length_eq]; exact hlen⟩

/-- such an interrupt leaves the pool exactly as it was -/
theorem scratch_id (vs : List (Option Nat)) : ∀ (p : Pool) (fl : List Nat), Chain p.mem p.head fl → scratch p vs = some p := by
  induction vs with
  | nil => intro p fl _; rfl
  | cons v vs ih =>
    intro p fl hc
    obtain ⟨mem, head⟩ := p
    cases fl with
    | nil =>
      have hh : head = none := hc
      simp [scratch, alloc, hh]
    | cons b fl =>
      have hb : b < mem.length := Seg.lt hc b (by simp)
      have hnd := Chain.nodup hc
      obtain ⟨hp, nx, hn, ht⟩ := hc
      simp only at hp hn
      subst hp
      have hr : rd mem b = some nx := hn
      have hbf : b ∉ fl := (List.nodup_cons.mp hnd).1
      have h1 := ih ⟨mem.set b v, nx⟩ fl (Seg.set_ne hbf ht)
      simp only [scratch, alloc, hr, userWrite, wr_lt hb, Option.bind_some, h1, free, controlFree]
      rw [wr_lt (by simpa using hb)]
      simp only [List.set_set, Option.some.injEq, Pool.mk.injEq, and_true]
      refine List.ext_getElem? fun i => ?_
      by_cases hi : i = b
      · subst hi; rw [List.getElem?_set_self hb]; exact hn.symm
      · rw [List.getElem?_set_ne (by omega)]

/-- What holds between any two actions. -/
def HInv (n : Nat) (s : St) : Prop :=
  Inv n s.p (s.mine ++ s.his) ∧
    match s.pc with
    | .idle => True
    | .allocHead f => f = s.p.head ∧ s.p.head ≠ none
    | .allocHead2 a => a = s.p.head ∧ s.p.head ≠ none
    | .allocNext a h => a = s.p.head ∧ h = s.p.head ∧ s.p.head ≠ none
    | .allocStore a nx => a = s.p.head ∧ ∃ b, a = some b ∧ rd s.p.mem b = some nx
    | .freeHead c => c ∈ s.mine
    | .freeNext c h => c ∈ s.mine ∧ h = s.p.head
    | .freeStore c => c ∈ s.mine ∧ s.p.mem[c]? = some s.p.head

theorem inv_tick {n : Nat} {s : St} (h : HInv n s) : ∃ s', tick s = some s' ∧ HInv n s' := by
  obtain ⟨⟨mem, head⟩, pc, mine, his⟩ := s
  obtain ⟨h1, h2⟩ := h
  cases pc <;> simp only at h2
  case idle => exact ⟨_, rfl, h1, trivial⟩
  case allocHead f => exact ⟨_, rfl, h1, rfl, h2.2⟩
  case allocHead2 a => exact ⟨_, rfl, h1, h2.1, rfl, h2.2⟩
  case allocNext a h =>
    obtain ⟨rfl, rfl, h3⟩ := h2
    obtain ⟨b, rfl⟩ := Option.ne_none_iff_exists'.mp h3
    obtain ⟨p', r, e1, e2, e3⟩ := inv_alloc h1
    cases hr : rd mem b with
    | none => simp [alloc, hr] at e1
    | some nx => exact ⟨⟨⟨mem, some b⟩, .allocStore (some b) nx, mine, his⟩, by simp [tick, hr], h1, rfl, b, rfl, hr⟩
  case allocStore a nx =>
    obtain ⟨rfl, b, h3, hr⟩ := h2
    subst h3
    obtain ⟨p', r, e1, e2, e3⟩ := inv_alloc h1
    simp only [alloc, hr, Option.some.injEq, Prod.mk.injEq] at e1
    obtain ⟨rfl, rfl⟩ := e1
    exact ⟨⟨⟨mem, nx⟩, .idle, b :: mine, his⟩, rfl, e2, trivial⟩
  case freeHead c => exact ⟨_, rfl, h1, h2, rfl⟩
  case freeNext c h =>
    obtain ⟨h3, h4⟩ := h2
    subst h4
    obtain ⟨p', e1, e2⟩ := inv_write (b := c) h h1 (by simp [h3])
    unfold userWrite at e1
    simp only at e1
    cases hw : wr mem c h with
    | none => simp [hw] at e1
    | some m =>
      simp only [hw, Option.some.injEq] at e1
      subst e1
      refine ⟨⟨⟨m, h⟩, .freeStore c, mine, his⟩, by simp [tick, hw], e2, h3, ?_⟩
      obtain ⟨hl, _, _, _, hlt, _⟩ := h1
      have hcl : c < mem.length := by
        have := hlt c (by simp [h3])
        simp only at hl; omega
      rw [wr_lt hcl] at hw
      simp only [Option.some.injEq] at hw
      simp [← hw, hcl]
  case freeStore c =>
    obtain ⟨h3, h4⟩ := h2
    have hm : c ∈ mine ++ his := by simp [h3]
    obtain ⟨p', e1, e2⟩ := inv_free h1 hm
    have hcl : c < mem.length := by
      obtain ⟨hl, _, _, _, hlt, _⟩ := h1
      have := hlt c hm
      simp only at hl; omega
    simp only [free, controlFree, wr_lt hcl, Option.some.injEq] at e1
    have hset : mem.set c head = mem := by
      refine List.ext_getElem? fun i => ?_
      by_cases hi : i = c
      · subst hi; rw [List.getElem?_set_self hcl]; exact h4.symm
      · rw [List.getElem?_set_ne (by omega)]
    rw [hset] at e1
    subst e1
    refine ⟨_, rfl, ?_, trivial⟩
    rw [List.erase_append_left _ h3] at e2
    exact e2

theorem inv_step {n : Nat} {s : St} (h : HInv n s) (a : Act) (ha : allowed s a) :
    ∃ s', step s a = some s' ∧ HInv n s' := by
  cases a with
  | tick => exact inv_tick h
  | reuse =>
    obtain ⟨p, pc, mine, his⟩ := s
    refine ⟨_, rfl, ?_⟩
    obtain ⟨h1, h2⟩ := h
    cases pc
    case allocHead f => exact ⟨h1, h2⟩
    case allocHead2 a => exact ⟨h1, h2.1, h2.1, h2.2⟩
    all_goals exact ⟨h1, h2⟩
  | alloc =>
    obtain ⟨p, pc, mine, his⟩ := s
    cases pc
    case idle =>
      by_cases hf : full p = true
      · exact ⟨_, by simp only [step, hf, if_true], h⟩
      · refine ⟨⟨p, .allocHead p.head, mine, his⟩, by simp [step, hf], h.1, rfl, ?_⟩
        simp only [full] at hf
        intro hn
        simp only at hn
        simp [hn] at hf
    all_goals exact ⟨_, rfl, h⟩
  | free c =>
    obtain ⟨p, pc, mine, his⟩ := s
    cases pc
    case idle => exact ⟨_, rfl, h.1, ha rfl⟩
    all_goals exact ⟨_, rfl, h⟩
  | write b v =>
    obtain ⟨p, pc, mine, his⟩ := s
    cases pc
    case idle =>
      have hb : b ∈ mine := ha rfl
      obtain ⟨p', e1, e2⟩ := inv_write (b := b) v h.1 (by simp [hb])
      exact ⟨⟨p', .idle, mine, his⟩, by simp only [step, e1, Option.map_some], e2, trivial⟩
    all_goals exact ⟨_, rfl, h⟩
  | hAlloc =>
    obtain ⟨p, pc, mine, his⟩ := s
    have hpc : pc = .idle := ha
    subst hpc
    obtain ⟨p', r, e1, e2, e3⟩ := inv_alloc h.1
    refine ⟨⟨p', .idle, mine, r.toList ++ his⟩, by simp only [step, e1, Option.map_some], ?_, trivial⟩
    refine inv_perm e2 ?_
    simp only
    rw [← List.append_assoc, ← List.append_assoc]
    exact List.perm_append_comm.append_right his
  | hFree b =>
    obtain ⟨p, pc, mine, his⟩ := s
    obtain ⟨hpc, hb⟩ := ha
    simp only at hpc hb
    subst hpc
    obtain ⟨p', e1, e2⟩ := inv_free (b := b) h.1 (by simp [hb])
    refine ⟨⟨p', .idle, mine, his.erase b⟩, by simp only [step, e1, Option.map_some], ?_, trivial⟩
    have hnm : b ∉ mine := by
      obtain ⟨_, fl, _, hnd, _⟩ := h.1
      have := (List.nodup_append.mp hnd).2.1
      intro hm
      exact (List.nodup_append.mp this).2.2 b hm b hb rfl
    simp only at e2
    rw [List.erase_append_right _ hnm] at e2
    exact e2
  | hWrite b v =>
    obtain ⟨⟨mem, head⟩, pc, mine, his⟩ := s
    have hb : b ∈ his := ha
    obtain ⟨p', e1, e2⟩ := inv_write (b := b) v h.1 (by simp [hb])
    obtain ⟨hl, fl, hc, hnd, hlt, hlen⟩ := h.1
    have hbl : b < mem.length := by
      have := hlt b (by simp [hb])
      simp only at hl; omega
    simp only [userWrite, wr_lt hbl, Option.some.injEq] at e1
    subst e1
    refine ⟨⟨⟨mem.set b v, head⟩, pc, mine, his⟩, by simp [step, userWrite, wr_lt hbl], e2, ?_⟩
    have hnm : ∀ c ∈ mine, c ≠ b := fun c hc he =>
      (List.nodup_append.mp (List.nodup_append.mp hnd).2.1).2.2 c hc b hb he
    have hnf : b ∉ fl := fun hm => (List.nodup_append.mp hnd).2.2 b hm b (by simp [hb]) rfl
    have h2 := h.2
    cases pc <;> simp only at h2 ⊢ <;> try exact h2
    case allocStore a nx =>
      obtain ⟨h3, b', h4, h5⟩ := h2
      refine ⟨h3, b', h4, ?_⟩
      have hne : b ≠ b' := by
        rintro rfl
        rw [h4] at h3
        cases fl with
        | nil =>
          have hh : head = none := hc
          rw [hh] at h3; simp at h3
        | cons x fl =>
          have h6 : head = some x := hc.1
          rw [h6] at h3
          simp only [Option.some.injEq] at h3
          subst h3
          exact hnf (by simp)
      unfold rd at h5 ⊢
      rw [List.getElem?_set_ne hne]; exact h5
    case freeStore c =>
      refine ⟨h2.1, ?_⟩
      rw [List.getElem?_set_ne (fun he => hnm c h2.1 he.symm)]; exact h2.2
  | hScratch vs =>
    obtain ⟨_, fl, hc, _⟩ := h.1
    refine ⟨s, ?_, h⟩
    simp only [step, scratch_id vs s.p fl hc, Option.map_some]

theorem inv_run {n : Nat} {s : St} (h : HInv n s) (as : List Act) (ha : legal s as) :
    ∃ s', run s as = some s' ∧ HInv n s' := by
  induction as generalizing s with
  | nil => exact ⟨s, rfl, h⟩
  | cons a as ih =>
    obtain ⟨s1, e1, e2⟩ := inv_step h a ha.1
    obtain ⟨s2, e3, e4⟩ := ih e2 (ha.2 s1 e1)
    exact ⟨s2, by rw [run_cons, e1]; exact e3, e4⟩

theorem inv_start {mem : List (Option Nat)} {s0 : St} (h : start mem = some s0) : HInv mem.length s0 := by
  unfold start at h
  cases hc : create mem with
  | none => simp [hc] at h
  | some p =>
    simp only [hc, Option.map_some, Option.some.injEq] at h
    subst h
    exact ⟨inv_create hc, trivial⟩

theorem inv_reached {n : Nat} {s : St} (h : Reached n s) : HInv n s := by
  obtain ⟨mem, s0, as, rfl, h1, h2, h3⟩ := h
  obtain ⟨s', e1, e2⟩ := inv_run (inv_start h1) as h2
  rw [h3] at e1
  cases e1
  exact e2

/-- **The pool stays sound under interrupts** that keep and free blocks only while the main program is between its
calls, and that at any other time give back what they take, last first: nothing undefined happens; the blocks that the
main program and the handler hold are all different and of the pool; and between calls `available_blocks()` is the number
of the others.  The full property lets the handler allocate and free at any time: see `alloc_taken`, `alloc_twice`, `alloc_twice_reused`,
`alloc_loses`, `free_twice` and `free_loses`. -/
theorem shared_pool_partial (mem : List (Option Nat)) (hm : mem ≠ []) :
    ∃ s0, start mem = some s0 ∧ ∀ as, legal s0 as → ∃ s, run s0 as = some s ∧
      (s.mine ++ s.his).Nodup ∧ (∀ b ∈ s.mine ++ s.his, b < mem.length) ∧
      (s.pc = .idle → available s.p = some (mem.length - (s.mine ++ s.his).length)) := by
  obtain ⟨p, hp⟩ := pool_create_defined mem hm
  have h0 : start mem = some ⟨p, .idle, [], []⟩ := by simp [start, hp]
  refine ⟨_, h0, fun as ha => ?_⟩
  obtain ⟨s, e1, e2⟩ := inv_run (inv_start h0) as ha
  obtain ⟨hl, fl, hc, hnd, hlt, hlen⟩ := e2.1
  refine ⟨s, e1, (List.nodup_append.mp hnd).2.1, hlt, fun _ => ?_⟩
  unfold available
  rw [availLoop_spec hc (by omega)]
  congr 1; omega

/-- Meets the hypotheses: the handler uses the last two blocks of three, writing into them, in the middle of an `alloc()`
that will be given one of them, and in the middle of a `free()`. -/
example : ∃ s, Reached 3 s ∧ s.mine = [1] ∧ s.his = [] ∧ s.pc = .idle := by
  refine ⟨⟨⟨[some 2, some 2, none], some 0⟩, .idle, [1], []⟩, ⟨[none, none, none], ⟨⟨[some 1, some 2, none], some 0⟩, .idle, [], []⟩,
    [.alloc, .reuse, .hScratch [some 9, some 9], .tick, .tick, .tick, .alloc, .tick, .tick, .tick, .tick,
      .free 0, .tick, .hScratch [some 9], .tick, .tick], rfl, by decide +kernel, ?_, by decide +kernel⟩, rfl, rfl, rfl⟩
  simp [legal, allowed, step, tick, reuse, scratch, alloc, userWrite, free, controlFree, full, rd, wr]

/-- **Without interrupts** the accesses of the main program amount to `alloc()`, however often the compiler fetches
`head_free_`, … -/
theorem alloc_alone (s : St) (hpc : s.pc = .idle) (p' : Pool) (r : Option Nat) (h : alloc s.p = some (p', r))
    (x y : Act) (hx : x = .tick ∨ x = .reuse) (hy : y = .tick ∨ y = .reuse) :
    run s [.alloc, x, y, .tick, .tick] = some { s with p := p', mine := r.toList ++ s.mine } := by
  obtain ⟨⟨mem, head⟩, pc, mine, his⟩ := s
  simp only at hpc h
  subst hpc
  cases head with
  | none =>
    simp only [alloc, Option.some.injEq, Prod.mk.injEq] at h
    obtain ⟨rfl, rfl⟩ := h
    rcases hx with rfl | rfl <;> rcases hy with rfl | rfl <;> simp [run, step, tick, reuse, full]
  | some b =>
    cases hr : rd mem b with
    | none => simp [alloc, hr] at h
    | some nx =>
      simp only [alloc, hr, Option.some.injEq, Prod.mk.injEq] at h
      obtain ⟨rfl, rfl⟩ := h
      rcases hx with rfl | rfl <;> rcases hy with rfl | rfl <;> simp [run, step, tick, reuse, full, hr]

/-- … and to `free(c)`. -/
theorem free_alone (s : St) (hpc : s.pc = .idle) (c : Nat) (p' : Pool) (h : free s.p c = some p') :
    run s [.free c, .tick, .tick, .tick] = some { s with p := p', mine := s.mine.erase c } := by
  obtain ⟨⟨mem, head⟩, pc, mine, his⟩ := s
  simp only at hpc h
  subst hpc
  cases hw : wr mem c head with
  | none => simp [free, controlFree, hw] at h
  | some m =>
    simp only [free, controlFree, hw, Option.some.injEq] at h
    subst h
    simp [run, step, tick, hw]

/-! ## Where the code departs from the property -/

/-- the free list between calls -/
theorem free_list {n : Nat} {s : St} (h : HInv n s) :
    ∃ fl, Chain s.p.mem s.p.head fl ∧ fl.length + (s.mine ++ s.his).length = n ∧ (fl ++ (s.mine ++ s.his)).Nodup ∧
      s.p.mem.length = n ∧ ∀ b ∈ s.mine ++ s.his, b < n := by
  obtain ⟨hl, fl, hc, hnd, hlt, hlen⟩ := h.1
  exact ⟨fl, hc, hlen, hnd, hl, hlt⟩

/-- **Violation.**  One block is left.  The main program's `alloc()` has found that the pool is not exhausted, the
handler takes the block, and `alloc()` goes on through a null pointer. -/
theorem alloc_taken {n : Nat} {s : St} (h : Reached n s) (hpc : s.pc = .idle)
    (hone : s.mine.length + s.his.length + 1 = n) : run s [.alloc, .hAlloc, .tick, .tick, .tick] = none := by
  obtain ⟨fl, hc, hlen, _⟩ := free_list (inv_reached h)
  obtain ⟨⟨mem, head⟩, pc, mine, his⟩ := s
  simp only [List.length_append] at hpc hone hc hlen
  subst hpc
  match fl, hc, hlen with
  | [], _, hlen => simp at hlen; omega
  | [b], hc, hlen =>
    obtain ⟨rfl, nx, hn, ht⟩ := hc
    have hnx : nx = none := ht
    subst hnx
    have hr : rd mem b = some none := hn
    simp [run, step, tick, full, alloc, hr]
  | _ :: _ :: _, _, hlen => simp at hlen; omega

/-- **Violation.**  At least two blocks are left.  The main program's `alloc()` has fetched the first, the handler
allocates: both are given the same block. -/
theorem alloc_twice {n : Nat} {s : St} (h : Reached n s) (hpc : s.pc = .idle)
    (htwo : s.mine.length + s.his.length + 2 ≤ n) :
    ∃ s' b, run s [.alloc, .tick, .hAlloc, .tick, .tick, .tick] = some s' ∧ s'.pc = .idle ∧
      s'.mine = b :: s.mine ∧ s'.his = b :: s.his := by
  obtain ⟨fl, hc, hlen, _⟩ := free_list (inv_reached h)
  obtain ⟨⟨mem, head⟩, pc, mine, his⟩ := s
  simp only [List.length_append] at hpc htwo hc hlen
  subst hpc
  match fl, hc, hlen with
  | [], _, hlen => simp at hlen; omega
  | [_], _, hlen => simp at hlen; omega
  | b :: b' :: fl, hc, _ =>
    obtain ⟨rfl, nx, hn, rfl, nx', hn', ht⟩ := hc
    have hr : rd mem b = some (some b') := hn
    have hr' : rd mem b' = some nx' := hn'
    exact ⟨⟨⟨mem, nx'⟩, .idle, b :: mine, b :: his⟩, b, by simp [run, step, tick, full, alloc, hr, hr'], rfl, rfl, rfl⟩

/-- **Violation.**  The same if the compiler fetches `head_free_` only once, and then even with one block left. -/
theorem alloc_twice_reused {n : Nat} {s : St} (h : Reached n s) (hpc : s.pc = .idle)
    (hroom : s.mine.length + s.his.length + 1 ≤ n) :
    ∃ s' b, run s [.alloc, .hAlloc, .reuse, .reuse, .tick, .tick] = some s' ∧ s'.pc = .idle ∧
      s'.mine = b :: s.mine ∧ s'.his = b :: s.his := by
  obtain ⟨fl, hc, hlen, _⟩ := free_list (inv_reached h)
  obtain ⟨⟨mem, head⟩, pc, mine, his⟩ := s
  simp only [List.length_append] at hpc hroom hc hlen
  subst hpc
  match fl, hc, hlen with
  | [], _, hlen => simp at hlen; omega
  | b :: fl, hc, _ =>
    obtain ⟨rfl, nx, hn, ht⟩ := hc
    have hr : rd mem b = some nx := hn
    exact ⟨⟨⟨mem, nx⟩, .idle, b :: mine, b :: his⟩, b, by simp [run, step, tick, reuse, full, alloc, hr], rfl, rfl, rfl⟩

/-- **Violation.**  The main program's `alloc()` has fetched `head_free_` for the second time, the handler frees `x`: the
store of `head_free_` drops `x` from the free list.  It is lost for good: nobody holds it and it is not available. -/
theorem alloc_loses {n : Nat} {s : St} (h : Reached n s) (hpc : s.pc = .idle) (x : Nat) (hx : x ∈ s.his)
    (hroom : s.mine.length + s.his.length + 1 ≤ n) :
    ∃ s' k, run s [.alloc, .tick, .tick, .hFree x, .tick, .tick] = some s' ∧ s'.pc = .idle ∧
      x ∉ s'.mine ++ s'.his ∧ available s'.p = some k ∧ k + (s'.mine ++ s'.his).length + 1 = n := by
  obtain ⟨fl, hc, hlen, hnd, hl, hlt⟩ := free_list (inv_reached h)
  obtain ⟨⟨mem, head⟩, pc, mine, his⟩ := s
  simp only at hpc hroom hc hlen hnd hl hlt hx
  subst hpc
  cases fl with
  | nil => simp only [List.length_append, List.length_nil] at hlen; omega
  | cons b fl =>
    have hxl : x < mem.length := by have := hlt x (by simp [hx]); omega
    have hxf : x ∉ b :: fl := fun hm => (List.nodup_append.mp hnd).2.2 x hm x (by simp [hx]) rfl
    have hxm : x ∉ mine := fun hm =>
      (List.nodup_append.mp (List.nodup_append.mp hnd).2.1).2.2 x hm x hx rfl
    have hhis : his.Nodup := (List.nodup_append.mp (List.nodup_append.mp hnd).2.1).2.1
    obtain ⟨rfl, nx, hn, ht⟩ := hc
    have hbx : x ≠ b := fun he => hxf (by simp [he])
    have hr : rd (mem.set x (some b)) b = some nx := by unfold rd; rw [List.getElem?_set_ne hbx]; exact hn
    have hch : Chain (mem.set x (some b)) nx fl := Seg.set_ne (fun hm => hxf (by simp [hm])) ht
    have hpos : 0 < his.length := List.length_pos_of_mem hx
    have hel := List.length_erase_of_mem hx
    simp only [List.length_append, List.length_cons] at hlen
    refine ⟨⟨⟨mem.set x (some b), nx⟩, .idle, b :: mine, his.erase x⟩, fl.length, ?_, rfl, ?_, ?_, ?_⟩
    · simp [run, step, tick, full, free, controlFree, wr_lt hxl, hr]
    · simp only [List.cons_append, List.mem_cons, List.mem_append, not_or]
      exact ⟨hbx, hxm, fun hm => (List.Nodup.mem_erase_iff hhis |>.mp hm).1 rfl⟩
    · unfold available
      rw [availLoop_spec hch (by simp; omega)]
    · simp only [List.cons_append, List.length_cons, List.length_append, hel]; omega

/-- **Violation.**  The main program's `free(c)` has linked `c` to the first free block, the handler allocates that
block: it stays linked, and the second `alloc()` after this gives it to the main program too. -/
theorem free_twice {n : Nat} {s : St} (h : Reached n s) (hpc : s.pc = .idle) (c : Nat) (hc : c ∈ s.mine)
    (hroom : s.mine.length + s.his.length + 1 ≤ n) :
    ∃ s' b, run s ([.free c, .tick, .tick, .hAlloc, .tick] ++ [.alloc, .tick, .tick, .tick, .tick] ++
        [.alloc, .tick, .tick, .tick, .tick]) = some s' ∧ s'.pc = .idle ∧ b ∈ s'.mine ∧ b ∈ s'.his := by
  obtain ⟨fl, hch, hlen, hnd, hl, hlt⟩ := free_list (inv_reached h)
  obtain ⟨⟨mem, head⟩, pc, mine, his⟩ := s
  simp only at hpc hroom hch hlen hnd hl hlt hc
  subst hpc
  cases fl with
  | nil => simp only [List.length_append, List.length_nil] at hlen; omega
  | cons b fl =>
    have hcl : c < mem.length := by have := hlt c (by simp [hc]); omega
    have hcf : c ∉ b :: fl := fun hm => (List.nodup_append.mp hnd).2.2 c hm c (by simp [hc]) rfl
    obtain ⟨rfl, nx, hn, ht⟩ := hch
    have hbc : c ≠ b := fun he => hcf (by simp [he])
    have hr : rd (mem.set c (some b)) b = some nx := by unfold rd; rw [List.getElem?_set_ne hbc]; exact hn
    have hr' : rd (mem.set c (some b)) c = some (some b) := by unfold rd; simp [hcl]
    refine ⟨⟨⟨mem.set c (some b), nx⟩, .idle, b :: c :: mine.erase c, b :: his⟩, b, ?_, rfl, by simp, by simp⟩
    simp [run, step, tick, full, alloc, wr_lt hcl, hr, hr']

/-- **Violation.**  The main program's `free(c)` has fetched `head_free_`, the handler frees `x`: the store of
`head_free_` drops `x` from the free list, for good. -/
theorem free_loses {n : Nat} {s : St} (h : Reached n s) (hpc : s.pc = .idle) (c x : Nat) (hc : c ∈ s.mine)
    (hx : x ∈ s.his) :
    ∃ s' k, run s [.free c, .tick, .hFree x, .tick, .tick] = some s' ∧ s'.pc = .idle ∧
      x ∉ s'.mine ++ s'.his ∧ available s'.p = some k ∧ k + (s'.mine ++ s'.his).length + 1 = n := by
  obtain ⟨fl, hch, hlen, hnd, hl, hlt⟩ := free_list (inv_reached h)
  obtain ⟨⟨mem, head⟩, pc, mine, his⟩ := s
  simp only at hpc hch hlen hnd hl hlt hx hc
  subst hpc
  have hxl : x < mem.length := by have := hlt x (by simp [hx]); omega
  have hcl : c < mem.length := by have := hlt c (by simp [hc]); omega
  have hxf : x ∉ fl := fun hm => (List.nodup_append.mp hnd).2.2 x hm x (by simp [hx]) rfl
  have hcf : c ∉ fl := fun hm => (List.nodup_append.mp hnd).2.2 c hm c (by simp [hc]) rfl
  have hmh := List.nodup_append.mp (List.nodup_append.mp hnd).2.1
  have hxm : x ∉ mine := fun hm => hmh.2.2 x hm x hx rfl
  have hch' : Chain ((mem.set x head).set c head) (some c) (c :: fl) :=
    ⟨rfl, head, by simp [hcl], Seg.set_ne hcf (Seg.set_ne hxf hch)⟩
  have h1 := List.length_erase_of_mem hx
  have h2 := List.length_erase_of_mem hc
  have h3 : 0 < his.length := List.length_pos_of_mem hx
  have h4 : 0 < mine.length := List.length_pos_of_mem hc
  simp only [List.length_append] at hlen
  refine ⟨⟨⟨(mem.set x head).set c head, some c⟩, .idle, mine.erase c, his.erase x⟩, fl.length + 1, ?_, rfl, ?_, ?_, ?_⟩
  · have hw : wr (mem.set x head) c head = some ((mem.set x head).set c head) := wr_lt (by simpa using hcl)
    simp [run, step, tick, free, controlFree, wr_lt hxl, hw]
  · simp only [List.mem_append, not_or]
    exact ⟨fun hm => hxm (List.mem_of_mem_erase hm), fun hm => (List.Nodup.mem_erase_iff hmh.2.1 |>.mp hm).1 rfl⟩
  · unfold available
    rw [availLoop_spec hch' (by simp; omega)]
    rfl
  · simp only [List.length_append, h1, h2]; omega

/-- Meets the hypotheses of the six: four blocks, the main program and the handler hold one each. -/
example : ∃ s, Reached 4 s ∧ s.pc = .idle ∧ 0 ∈ s.mine ∧ 1 ∈ s.his ∧ s.mine.length + s.his.length + 2 ≤ 4 := by
  refine ⟨⟨⟨[some 1, some 2, some 3, none], some 2⟩, .idle, [0], [1]⟩,
    ⟨[none, none, none, none], ⟨⟨[some 1, some 2, some 3, none], some 0⟩, .idle, [], []⟩,
    [.alloc, .tick, .tick, .tick, .tick, .hAlloc], rfl, by decide +kernel, ?_, by decide +kernel⟩, rfl, by simp, by simp, by simp⟩
  simp [legal, allowed, step, tick, full, rd]

/-- And of the first: two blocks, of which the handler holds one. -/
example : ∃ s, Reached 2 s ∧ s.pc = .idle ∧ s.mine.length + s.his.length + 1 = 2 :=
  ⟨⟨⟨[some 1, none], some 1⟩, .idle, [], [0]⟩, ⟨[none, none], ⟨⟨[some 1, none], some 0⟩, .idle, [], []⟩,
    [.hAlloc], rfl, by decide +kernel, by simp [legal, allowed], by decide +kernel⟩, rfl, rfl⟩

end Verif.Pool.Handler
