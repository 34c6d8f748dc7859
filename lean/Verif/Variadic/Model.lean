/-!
# Model of the parameter-pack tools

Source: `src/estd/internal/variadic/{type_sequence,integer_sequence,selector,visitor}.h`,
`src/estd/internal/variadic.h` and `src/estd/internal/utility/sequence.h`.

A parameter pack is a `List`.  The types in a pack are elements of some type `τ` with decidable equality
(C++ type identity); a program that does not compile is `none`.  Template recursion is recursion on the list.
A functor handed to `visit` may keep state and is therefore a function `σ → Nat → τ → Bool × σ`: it sees the
index and the type carried by the tag object, and says whether to stop.
-/

namespace Verif.Variadic

variable {τ σ : Type}

/-- `get_type_at_index`, internal/variadic/type_sequence.h:9-19 (and `get_index_finder`,
internal/variadic/integer_sequence.h:20-30, the same recursion over values).  Past the end there is no matching
specialisation. -/
def typeAt : Nat → List τ → Option τ
  | _, [] => none
  | 0, t :: _ => some t
  | pos + 1, _ :: ts => typeAt pos ts

/-- `detail_get_index_of_type`, internal/variadic/type_sequence.h:24-37.  First component: the inherited `value`;
second: the member `index`, which only a matching specialisation declares (the one nearest the front hides those
further back). -/
def detailIndex [DecidableEq τ] (m : τ) : List τ → Nat × Option Nat
  | [] => (0, none)
  | t :: ts =>
    if t = m then ((detailIndex m ts).1 + 1, some ts.length)
    else detailIndex m ts

/-- `first_index_of_type`, internal/variadic/type_sequence.h:39-46: `(matches, index)`; without a match
`detail::index` does not exist. -/
def firstIndex [DecidableEq τ] (m : τ) (ts : List τ) : Option (Nat × Nat) :=
  match (detailIndex m ts).2 with
  | none => none
  | some i => some ((detailIndex m ts).1, ts.length - 1 - i)

/-- `single_index_of_type`, internal/variadic/type_sequence.h:48-52: the static assertion wants exactly one
match. -/
def singleIndex [DecidableEq τ] (m : τ) (ts : List τ) : Option Nat :=
  match firstIndex m ts with
  | none => none
  | some (n, i) => if n = 1 then some i else none

/-- `prepend_if`, `value_prepend_if`, internal/variadic/type_sequence.h:85-93. -/
def prependIf {α : Type} (b : Bool) (seq : List α) (x : α) : List α :=
  if b then x :: seq else seq

/-- Members of `detail::selector`, internal/variadic/selector.h:110-154. -/
structure Selected (τ : Type) where
  /-- `indices` -/
  indices : List Nat
  /-- `types` -/
  types : List τ
  /-- `projected` -/
  projected : List τ
  /-- `selected`: one `visitor_index` (index, projected type) per item -/
  selected : List (Nat × τ)

/-- `detail::selector<size, Eval, Types...>`, internal/variadic/selector.h:110-154.  `eval t i` is the `value` of
`Eval::evaluator<T, index>`; `proj t i` is its `type` when the evaluator derives from `projected_result_tag` and
`t` itself otherwise (lines 132-134). -/
def selector (size : Nat) (eval : τ → Nat → Bool) (proj : τ → Nat → τ) : List τ → Selected τ
  | [] => ⟨[], [], [], []⟩
  | t :: ts =>
    let upward := selector size eval proj ts
    let index := (size - 1) - ts.length
    { indices := if eval t index then index :: upward.indices else upward.indices
      types := prependIf (eval t index) upward.types t
      projected := prependIf (eval t index) upward.projected (proj t index)
      selected := prependIf (eval t index) upward.selected (index, proj t index) }

/-- `v2::selector`, internal/variadic/fwd.h:70-71: the size is the length of the pack. -/
def select (eval : τ → Nat → Bool) (proj : τ → Nat → τ) (ts : List τ) : Selected τ :=
  selector ts.length eval proj ts

/-- `selector::all`, internal/variadic/selector.h:153; not a member for the empty pack (lines 110-118). -/
def selectAll (eval : τ → Nat → Bool) (proj : τ → Nat → τ) : List τ → Option Bool
  | [] => none
  | t :: ts => some ((select eval proj (t :: ts)).selected.length == ts.length + 1)

/-- `types::where`, internal/variadic/type_sequence.h:118-119, with an evaluator that does not project. -/
def typesWhere (eval : τ → Nat → Bool) (ts : List τ) : List τ := (select eval (fun t _ => t) ts).types

/-- `detail::value_selector`, internal/variadic/selector.h:157-182; `values::where`,
internal/variadic/integer_sequence.h:100-101, is this with `size` the length. -/
def valueSelector {α : Type} (size : Nat) (eval : α → Nat → Bool) : List α → List α
  | [] => []
  | v :: vs => prependIf (eval v ((size - 1) - vs.length)) (valueSelector size eval vs) v

/-- `values::contains`, internal/variadic/integer_sequence.h:94-107 with `is_same_value_selector`,
internal/variadic/selector.h:44-49. -/
def valuesContains {α : Type} [DecidableEq α] (v : α) (vs : List α) : Bool :=
  (valueSelector vs.length (fun j _ => decide (v = j)) vs).length == 1

/-- `is_same_values_selector`, internal/variadic/selector.h:57-62: keep what the other sequence contains. -/
def whereIn {α : Type} [DecidableEq α] (other vs : List α) : List α :=
  valueSelector vs.length (fun j _ => valuesContains j other) vs

/-- `select_type`/`contains_type`, internal/variadic.h:93-98. -/
def containsType [DecidableEq τ] (t : τ) (ts : List τ) : Bool :=
  !(select (fun u _ => decide (u = t)) (fun u _ => u) ts).selected.isEmpty

/-- `conjunction`, internal/raw/type_traits.h:239-244, on the `value`s of its arguments. -/
def conjunction : List Bool → Bool
  | [] => true
  | [b] => b
  | b :: b' :: bs => if b then conjunction (b' :: bs) else b

/-- `disjunction`, internal/raw/type_traits.h:246-250. -/
def disjunction : List Bool → Bool
  | [] => false
  | [b] => b
  | b :: b' :: bs => if b then b else disjunction (b' :: bs)

/-- `are_same`, internal/variadic.h:89-90: the projector keeps every item (`projected_result` has `value = true`
by default, fwd.h:115-116) and turns it into `is_same<T_j, T>`, represented here by its truth value. -/
def areSame [DecidableEq τ] (t : τ) (ts : List τ) : Bool :=
  conjunction ((select (fun _ _ => true) (fun (u : τ ⊕ Bool) _ =>
      match u with
      | .inl u => .inr (decide (u = t))
      | .inr b => .inr b) (ts.map Sum.inl)).projected.map (fun
      | .inl _ => false
      | .inr b => b))

/-- `are_trivial`, internal/variadic.h:74-84. -/
def areTrivial (trivial : τ → Bool) : List τ → Bool
  | [] => true
  | t :: ts => trivial t && areTrivial trivial ts

/-- `largest_type`, internal/variadic.h:55-70; there is no largest type of an empty pack. -/
def largestType (sizeOf : τ → Nat) : List τ → Option τ
  | [] => none
  | [t] => some t
  | t :: u :: ts => largestType sizeOf ((if sizeOf u ≤ sizeOf t then t else u) :: ts)
termination_by ts => ts.length

/-- `make_integer_sequence`, internal/utility/sequence.h:10-14. -/
def makeSeq : Nat → List Nat → List Nat
  | 0, is => is
  | n + 1, is => makeSeq n (n :: is)

/-- `make_reverse_integer_sequence`, internal/utility/sequence.h:23-27. -/
def makeRevSeq (nn : Nat) : Nat → List Nat → List Nat
  | 0, is => is
  | n + 1, is => makeRevSeq nn n ((nn - (n + 1)) :: is)

/-- `indices_reverser`, internal/variadic.h:18-35. -/
def reverser : List Nat → List Nat
  | [] => []
  | i :: is => reverser is ++ [i]

/-- `type_visitor::visit<I>`, internal/variadic/visitor.h:281-300.  `n` counts the instantiations left (`size - I`);
the type is looked up with `type_at_index`. -/
def visitFrom (f : σ → Nat → τ → Bool × σ) (ts : List τ) : Nat → Nat → σ → Option (Int × σ)
  | 0, _, s => some (-1, s)
  | n + 1, i, s =>
    match typeAt i ts with
    | none => none
    | some t =>
      match f s i t with
      | (true, s') => some (i, s')
      | (false, s') => visitFrom f ts n (i + 1) s'

/-- `type_visitor::visit`, internal/variadic/visitor.h:281-300, and `value_visitor::visit`, 257-271, entered with
`I = 0`. -/
def visit (f : σ → Nat → τ → Bool × σ) (ts : List τ) (s : σ) : Option (Int × σ) :=
  visitFrom f ts ts.length 0 s

/-- `type_visitor::visit_reverse<I>`, internal/variadic/visitor.h:302-316. -/
def visitReverseFrom (f : σ → Nat → τ → Bool × σ) (ts : List τ) : Nat → σ → Option (Int × σ)
  | 0, s => some (-1, s)
  | i + 1, s =>
    match typeAt i ts with
    | none => none
    | some t =>
      match f s i t with
      | (true, s') => some (i, s')
      | (false, s') => visitReverseFrom f ts i s'

/-- `visit_reverse` with its default `I = size`. -/
def visitReverse (f : σ → Nat → τ → Bool × σ) (ts : List τ) (s : σ) : Option (Int × σ) :=
  visitReverseFrom f ts ts.length s

/-- `functor_mover::invoke`, internal/variadic/visitor.h:112-132: hands out positions counted from the back. -/
def moverInvoke (f : σ → Nat → τ → Bool × σ) : List τ → σ → Bool × σ
  | [], s => (false, s)
  | t :: ts, s =>
    match f s ts.length t with
    | (true, s') => (true, s')
    | (false, s') => moverInvoke f ts s'

/-- `forward_invoker::operator()`, internal/variadic/visitor.h:139-148; the state carries `*selected`. -/
def forwardCall (size : Nat) (f : σ → Nat → τ → Bool × σ) (s : σ × Int) (i : Nat) (t : τ) : Bool × (σ × Int) :=
  match f s.1 (size - (i + 1)) t with
  | (false, s') => (false, (s', s.2))
  | (true, s') => (true, (s', ((size - (i + 1) : Nat) : Int)))

/-- `forward_invoker::invoke`, internal/variadic/visitor.h:150-159. -/
def forwardInvoke (f : σ → Nat → τ → Bool × σ) (ts : List τ) (s : σ) : Int × σ :=
  let r := (moverInvoke (forwardCall ts.length f) ts (s, -1)).2
  (r.2, r.1)

end Verif.Variadic
