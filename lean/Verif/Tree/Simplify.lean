import Verif.Tree.Syntax

/-!
# `ReduceDepth`, `EliminateOnes`, `EliminateZeros`, `Simplify`

`cur` holds the values the variables have at the time of the call: the elimination passes test
`Eval<dbl>()`. Caches are assumed fresh (evaluation is `eval cur`); a tree without sharing is
rewritten by these functions exactly as the C++ rewrites it in place.
-/

namespace B2

open Classical

/-- Splice the operands of a nested operator into its parent:
`new_ops.push_back(!(child ^ mine))`, `arithmetic.cpp:111-112` and `663-664`. -/
def splice (mine : Bool) : Ops → Ops
  | .nil => .nil
  | .cons f n r => .cons (!(f ^^ mine)) n (splice mine r)

/-- `SumOperator::ReduceSubSums`, `arithmetic.cpp:97-125`; also `MultOperator::ReduceSubMults`
below. Returns the new operands and the reported count. -/
def sumReduceSubSums : Ops → Ops × ℕ
  | .nil => (.nil, 0)
  | .cons s (.sum inner) r =>
      ((splice s inner).append (sumReduceSubSums r).1, inner.length + (sumReduceSubSums r).2)
  | .cons s n r => (.cons s n (sumReduceSubSums r).1, (sumReduceSubSums r).2)

/-- `SumOperator::ReduceSubMults`, `arithmetic.cpp:128-154`: a product with a single operand,
multiplied, is replaced by the operand. -/
def sumReduceSubMults : Ops → Ops × ℕ
  | .nil => (.nil, 0)
  | .cons s (.mult (.cons true m .nil)) r =>
      (.cons s m (sumReduceSubMults r).1, 1 + (sumReduceSubMults r).2)
  | .cons s n r => (.cons s n (sumReduceSubMults r).1, (sumReduceSubMults r).2)

/-- `MultOperator::ReduceSubSums`, `arithmetic.cpp:615-645`: a sum with a single operand is
replaced by the operand or its negation. -/
def multReduceSubSums : Ops → Ops × ℕ
  | .nil => (.nil, 0)
  | .cons m (.sum (.cons s x .nil)) r =>
      (.cons m (if s then x else .neg x) (multReduceSubSums r).1, 1 + (multReduceSubSums r).2)
  | .cons m n r => (.cons m n (multReduceSubSums r).1, (multReduceSubSums r).2)

/-- `MultOperator::ReduceSubMults`, `arithmetic.cpp:647-677`. -/
def multReduceSubMults : Ops → Ops × ℕ
  | .nil => (.nil, 0)
  | .cons m (.mult inner) r =>
      ((splice m inner).append (multReduceSubMults r).1, inner.length + (multReduceSubMults r).2)
  | .cons m n r => (.cons m n (multReduceSubMults r).1, (multReduceSubMults r).2)

/-- Two passes in the given order; the counts are added. `ReduceSubSums() + ReduceSubMults()`
(`arithmetic.cpp:159`, `682`) leaves the order of the two calls unspecified in C++, so it is a
parameter. -/
def twoPasses (sumsFirst : Bool) (a b : Ops → Ops × ℕ) (ops : Ops) : Ops × ℕ :=
  if sumsFirst then ((b (a ops).1).1, (a ops).2 + (b (a ops).1).2)
  else ((a (b ops).1).1, (a (b ops).1).2 + (b ops).2)

mutual
/-- Termination measure: one per node and per operand slot, one more for a sum. -/
def Node.weight : Node → ℕ
  | .int _ | .float _ _ | .rat _ _ | .special _ | .var _ => 1
  | .sum ops => 2 + ops.weight
  | .mult ops => 1 + ops.weight
  | .pow b e => 1 + b.weight + e.weight
  | .neg n | .ipow n _ | .sqrt n | .exp n | .log n | .sin n | .cos n | .tan n
  | .asin n | .acos n | .atan n | .fn n => 1 + n.weight
/-- Weight of an operand list. -/
def Ops.weight : Ops → ℕ
  | .nil => 0
  | .cons _ n r => 1 + n.weight + r.weight
end

@[simp] theorem weight_append (a b : Ops) : (a.append b).weight = a.weight + b.weight := by
  induction a using Ops.rec (motive_1 := fun _ => True) with
  | nil => simp [Ops.append, Ops.weight]
  | cons f n r _ ih => simp [Ops.append, Ops.weight, ih]; omega
  | _ => trivial

@[simp] theorem weight_splice (m : Bool) (a : Ops) : (splice m a).weight = a.weight := by
  induction a using Ops.rec (motive_1 := fun _ => True) with
  | nil => simp [splice]
  | cons f n r _ ih => simp [splice, Ops.weight, ih]
  | _ => trivial

theorem length_le_weight (a : Ops) : a.length ≤ a.weight := by
  induction a using Ops.rec (motive_1 := fun _ => True) with
  | nil => simp [Ops.length]
  | cons f n r _ ih => simp only [Ops.length, Ops.weight]; omega
  | _ => trivial

theorem weight_sumReduceSubSums (ops : Ops) : (sumReduceSubSums ops).1.weight ≤ ops.weight := by
  fun_induction sumReduceSubSums ops <;> simp_all [Ops.weight, Node.weight] <;> omega

theorem weight_sumReduceSubMults (ops : Ops) : (sumReduceSubMults ops).1.weight ≤ ops.weight := by
  fun_induction sumReduceSubMults ops <;> simp_all [Ops.weight, Node.weight] <;> omega

theorem weight_multReduceSubSums (ops : Ops) : (multReduceSubSums ops).1.weight ≤ ops.weight := by
  fun_induction multReduceSubSums ops <;> simp only [Ops.weight, Node.weight] <;>
    (try split_ifs) <;> (try simp only [Node.weight]) <;> omega

theorem weight_multReduceSubMults (ops : Ops) :
    (multReduceSubMults ops).1.weight ≤ ops.weight := by
  fun_induction multReduceSubMults ops <;> simp_all [Ops.weight, Node.weight] <;> omega

theorem weight_twoPasses (o : Bool) (a b : Ops → Ops × ℕ)
    (ha : ∀ x, (a x).1.weight ≤ x.weight) (hb : ∀ x, (b x).1.weight ≤ x.weight) (ops : Ops) :
    (twoPasses o a b ops).1.weight ≤ ops.weight := by
  unfold twoPasses
  split_ifs
  · exact (hb _).trans (ha _)
  · exact (ha _).trans (hb _)

theorem weight_sumPasses (o : Bool) (ops : Ops) :
    (twoPasses o sumReduceSubSums sumReduceSubMults ops).1.weight ≤ ops.weight :=
  weight_twoPasses o _ _ weight_sumReduceSubSums weight_sumReduceSubMults ops

theorem weight_multPasses (o : Bool) (ops : Ops) :
    (twoPasses o multReduceSubSums multReduceSubMults ops).1.weight ≤ ops.weight :=
  weight_twoPasses o _ _ weight_multReduceSubSums weight_multReduceSubMults ops

mutual
/-- `ReduceDepth()`: sum `arithmetic.cpp:157-165`, product `680-688` (reduce this node, then
recurse into the *new* operands); every other node returns 0 and changes nothing
(`node.cpp:64-67`). Returns the rewritten node and the reported count. -/
def reduceDepth (o : Bool) : Node → Node × ℕ
  | .sum ops =>
      let p := twoPasses o sumReduceSubSums sumReduceSubMults ops
      let q := reduceOps o p.1
      (.sum q.1, p.2 + q.2)
  | .mult ops =>
      let p := twoPasses o multReduceSubSums multReduceSubMults ops
      let q := reduceOps o p.1
      (.mult q.1, p.2 + q.2)
  | n => (n, 0)
termination_by n => n.weight
decreasing_by
  · have := weight_sumPasses o ops
    simp only [Node.weight]; omega
  · have := weight_multPasses o ops
    simp only [Node.weight]; omega
/-- Recurse into each operand. -/
def reduceOps (o : Bool) : Ops → Ops × ℕ
  | .nil => (.nil, 0)
  | .cons f n r =>
      let p := reduceDepth o n
      let q := reduceOps o r
      (.cons f p.1 q.1, p.2 + q.2)
termination_by ops => ops.weight
decreasing_by
  · simp only [Ops.weight]; omega
  · simp only [Ops.weight]; omega
end

/-- Drop the operands whose current value is `x`; count them
(`arithmetic.cpp:50-66` with 0, `574-592` with 1). -/
noncomputable def dropValue (cur : Env) (x : ℂ) : Ops → Ops × ℕ
  | .nil => (.nil, 0)
  | .cons f n r =>
      if eval cur n = x then ((dropValue cur x r).1, 1 + (dropValue cur x r).2)
      else (.cons f n (dropValue cur x r).1, (dropValue cur x r).2)

/-- The compression step of `SumOperator::EliminateZeros`, `arithmetic.cpp:47-77`; if every
operand is dropped a single `Integer 0` is kept and the count decremented. -/
noncomputable def sumDropZeros (cur : Env) (ops : Ops) : Ops × ℕ :=
  if 1 < ops.length then
    match dropValue cur 0 ops with
    | (.nil, k) => (.cons true (.int 0) .nil, k - 1)
    | p => p
  else (ops, 0)

/-- The compression step of `MultOperator::EliminateOnes`, `arithmetic.cpp:571-605`; if every
operand is dropped the first one is kept and the count decremented. -/
noncomputable def multDropOnes (cur : Env) : Ops → Ops × ℕ
  | .nil => (.nil, 0)
  | .cons f n r =>
      if 1 < (Ops.cons f n r).length then
        match dropValue cur 1 (.cons f n r) with
        | (.nil, k) => (.cons f n .nil, k - 1)
        | p => p
      else (.cons f n r, 0)

/-- Some operand has current value 0 (`arithmetic.cpp:537-545`). -/
def hasZero (cur : Env) : Ops → Prop
  | .nil => False
  | .cons _ n r => eval cur n = 0 ∨ hasZero cur r

theorem weight_dropValue (cur : Env) (x : ℂ) (ops : Ops) :
    (dropValue cur x ops).1.weight + (dropValue cur x ops).2 ≤ ops.weight := by
  induction ops using Ops.rec (motive_1 := fun _ => True) with
  | nil => simp [dropValue]
  | cons f n r _ ih => simp only [dropValue]; split_ifs <;> simp only [Ops.weight] <;> omega
  | _ => trivial

theorem dropValue_count_le (cur : Env) (x : ℂ) (ops : Ops) :
    (dropValue cur x ops).2 ≤ ops.length := by
  induction ops using Ops.rec (motive_1 := fun _ => True) with
  | nil => simp [dropValue]
  | cons f n r _ ih => simp only [dropValue]; split_ifs <;> simp only [Ops.length] <;> omega
  | _ => trivial

theorem Node.weight_pos (n : Node) : 0 < n.weight := by
  cases n <;> simp only [Node.weight] <;> omega

theorem two_length_le_weight (a : Ops) : 2 * a.length ≤ a.weight := by
  induction a using Ops.rec (motive_1 := fun _ => True) with
  | nil => simp [Ops.length]
  | cons f n r _ ih =>
    have := n.weight_pos
    simp only [Ops.length, Ops.weight]; omega
  | _ => trivial

theorem weight_sumDropZeros (cur : Env) (ops : Ops) :
    (sumDropZeros cur ops).1.weight + (sumDropZeros cur ops).2 ≤ ops.weight := by
  unfold sumDropZeros
  split_ifs with h
  · have h1 := weight_dropValue cur 0 ops
    have h2 := dropValue_count_le cur 0 ops
    have h3 := two_length_le_weight ops
    split
    · rename_i k hk
      simp only [hk] at h1 h2
      simp only [Ops.weight, Node.weight]
      omega
    · exact h1
  · simp

theorem weight_multDropOnes (cur : Env) (ops : Ops) :
    (multDropOnes cur ops).1.weight + (multDropOnes cur ops).2 ≤ ops.weight := by
  cases ops with
  | nil => simp [multDropOnes]
  | cons f n r =>
    simp only [multDropOnes]
    split_ifs with h
    · have h1 := weight_dropValue cur 1 (.cons f n r)
      have h2 := dropValue_count_le cur 1 (.cons f n r)
      split
      · rename_i k hk
        simp only [hk] at h1 h2
        have h3 := two_length_le_weight r
        simp only [Ops.weight, Ops.length] at *
        omega
      · exact h1
    · simp

mutual
/-- `EliminateZeros()`: sum `arithmetic.cpp:42-84`; product `530-561` (a zero operand, even a
divided one, collapses the product to `[Integer 0]` and reports `size-1`); all other nodes
return 0 unchanged. -/
noncomputable def elimZeros (cur : Env) : Node → Node × ℕ
  | .sum ops =>
      let p := sumDropZeros cur ops
      let q := elimZerosOps cur p.1
      (.sum q.1, p.2 + q.2)
  | .mult ops =>
      if hasZero cur ops then (.mult (.cons true (.int 0) .nil), ops.length - 1)
      else
        let q := elimZerosOps cur ops
        (.mult q.1, q.2)
  | n => (n, 0)
termination_by n => n.weight
decreasing_by
  · have := weight_sumDropZeros cur ops
    simp only [Node.weight]; omega
  · simp only [Node.weight]; omega
/-- Recurse into each operand. -/
noncomputable def elimZerosOps (cur : Env) : Ops → Ops × ℕ
  | .nil => (.nil, 0)
  | .cons f n r =>
      let p := elimZeros cur n
      let q := elimZerosOps cur r
      (.cons f p.1 q.1, p.2 + q.2)
termination_by ops => ops.weight
decreasing_by
  · simp only [Ops.weight]; omega
  · simp only [Ops.weight]; omega
end

mutual
/-- `EliminateOnes()`: sum `arithmetic.cpp:88-95` (recurse only); product `567-612`; all other
nodes return 0 unchanged. -/
noncomputable def elimOnes (cur : Env) : Node → Node × ℕ
  | .sum ops =>
      let q := elimOnesOps cur ops
      (.sum q.1, q.2)
  | .mult ops =>
      let p := multDropOnes cur ops
      let q := elimOnesOps cur p.1
      (.mult q.1, p.2 + q.2)
  | n => (n, 0)
termination_by n => n.weight
decreasing_by
  · simp only [Node.weight]; omega
  · have := weight_multDropOnes cur ops
    simp only [Node.weight]; omega
/-- Recurse into each operand. -/
noncomputable def elimOnesOps (cur : Env) : Ops → Ops × ℕ
  | .nil => (.nil, 0)
  | .cons f n r =>
      let p := elimOnes cur n
      let q := elimOnesOps cur r
      (.cons f p.1 q.1, p.2 + q.2)
termination_by ops => ops.weight
decreasing_by
  · simp only [Ops.weight]; omega
  · simp only [Ops.weight]; omega
end

/-- One round of `Simplify`, `simplify.cpp:39-41` and `47-49`: the new tree and the three
counts. -/
noncomputable def simplifyRound (o : Bool) (cur : Env) (n : Node) : Node × (ℕ × ℕ × ℕ) :=
  let a := reduceDepth o n
  let b := elimOnes cur a.1
  let c := elimZeros cur b.1
  (c.1, (a.2, b.2, c.2))

/-- The tree after `k` rounds. -/
noncomputable def rounds (o : Bool) (cur : Env) (n : Node) : ℕ → Node
  | 0 => n
  | k + 1 => (simplifyRound o cur (rounds o cur n k)).1

/-- `Simplify(n)`, `simplify.cpp:33-52`, returns with tree `n'` and return value `k`: the first
`k` rounds each reported a change, round number `k` (counting from 0) reported none, and `n'`
is the tree after it. -/
def SimplifiesTo (o : Bool) (cur : Env) (n : Node) (k : ℕ) (n' : Node) : Prop :=
  (∀ j < k, (simplifyRound o cur (rounds o cur n j)).2 ≠ (0, 0, 0)) ∧
  (simplifyRound o cur (rounds o cur n k)).2 = (0, 0, 0) ∧
  n' = rounds o cur n (k + 1)

end B2
