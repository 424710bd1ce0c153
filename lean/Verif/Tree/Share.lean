import Mathlib.Data.Rat.Defs
import Mathlib.Algebra.Field.Rat
import Mathlib.Logic.Function.Basic
import Mathlib.Logic.Relation
import Mathlib.Algebra.BigOperators.Group.List.Basic

/-!
# Compound assignment to shared expressions

Code: /repo/core/include/bertini2/function_tree/operators/arithmetic.hpp 119-152 (`SumOperator::operator+=`, `operator-=`,
`AddOperand`), 1100-1106, 1175-1181, 1243-1247, 1302-1328, 1345-1371 (`operator+=`, `-=`, `*=`, `/=` on pointers to nodes and on
pointers to products).

Simplified: values are rational numbers and a division by zero gives zero; only numbers, variables, sums, products and integer
powers, with exponents of any size; the values cached in nodes are not modelled (C12), evaluation is that after `Reset`.
-/

namespace B2.Tree.Share

/-- A node; operands are addresses. In a sum the flag says whether the operand is added or subtracted, in a product whether it is
multiplied or divided by. -/
inductive Nd where
  | num (q : ℚ)
  | var (k : ℕ)
  | sum (l : List (Bool × ℕ))
  | mul (l : List (Bool × ℕ))
  | ipow (b : ℕ) (n : ℤ)

/-- The operands. -/
def Nd.kids : Nd → List ℕ
  | .num _ => []
  | .var _ => []
  | .sum l => l.map Prod.snd
  | .mul l => l.map Prod.snd
  | .ipow b _ => [b]

/-- The nodes in memory. -/
abbrev Heap := ℕ → Option Nd

/-- Values of all elements. -/
def all {α β : Type} (f : α → Option β) : List α → Option (List β)
  | [] => some []
  | a :: l => (f a).bind fun b => (all f l).map (b :: ·)

/-- One more term, `SumOperator::FreshEval`. -/
def addTerm (x : ℚ) (p : Bool × ℚ) : ℚ := if p.1 then x + p.2 else x - p.2

/-- One more factor, `MultOperator::FreshEval`. -/
def mulTerm (x : ℚ) (p : Bool × ℚ) : ℚ := if p.1 then x * p.2 else x / p.2

/-- Value of a node from the values of others. -/
def value (x : ℕ → ℚ) (f : ℕ → Option ℚ) : Nd → Option ℚ
  | .num q => some q
  | .var k => some (x k)
  | .sum l => (all (fun p => (f p.2).map fun v => (p.1, v)) l).map fun vs => vs.foldl addTerm 0
  | .mul l => (all (fun p => (f p.2).map fun v => (p.1, v)) l).map fun vs => vs.foldl mulTerm 1
  | .ipow b n => (f b).map fun v => v ^ n

/-- Evaluation at the point `x`, recursion depth at most `n`. -/
def eval (x : ℕ → ℚ) (h : Heap) : ℕ → ℕ → Option ℚ
  | 0, _ => none
  | n + 1, i => (h i).bind (value x (eval x h n))

/-- `lhs += rhs` and `lhs -= rhs` on pointers to nodes, arithmetic.hpp 1100-1106, 1175-1181: a new sum at the address `p`, to which
`lhs` points afterwards. -/
def addAssign (h : Heap) (p lhs rhs : ℕ) (plus : Bool) : Heap := Function.update h p (some (.sum [(true, lhs), (plus, rhs)]))

/-- The test of `operator*=`, arithmetic.hpp 1306-1313: powers of the same node with nonnegative exponents. -/
def merge : Option Nd → Option Nd → Option Nd
  | some (.ipow b m), some (.ipow c n) => if b = c ∧ 0 ≤ m ∧ 0 ≤ n then some (.ipow b (m + n)) else none
  | _, _ => none

/-- `lhs *= rhs` on pointers to nodes, arithmetic.hpp 1302-1328. -/
def mulAssign (h : Heap) (p lhs rhs : ℕ) : Heap :=
  Function.update h p (some ((merge (h lhs) (h rhs)).getD (.mul [(true, lhs), (true, rhs)])))

/-- `lhs /= rhs` on pointers to nodes, arithmetic.hpp 1345-1365. -/
def divAssign (h : Heap) (p lhs rhs : ℕ) : Heap := Function.update h p (some (.mul [(true, lhs), (false, rhs)]))

/-- `MultOperator::AddOperand`, `SumOperator::AddOperand`, arithmetic.hpp 138-152: the node itself is changed. -/
def Nd.push (b : Bool) (rhs : ℕ) : Nd → Nd
  | .sum l => .sum (l ++ [(b, rhs)])
  | .mul l => .mul (l ++ [(b, rhs)])
  | nd => nd

/-- `lhs *= rhs` and `lhs /= rhs` on pointers to products, arithmetic.hpp 1243-1247, 1367-1371, and `*lhs += rhs`, `*lhs -= rhs` on
sums, 119-129. -/
def pushAssign (h : Heap) (lhs rhs : ℕ) (b : Bool) : Heap := Function.update h lhs ((h lhs).map (Nd.push b rhs))

end B2.Tree.Share
