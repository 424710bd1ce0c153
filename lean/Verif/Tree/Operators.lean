import Verif.Tree.Syntax

/-!
# The overloaded operators that build expressions (`arithmetic.hpp:350`, `1041-1428`)
-/

namespace B2

/-- Largest value of the C++ `int` (32 bit) that holds the exponent of an integer power,
`arithmetic.hpp:797`. -/
def intMax : ℤ := 2147483647

/-- `operator+`, `operator+=`: `SumOperator::Make(lhs,rhs)`, `arithmetic.hpp:1103-1160`. -/
def mkAdd (a b : Node) : Node := .sum (.cons true a (.cons true b .nil))

/-- `operator-`, `operator-=`: `SumOperator::Make(lhs,true,rhs,false)`,
`arithmetic.hpp:1175-1236`. -/
def mkSub (a b : Node) : Node := .sum (.cons true a (.cons false b .nil))

/-- Unary `operator-`: `NegateOperator::Make`, `arithmetic.hpp:350-353`. -/
def mkNeg (a : Node) : Node := .neg a

/-- `operator*=`, `operator*` on nodes, `arithmetic.hpp:1302-1335`: two integer powers with the
same operand *pointer* (`same`) and non-negative exponents are merged; the exponents are added
as `int`, and `none` is the undefined behaviour of a signed overflow. Otherwise a product node. -/
def mkMul (same : Node → Node → Bool) (a b : Node) : Option Node :=
  match a, b with
  | .ipow x j, .ipow y k =>
      if same x y ∧ 0 ≤ j ∧ 0 ≤ k then
        if j + k ≤ intMax then some (.ipow x (j + k)) else none
      else some (.mult (.cons true a (.cons true b .nil)))
  | _, _ => some (.mult (.cons true a (.cons true b .nil)))

/-- `operator/=`, `operator/`: `MultOperator::Make(lhs,true,rhs,false)`,
`arithmetic.hpp:1346-1428`. -/
def mkDiv (a b : Node) : Node := .mult (.cons true a (.cons false b .nil))

/-- `pow(base, int)`: `IntegerPowerOperator::Make`, `arithmetic.hpp:1060-1063`. -/
def mkPow (a : Node) (k : ℤ) : Node := .ipow a k

/-- `pow(base, node)`: `PowerOperator::Make`, `arithmetic.hpp:1055-1058`. -/
def mkPowNode (a e : Node) : Node := .pow a e

/-- A C++ expression a user writes with the operators, on already built nodes. Mixed operands
(`int`, `mpz_int`, `mpq_rational`, `mpfr_float`, ...) are wrapped in a constant node first, so
they are `leaf`s; multiplication by such a constant calls `MultOperator::Make` directly
(`mulConst`). -/
inductive UExpr where
  | leaf (n : Node)
  | add (a b : UExpr)
  | sub (a b : UExpr)
  | mul (a b : UExpr)
  | mulConst (a b : UExpr)
  | div (a b : UExpr)
  | neg (a : UExpr)
  | pow (a : UExpr) (k : ℤ)
  | powNode (a e : UExpr)

/-- The node the operators build; `none` if an exponent overflows. -/
def UExpr.build (same : Node → Node → Bool) : UExpr → Option Node
  | .leaf n => some n
  | .add a b => do return mkAdd (← a.build same) (← b.build same)
  | .sub a b => do return mkSub (← a.build same) (← b.build same)
  | .mul a b => do mkMul same (← a.build same) (← b.build same)
  | .mulConst a b => do
      return .mult (.cons true (← a.build same) (.cons true (← b.build same) .nil))
  | .div a b => do return mkDiv (← a.build same) (← b.build same)
  | .neg a => do return mkNeg (← a.build same)
  | .pow a k => do return mkPow (← a.build same) k
  | .powNode a e => do return mkPowNode (← a.build same) (← e.build same)

end B2
