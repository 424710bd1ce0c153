import Verif.Tree.Syntax
import Mathlib.Algebra.Order.Round

/-!
# `Degree`, `MultiDegree`, `IsPolynomial`, `IsHomogeneous`, `Homogenize`

`cur` holds the values the variables have at the time of the call: `PowerOperator` evaluates
its exponent with `Eval<dbl>()` (`arithmetic.cpp:973`).
-/

namespace B2

open Classical

/-- `10*std::numeric_limits<double>::epsilon()`. -/
noncomputable def tol : ℝ := 10 * 2 ^ (-52 : ℤ)

/-- `exp_is_int`, `arithmetic.cpp:974-978`: imaginary part and distance of the real part to
the nearest integer below the tolerance. -/
def NearInt (z : ℂ) : Prop := |z.im| < tol ∧ |z.re - (round z.re : ℤ)| < tol

/-- The decision of `PowerOperator::Degree(v)`, `arithmetic.cpp:965-1009`, from the degrees of
base and exponent and the current value of the exponent. -/
noncomputable def powDeg (baseDeg expDeg : ℤ) (val : ℂ) : ℤ :=
  if expDeg = 0 then
    if NearInt val then
      if ‖val - 0‖ < tol then 0
      else if val.re < 0 then -1
      else if baseDeg < 0 then -1
      else baseDeg * round val.re
    else if baseDeg = 0 then 0 else -1
  else -1

/-- `Degree` of a transcendental function: 0 on constants, otherwise -1
(`trig.cpp:33-43`, `arithmetic.cpp:1219-1229`, `1300-1310`, `1375-1385`). -/
def transDeg (d : ℤ) : ℤ := if d = 0 then 0 else -1

mutual
/-- `Degree(v)` for a non-null variable: numbers `symbols/number.hpp:84` (0); variable
`variable.cpp:109-121`; sum `arithmetic.cpp:217-230`; product `763-791`; unary default
`operator.cpp:53-56` (negation); power `965-1009`; integer power `1166-1174`; `sqrt`, `exp`,
`log` and trigonometric functions: `transDeg`; `Handle::Degree` in `roots/function.cpp`. -/
noncomputable def degV (cur : Env) (v : Var) : Node → ℤ
  | .int _ | .float _ _ | .rat _ _ | .special _ => 0
  | .var w => if w = v then 1 else 0
  | .sum ops => degVSum cur v ops
  | .mult ops => degVMult cur v ops
  | .neg n | .fn n => degV cur v n
  | .pow b e => powDeg (degV cur v b) (degV cur v e) (eval cur e)
  | .ipow n k => if degV cur v n < 0 then degV cur v n else k * degV cur v n
  | .sqrt n | .exp n | .log n | .sin n | .cos n | .tan n | .asin n | .acos n | .atan n =>
      transDeg (degV cur v n)
/-- The loop of `SumOperator::Degree(v)`, `arithmetic.cpp:217-230`: the first negative degree
is returned, otherwise the maximum (starting from 0). -/
noncomputable def degVSum (cur : Env) (v : Var) : Ops → ℤ
  | .nil => 0
  | .cons _ n r =>
      if degV cur v n < 0 then degV cur v n
      else if degVSum cur v r < 0 then degVSum cur v r
      else max (degV cur v n) (degVSum cur v r)
/-- The loop of `MultOperator::Degree(v)`, `arithmetic.cpp:763-791`: the first negative degree
is returned, a divided factor of nonzero degree gives -1, otherwise the degrees are added. -/
noncomputable def degVMult (cur : Env) (v : Var) : Ops → ℤ
  | .nil => 0
  | .cons m n r =>
      if degV cur v n < 0 then degV cur v n
      else if degV cur v n ≠ 0 ∧ m = false then -1
      else if degVMult cur v r < 0 then degVMult cur v r
      else degV cur v n + degVMult cur v r
end

/-- The loop of `UnaryOperator::Degree(VariableGroup)`, `operator.cpp:61-72`: a negative entry
*overwrites* the sum, later entries are added to it. -/
def foldUnary (l : List ℤ) : ℤ := l.foldl (fun deg n => if n < 0 then n else deg + n) 0

/-- The loop of `PowerOperator::Degree(VariableGroup)`, `arithmetic.cpp:1011-1022`. -/
def foldPow (l : List ℤ) : ℤ := l.foldl (fun deg n => if n < 0 then -1 else deg + n) 0

mutual
/-- `Degree(VariableGroup)`: number 0; variable `variable.cpp:124-131`; sum
`arithmetic.cpp:232-246`; product `794-813`; power `1011-1022`; every unary operator
(negation, integer power, `sqrt`, `exp`, `log`, trigonometric) `operator.cpp:61-72`, through
`UnaryOperator::MultiDegree` (74-83), i.e. the per-variable degrees of the node itself;
`Handle::Degree`. -/
noncomputable def degG (cur : Env) (vars : List Var) : Node → ℤ
  | .int _ | .float _ _ | .rat _ _ | .special _ => 0
  | .var w => if w ∈ vars then 1 else 0
  | .sum ops => degGSum cur vars ops
  | .mult ops => degGMult cur vars ops
  | .pow b e => foldPow (vars.map fun v => degV cur v (.pow b e))
  | .neg n => foldUnary (vars.map fun v => degV cur v (.neg n))
  | .ipow n k => foldUnary (vars.map fun v => degV cur v (.ipow n k))
  | .sqrt n => foldUnary (vars.map fun v => degV cur v (.sqrt n))
  | .exp n => foldUnary (vars.map fun v => degV cur v (.exp n))
  | .log n => foldUnary (vars.map fun v => degV cur v (.log n))
  | .sin n => foldUnary (vars.map fun v => degV cur v (.sin n))
  | .cos n => foldUnary (vars.map fun v => degV cur v (.cos n))
  | .tan n => foldUnary (vars.map fun v => degV cur v (.tan n))
  | .asin n => foldUnary (vars.map fun v => degV cur v (.asin n))
  | .acos n => foldUnary (vars.map fun v => degV cur v (.acos n))
  | .atan n => foldUnary (vars.map fun v => degV cur v (.atan n))
  | .fn n => degG cur vars n
/-- The loop of `SumOperator::Degree(VariableGroup)`, `arithmetic.cpp:232-246`. -/
noncomputable def degGSum (cur : Env) (vars : List Var) : Ops → ℤ
  | .nil => 0
  | .cons _ n r =>
      if degG cur vars n < 0 then degG cur vars n
      else if degGSum cur vars r < 0 then degGSum cur vars r
      else max (degG cur vars n) (degGSum cur vars r)
/-- The loop of `MultOperator::Degree(VariableGroup)`, `arithmetic.cpp:794-813`. -/
noncomputable def degGMult (cur : Env) (vars : List Var) : Ops → ℤ
  | .nil => 0
  | .cons m n r =>
      if degG cur vars n < 0 then degG cur vars n
      else if degG cur vars n ≠ 0 ∧ m = false then -1
      else if degGMult cur vars r < 0 then degGMult cur vars r
      else degG cur vars n + degGMult cur vars r
end

mutual
/-- `MultiDegree(VariableGroup)`: numbers `number.hpp:107` (all zero); variable
`variable.cpp:134-143`; sum `arithmetic.cpp:249-262` (entrywise maximum from 0); product
`815-828` (entrywise sum, the divide flag is not consulted); every other node: `Degree` of the
node itself for each variable (`operator.cpp:74-83`, `arithmetic.cpp:1025-1033`,
`roots/function.cpp`). -/
noncomputable def multiDeg (cur : Env) (vars : List Var) : Node → List ℤ
  | .int _ | .float _ _ | .rat _ _ | .special _ => vars.map fun _ => 0
  | .var w => vars.map fun v => if w = v then 1 else 0
  | .sum ops => multiDegSum cur vars ops
  | .mult ops => multiDegMult cur vars ops
  | n => vars.map fun v => degV cur v n
/-- The loop of `SumOperator::MultiDegree`. -/
noncomputable def multiDegSum (cur : Env) (vars : List Var) : Ops → List ℤ
  | .nil => vars.map fun _ => 0
  | .cons _ n r => List.zipWith max (multiDegSum cur vars r) (multiDeg cur vars n)
/-- The loop of `MultOperator::MultiDegree`. -/
noncomputable def multiDegMult (cur : Env) (vars : List Var) : Ops → List ℤ
  | .nil => vars.map fun _ => 0
  | .cons _ n r => List.zipWith (· + ·) (multiDegMult cur vars r) (multiDeg cur vars n)
end

/-- `Node::IsPolynomial(VariableGroup)`, `node.cpp:95-98`. -/
def isPoly (cur : Env) (vars : List Var) (n : Node) : Prop := 0 ≤ degG cur vars n

mutual
/-- `IsHomogeneous(VariableGroup)`: numbers `number.hpp:135`, variables `variable.cpp:159`
(always true); sum `arithmetic.cpp:345-369`; product `854-865`; power `1064-1076`; integer
power `arithmetic.hpp:741-744`; negation `arithmetic.hpp:320-323`; every other unary operator
`operator.cpp:105-113`;
`Handle::IsHomogeneous`. -/
noncomputable def isHom (cur : Env) (vars : List Var) : Node → Prop
  | .int _ | .float _ _ | .rat _ _ | .special _ | .var _ => True
  | .sum ops => isHomOps cur vars ops ∧ sumDegreesAgree cur vars ops
  | .mult ops => isHomOps cur vars ops
  | .pow b e => degG cur vars e = 0 ∧ NearInt (eval cur e) ∧ 0 ≤ (eval cur e).re ∧
      isHom cur vars b
  | .ipow n _ => isHom cur vars n
  | .neg n => isHom cur vars n
  | .fn n => isHom cur vars n
  | n => degG cur vars n = 0
/-- Every operand is homogeneous (`arithmetic.cpp:347-351`, `857-863`). -/
noncomputable def isHomOps (cur : Env) (vars : List Var) : Ops → Prop
  | .nil => True
  | .cons _ n r => isHom cur vars n ∧ isHomOps cur vars r
/-- `arithmetic.cpp:353-366`: the first operand has non-negative degree and all others have
the same degree. An empty sum (undefined behaviour there, and never built: constructors add an
operand) counts as agreeing. -/
noncomputable def sumDegreesAgree (cur : Env) (vars : List Var) : Ops → Prop
  | .nil => True
  | .cons _ n r => 0 ≤ degG cur vars n ∧ allDegreesEq cur vars (degG cur vars n) r
/-- All operands have degree `d`. -/
noncomputable def allDegreesEq (cur : Env) (vars : List Var) (d : ℤ) : Ops → Prop
  | .nil => True
  | .cons _ n r => degG cur vars n = d ∧ allDegreesEq cur vars d r
end

/-- `maxdegree` of `arithmetic.cpp:277-290`: maximum of the term degrees, from 0. -/
noncomputable def maxDeg (cur : Env) (vars : List Var) : Ops → ℤ
  | .nil => 0
  | .cons _ n r => max (degG cur vars n) (maxDeg cur vars r)

/-- All term degrees are non-negative, otherwise line 284 throws. -/
def allNonneg (cur : Env) (vars : List Var) : Ops → Prop
  | .nil => True
  | .cons _ n r => 0 ≤ degG cur vars n ∧ allNonneg cur vars r

/-- A term of degree deficiency `d` multiplied by the power of `h`,
`arithmetic.cpp:292-311`. -/
noncomputable def padTerm (h : Var) (d : ℤ) (n : Node) : Node :=
  if 0 < d then
    if d = 1 then .mult (.cons true (.var h) (.cons true n .nil))
    else .mult (.cons true (.ipow (.var h) d) (.cons true n .nil))
  else n

/-- The second loop of `SumOperator::Homogenize`, `arithmetic.cpp:292-311`. -/
noncomputable def padOps (cur : Env) (vars : List Var) (h : Var) (D : ℤ) : Ops → Ops
  | .nil => .nil
  | .cons s n r => .cons s (padTerm h (D - degG cur vars n) n) (padOps cur vars h D r)

mutual
/-- `Homogenize(vars, h)` on a tree: symbols are unchanged; sum `arithmetic.cpp:264-314`;
product `832-838`; power `1037-1047`; unary `operator.cpp:85-88`; `Handle::Homogenize`.
`none`: `std::runtime_error` is thrown (the C++ tree is then left half homogenized).
The C++ mutates nodes in place; on a tree without sharing that is this function
(see `System/State.lean` and `Tree/Cache.lean` for sharing). -/
noncomputable def hom (cur : Env) (vars : List Var) (h : Var) : Node → Option Node
  | .int z => some (.int z)
  | .float a b => some (.float a b)
  | .rat a b => some (.rat a b)
  | .special s => some (.special s)
  | .var w => some (.var w)
  | .sum ops => do
      let ops' ← homOps cur vars h ops
      if allNonneg cur vars ops' then
        some (.sum (padOps cur vars h (maxDeg cur vars ops') ops'))
      else none
  | .mult ops => do
      let ops' ← homOps cur vars h ops
      some (.mult ops')
  | .pow b e =>
      if degG cur vars e = 0 then do
        let b' ← hom cur vars h b
        some (.pow b' e)
      else none
  | .neg n => do let n' ← hom cur vars h n; some (.neg n')
  | .ipow n k => do let n' ← hom cur vars h n; some (.ipow n' k)
  | .sqrt n => do let n' ← hom cur vars h n; some (.sqrt n')
  | .exp n => do let n' ← hom cur vars h n; some (.exp n')
  | .log n => do let n' ← hom cur vars h n; some (.log n')
  | .sin n => do let n' ← hom cur vars h n; some (.sin n')
  | .cos n => do let n' ← hom cur vars h n; some (.cos n')
  | .tan n => do let n' ← hom cur vars h n; some (.tan n')
  | .asin n => do let n' ← hom cur vars h n; some (.asin n')
  | .acos n => do let n' ← hom cur vars h n; some (.acos n')
  | .atan n => do let n' ← hom cur vars h n; some (.atan n')
  | .fn n => do let n' ← hom cur vars h n; some (.fn n')
/-- The first loop: homogenize each operand. -/
noncomputable def homOps (cur : Env) (vars : List Var) (h : Var) : Ops → Option Ops
  | .nil => some .nil
  | .cons f n r => do
      let n' ← hom cur vars h n
      let r' ← homOps cur vars h r
      some (.cons f n' r')
end

end B2
