import Mathlib.Analysis.SpecialFunctions.Pow.Deriv
import Mathlib.Analysis.SpecialFunctions.Complex.Arctan

/-!
# Function trees: syntax and evaluation

Models `core/include/bertini2/function_tree/*`, `core/src/function_tree/*`.

Simplifications, valid for the whole directory:
* a `shared_ptr<Node>` graph is unfolded into a tree (sharing is the subject of
  `Tree/Cache.lean`, `SLP/` and `System/State.lean`);
* values are exact complex numbers instead of `dbl`/`mpfr_complex`;
* `Differential` (differentiation with a null variable), `LinearProduct` and
  `DiffLinear` are not constructors here (`LinearProduct` is in `Tree/Linear.lean`).
-/

namespace B2

/-- Variables are identified by their address in C++
(`symbols/variable.cpp:99`, `v.get() == this`); here by a number. -/
abbrev Var := ℕ

/-- `special_number.cpp`: the two special numbers that are their own node type
(`I` is a `Rational`/`Float` node). -/
inductive SpecialNum where
  | pi
  | e
  deriving DecidableEq, Repr

mutual
/-- One constructor per concrete node class.

* `int`, `float`, `rat`, `special`: `symbols/number.hpp`, `symbols/special_number.hpp`
  (all four derive from `Number`; `Float`/`Rational` carry a real and an imaginary part);
* `var`: `symbols/variable.hpp`;
* `sum`, `mult`, `neg`, `pow`, `ipow`, `sqrt`, `exp`, `log`: `operators/arithmetic.hpp`;
* `sin` … `atan`: `operators/trig.hpp`;
* `fn`: `roots/function.hpp` (`Function`/`Handle`, a named root with one entry node). -/
inductive Node where
  | int (z : ℤ)
  | float (re im : ℚ)
  | rat (re im : ℚ)
  | special (s : SpecialNum)
  | var (v : Var)
  | sum (ops : Ops)
  | mult (ops : Ops)
  | neg (n : Node)
  | pow (base exponent : Node)
  | ipow (n : Node) (k : ℤ)
  | sqrt (n : Node)
  | exp (n : Node)
  | log (n : Node)
  | sin (n : Node)
  | cos (n : Node)
  | tan (n : Node)
  | asin (n : Node)
  | acos (n : Node)
  | atan (n : Node)
  | fn (entry : Node)
/-- The operands of an n-ary operator with their flags: `operands_` together with
`signs_` (`arithmetic.hpp:138-152`, sum, `true` = add) or `mult_or_div_`
(`arithmetic.hpp:421-434`, product, `true` = multiply). `AddOperand` pushes on both
lists, so they always have equal length and one list of pairs is faithful. -/
inductive Ops where
  | nil
  | cons (flag : Bool) (n : Node) (rest : Ops)
end

/-- Values of the variables. -/
abbrev Env := Var → ℂ

/-- Principal complex arcsine, the value of `std::asin` on complex arguments:
`asin z = -i log (i z + sqrt (1 - z^2))`. -/
noncomputable def carcsin (z : ℂ) : ℂ :=
  -Complex.I * Complex.log (Complex.I * z + (1 - z ^ 2) ^ (1 / 2 : ℂ))

/-- Principal complex arccosine: `acos z = π/2 - asin z`. -/
noncomputable def carccos (z : ℂ) : ℂ := (Real.pi : ℂ) / 2 - carcsin z

mutual
/-- `Eval<T>()` on fresh caches: the `FreshEval_d`/`FreshEval_mp` methods.
`arithmetic.cpp:374-433` (sum), `479-500` (negate), `867-920` (product),
`1078-1105` (power), `arithmetic.hpp:769-790` (integer power), `1232-1253` (sqrt),
`1312-1333` (exp), `1387-1408` (log), `trig.cpp` (trigonometric),
`roots/function.cpp` (`Handle::FreshEval`). Exact complex arithmetic; a zero
denominator is not an error here, the domain predicates exclude it. -/
noncomputable def eval (env : Env) : Node → ℂ
  | .int z => z
  | .float re im => (re : ℂ) + (im : ℂ) * Complex.I
  | .rat re im => (re : ℂ) + (im : ℂ) * Complex.I
  | .special .pi => (Real.pi : ℂ)
  | .special .e => (Real.exp 1 : ℝ)
  | .var v => env v
  | .sum ops => evalSum env ops
  | .mult ops => evalMult env ops
  | .neg n => -eval env n
  | .pow b e => eval env b ^ eval env e
  | .ipow n k => eval env n ^ k
  | .sqrt n => eval env n ^ (1 / 2 : ℂ)
  | .exp n => Complex.exp (eval env n)
  | .log n => Complex.log (eval env n)
  | .sin n => Complex.sin (eval env n)
  | .cos n => Complex.cos (eval env n)
  | .tan n => Complex.tan (eval env n)
  | .asin n => carcsin (eval env n)
  | .acos n => carccos (eval env n)
  | .atan n => Complex.arctan (eval env n)
  | .fn n => eval env n
/-- The loop of `SumOperator::FreshEval` (`arithmetic.cpp:374-433`): add or subtract
each operand. -/
noncomputable def evalSum (env : Env) : Ops → ℂ
  | .nil => 0
  | .cons s n r => (if s then eval env n else -eval env n) + evalSum env r
/-- The loop of `MultOperator::FreshEval` (`arithmetic.cpp:867-920`): multiply or
divide by each operand. -/
noncomputable def evalMult (env : Env) : Ops → ℂ
  | .nil => 1
  | .cons m n r => (if m then eval env n else (eval env n)⁻¹) * evalMult env r
end

mutual
/-- The variables occurring in a tree. -/
def Node.vars : Node → List Var
  | .int _ | .float _ _ | .rat _ _ | .special _ => []
  | .var v => [v]
  | .sum ops | .mult ops => ops.vars
  | .pow b e => b.vars ++ e.vars
  | .neg n | .ipow n _ | .sqrt n | .exp n | .log n | .sin n | .cos n | .tan n
  | .asin n | .acos n | .atan n | .fn n => n.vars
/-- The variables occurring in an operand list. -/
def Ops.vars : Ops → List Var
  | .nil => []
  | .cons _ n r => n.vars ++ r.vars
end

namespace Ops
/-- Concatenation of operand lists (repeated `AddOperand`). -/
def append : Ops → Ops → Ops
  | .nil, b => b
  | .cons f n r, b => .cons f n (append r b)

/-- Number of operands, `NumOperands()`. -/
def length : Ops → ℕ
  | .nil => 0
  | .cons _ _ r => r.length + 1

/-- View as an ordinary list. -/
def toList : Ops → List (Bool × Node)
  | .nil => []
  | .cons f n r => (f, n) :: r.toList

/-- Build from an ordinary list. -/
def ofList : List (Bool × Node) → Ops
  | [] => .nil
  | (f, n) :: r => .cons f n (ofList r)
end Ops

end B2
