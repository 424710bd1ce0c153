import Verif.Tree.Syntax
import Mathlib.Algebra.MvPolynomial.Variables
import Mathlib.Algebra.Polynomial.Degree.Defs
import Mathlib.Algebra.Polynomial.Eval.Defs

/-!
# Specification vocabulary for function trees

Nothing here mentions `Differentiate`, `Degree`, `Homogenize` or `Simplify`.
-/

namespace B2

open Complex

mutual
/-- `Smooth env n`: every elementary operation in `n` is applied at a point where it is
defined and complex differentiable: no zero denominator, no negative integer power of
zero, logarithms, square roots and non-integer powers off the cut `(-∞, 0]`, tangents off
the zeros of the cosine, inverse trigonometric functions off their cuts. -/
def Smooth (env : Env) : Node → Prop
  | .int _ | .float _ _ | .rat _ _ | .special _ | .var _ => True
  | .sum ops => SmoothSum env ops
  | .mult ops => SmoothMult env ops
  | .pow b e => Smooth env b ∧ Smooth env e ∧
      (eval env b ∈ slitPlane ∨ (eval env b ≠ 0 ∧ ∃ k : ℤ, eval env e = k) ∨
        ∃ k : ℕ, 2 ≤ k ∧ eval env e = k)
  | .ipow n k => Smooth env n ∧ (0 ≤ k ∨ eval env n ≠ 0)
  | .sqrt n | .log n => Smooth env n ∧ eval env n ∈ slitPlane
  | .tan n => Smooth env n ∧ Complex.cos (eval env n) ≠ 0
  | .asin n | .acos n => Smooth env n ∧ 1 - eval env n ^ 2 ∈ slitPlane
  | .atan n => Smooth env n ∧ 1 - eval env n * I ≠ 0 ∧
      (1 + eval env n * I) / (1 - eval env n * I) ∈ slitPlane
  | .neg n | .exp n | .sin n | .cos n | .fn n => Smooth env n
/-- `Smooth` for all summands. -/
def SmoothSum (env : Env) : Ops → Prop
  | .nil => True
  | .cons _ n r => Smooth env n ∧ SmoothSum env r
/-- `Smooth` for all factors, with nonzero divisors. -/
def SmoothMult (env : Env) : Ops → Prop
  | .nil => True
  | .cons m n r => Smooth env n ∧ (m = false → eval env n ≠ 0) ∧ SmoothMult env r
end

mutual
/-- The exponent of every general power in the tree is free of `v`. -/
def ExpFree (v : Var) : Node → Prop
  | .int _ | .float _ _ | .rat _ _ | .special _ | .var _ => True
  | .sum ops | .mult ops => ExpFreeOps v ops
  | .pow b e => ExpFree v b ∧ v ∉ e.vars
  | .neg n | .ipow n _ | .sqrt n | .exp n | .log n | .sin n | .cos n | .tan n
  | .asin n | .acos n | .atan n | .fn n => ExpFree v n
/-- `ExpFree` for all operands. -/
def ExpFreeOps (v : Var) : Ops → Prop
  | .nil => True
  | .cons _ n r => ExpFree v n ∧ ExpFreeOps v r
end

/-- `d` is the partial derivative, at `env`, with respect to `v`, of the function computed
by `n`. -/
def IsPartialDeriv (n : Node) (v : Var) (env : Env) (d : ℂ) : Prop :=
  HasDerivAt (fun t => eval (Function.update env v t) n) d (env v)

/-- `env'` differs from `env` only in the variables of the group. -/
def AgreeOff (vars : List Var) (env env' : Env) : Prop := ∀ w, w ∉ vars → env' w = env w

/-- With the variables outside the group frozen at `env`, the tree is a polynomial function of
total degree at most `d` jointly in the variables of the group. -/
def IsPolyOfDegreeLE (vars : List Var) (env : Env) (n : Node) (d : ℤ) : Prop :=
  ∃ p : MvPolynomial Var ℂ, p.vars ⊆ vars.toFinset ∧ (p.totalDegree : ℤ) ≤ d ∧
    ∀ env', AgreeOff vars env env' → eval env' n = MvPolynomial.eval env' p

/-- The same for a single variable, with ordinary polynomials. -/
def IsPolyInVar (v : Var) (env : Env) (n : Node) (d : ℤ) : Prop :=
  ∃ p : Polynomial ℂ, (p.natDegree : ℤ) ≤ d ∧
    ∀ t, eval (Function.update env v t) n = p.eval t

/-- Multiply the values of the variables in `vars` by `c`, leave the others. -/
noncomputable def scale (c : ℂ) (vars : List Var) (env : Env) : Env :=
  fun w => if w ∈ vars then c * env w else env w

/-- The function computed by `n` is homogeneous of degree `d` in the variables `vars`. -/
def IsHomogeneousFun (vars : List Var) (n : Node) (d : ℤ) : Prop :=
  ∀ (c : ℂ) (env : Env), c ≠ 0 → eval (scale c vars env) n = c ^ d * eval env n

/-! ### Sums of monomials -/

/-- A monomial as a user writes it: a numeric coefficient and variables with exponents. -/
structure Mono where
  coef : ℚ
  factors : List (Var × ℕ)

/-- The factor `v^k`: just `v` when `k = 1`. -/
def factorNode (f : Var × ℕ) : Node := if f.2 = 1 then .var f.1 else .ipow (.var f.1) f.2

/-- The product `coef * v1^k1 * ...`. -/
def Mono.node (m : Mono) : Node :=
  .mult (.cons true (.rat m.coef 0) (Ops.ofList (m.factors.map fun f => (true, factorNode f))))

/-- A signed sum of monomials. -/
def sumOfMonos (ms : List (Bool × Mono)) : Node :=
  .sum (Ops.ofList (ms.map fun m => (m.1, m.2.node)))

/-- Degree of a monomial in a group: the sum of the exponents of the group's variables. -/
def Mono.degree (vars : List Var) (m : Mono) : ℕ :=
  ((m.factors.filter fun f => decide (f.1 ∈ vars)).map (·.2)).sum

/-- Largest monomial degree. -/
def maxDegree (vars : List Var) (ms : List (Bool × Mono)) : ℕ :=
  (ms.map fun m => m.2.degree vars).foldr max 0

end B2
