import Verif.Tree.DiffProof

/-!
# `Differentiate()` without a variable, and `Jacobian::EvalJ`

`Node::Differentiate(v)` with `v = nullptr` (the default argument, `node.hpp:183`) differentiates with respect to no variable in
particular: a variable becomes a `Differential` node which remembers the variable (`symbols/variable.cpp:94-100`).  The variable
of differentiation is supplied when the result is evaluated.

In the model a `Differential` is written as a variable with a number of its own: `Marks` says which numbers those are.
-/

namespace B2

/-- Which numbers stand for differentials: `d w` is the `Differential` of the variable `w` (`symbols/differential.hpp`), and
`of u = some w` says that `u` is the differential of `w`; `of u = none` means that `u` is an ordinary variable. -/
structure Marks where
  d : Var → Var
  of : Var → Option Var
  of_d : ∀ w, of (d w) = some w

/-- What `Variable::Differentiate` returns for the variable `w`, `symbols/variable.cpp:94-100`: the differential when no variable is
given, otherwise 1 or 0. -/
def leaf (M : Marks) (u : Option Var) (w : Var) : Node :=
  match u with
  | none => .var (M.d w)
  | some v => if v = w then .int 1 else .int 0

mutual
/-- `Differentiate(v)` with `v` possibly null; the lines are those cited at `diff`.  The argument `D` says what the derivative of a
variable is. -/
def diffWith (D : Var → Node) : Node → Node
  | .int _ | .float _ _ | .rat _ _ | .special _ => .int 0
  | .var w => D w
  | .sum ops => sumOrZero (diffWithSum D ops)
  | .mult ops => sumOrZero (diffWithMult D .nil ops)
  | .neg n => .neg (diffWith D n)
  | .pow b e => .mult (.cons true (diffWith D b) (.cons true e
      (.cons true (.pow b (.sum (.cons true e (.cons false (.int 1) .nil)))) .nil)))
  | .ipow n k =>
      if k = 0 then .int 0
      else if k = 1 then diffWith D n
      else if k = 2 then .mult (.cons true (.int 2) (.cons true n (.cons true (diffWith D n) .nil)))
      else .mult (.cons true (.int k) (.cons true (.ipow n (k - 1)) (.cons true (diffWith D n) .nil)))
  | .sqrt n => .mult (.cons true (.pow n (.rat (-1 / 2) 0)) (.cons true (diffWith D n)
      (.cons true (.rat (1 / 2) 0) .nil)))
  | .exp n => .mult (.cons true (.exp n) (.cons true (diffWith D n) .nil))
  | .log n => .mult (.cons false n (.cons true (diffWith D n) .nil))
  | .sin n => .mult (.cons true (.cos n) (.cons true (diffWith D n) .nil))
  | .cos n => .mult (.cons true (.neg (.sin n)) (.cons true (diffWith D n) .nil))
  | .tan n => .mult (.cons true (diffWith D n) (.cons false (.ipow (.cos n) 2) .nil))
  | .asin n => .mult (.cons true (diffWith D n) (.cons false
      (.sqrt (.sum (.cons true (.int 1) (.cons false (.ipow n 2) .nil)))) .nil))
  | .acos n => .mult (.cons true (.neg (diffWith D n)) (.cons false
      (.sqrt (.sum (.cons true (.int 1) (.cons false (.ipow n 2) .nil)))) .nil))
  | .atan n => .mult (.cons true (diffWith D n) (.cons false
      (.sum (.cons true (.int 1) (.cons true (.ipow n 2) .nil))) .nil))
  | .fn n => diffWith D n
/-- The loop of `SumOperator::Differentiate`, `arithmetic.cpp:194-212`. -/
def diffWithSum (D : Var → Node) : Ops → Ops
  | .nil => .nil
  | .cons s n r =>
      if n.isNumber then diffWithSum D r
      else if (diffWith D n).isNumber && (diffWith D n).numIsZero then diffWithSum D r
      else .cons s (diffWith D n) (diffWithSum D r)
/-- The loop of `MultOperator::Differentiate`, `arithmetic.cpp:722-758`. -/
def diffWithMult (D : Var → Node) (pre : Ops) : Ops → Ops
  | .nil => .nil
  | .cons m n r =>
      let rest := diffWithMult D (pre.append (.cons m n .nil)) r
      if (diffWith D n).isFloatZero then rest
      else if (diffWith D n).isFloatOne then rest
      else .cons m (.mult (.cons true (diffWith D n) ((pre.append r).append (quotientTail m n)))) rest
end

/-- `Differentiate(u)`, `u = none` for the null pointer. -/
def differentiateNode (M : Marks) (u : Option Var) (n : Node) : Node := diffWith (leaf M u) n

/-- The values of the leaves while a tree is evaluated with variable of differentiation `v`: `Differential::FreshEval`
(`symbols/differential.cpp:106-160`) is 1 if its variable is `v` and 0 otherwise; a variable has its value. -/
noncomputable def jacEnv (M : Marks) (env : Env) (v : Option Var) : Env := fun u =>
  match M.of u with
  | some w => if some w = v then 1 else 0
  | none => env u

/-- `Jacobian::EvalJ(v)`, `roots/jacobian.cpp:42-57`, with fresh caches (caches: C12). -/
noncomputable def evalJ (M : Marks) (env : Env) (v : Var) (n : Node) : ℂ := eval (jacEnv M env (some v)) n

end B2
