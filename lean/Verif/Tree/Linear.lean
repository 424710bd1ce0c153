import Verif.Tree.Syntax

/-!
# `LinearProduct` and `DiffLinear`
-/

namespace B2

/-- `hom_variable_`, `linear_product.hpp:571`: the constant 1 (not homogenized), the constant 0
(a group that is already homogeneous) or the homogenizing variable. -/
inductive HomPart where
  | const (c : ℤ)
  | var (h : Var)
deriving DecidableEq

/-- A `LinearProduct`, `linear_product.hpp:560-585`: `coeff i j` is the coefficient matrix, one
row per factor, `vars.length + 1` columns, the last one for the constant. The three copies of
the matrix (rational, double, multiprecision) are one exact matrix here. -/
structure LinProd where
  vars : List Var
  hom : HomPart
  numFactors : ℕ
  coeff : ℕ → ℕ → ℂ
  isHomVars : Bool

/-- `hom_variable_->EvalInPlace`. -/
def HomPart.eval (env : Env) : HomPart → ℂ
  | .const c => c
  | .var h => env h

/-- `temp_var_d_[jj]`, `linear_product.hpp:466-471`. -/
noncomputable def LinProd.tempVar (p : LinProd) (env : Env) (j : ℕ) : ℂ :=
  match p.vars[j]? with
  | some v => env v
  | none => p.hom.eval env

/-- `LinearProduct::FreshEval_d`/`_mp`, `linear_product.hpp:459-492`, `513-542`. -/
noncomputable def LinProd.eval (p : LinProd) (env : Env) : ℂ :=
  (List.range p.numFactors).foldl (fun acc ii =>
    acc * (List.range (p.vars.length + 1)).foldl
      (fun s jj => s + p.coeff ii jj * p.tempVar env jj) 0) 1

/-- `GetLinears(indices)`, `linear_product.cpp:349-387`, and `GetLinears(index)`, `320-345`
(a single index): the selected rows; the private constructors `linear_product.hpp:598-680` reset
`hom_variable_` to 0 for an already homogeneous group. -/
def LinProd.getLinears (p : LinProd) (indices : List ℕ) : LinProd where
  vars := p.vars
  hom := if p.isHomVars then .const 0 else p.hom
  numFactors := indices.length
  coeff i j := p.coeff (indices.getD i 0) j
  isHomVars := p.isHomVars

/-- `DiffLinear::FreshEval_d(diff_variable)`, `linear_product.hpp:972-996`, for the single linear
`l`: coefficient of the first variable equal to `diff_variable`; for the homogenizing variable the
column `variables_.size()-1` is used (as in the code); otherwise 0. -/
noncomputable def diffLinearEval (l : LinProd) (d : Option Var) : ℂ :=
  match d with
  | none => 0
  | some v =>
      if l.vars.idxOf v < l.vars.length then l.coeff 0 (l.vars.idxOf v)
      else if l.hom = .var v then l.coeff 0 (l.vars.length - 1)
      else 0

/-- One summand of the derivative: `DiffLinear(linear) * others` (`others` absent for a single
factor). -/
structure DerivTerm where
  linear : LinProd
  others : Option LinProd

/-- `LinearProduct::Differentiate(v)`, `linear_product.cpp:60-95`; the argument is ignored. `none`
is the out-of-bounds row access `GetLinears(0)` for a product with no factors. -/
def LinProd.differentiate (p : LinProd) : Option (List DerivTerm) :=
  if p.numFactors = 0 then none
  else
    let rest0 := (List.range p.numFactors).drop 1
    let first : DerivTerm :=
      ⟨p.getLinears [0], if 0 < rest0.length then some (p.getLinears rest0) else none⟩
    some (first :: rest0.map fun ii =>
      ⟨p.getLinears [ii], some (p.getLinears ((List.range p.numFactors).filter (ii ≠ ·)))⟩)

/-- Value of the remaining factors of a summand. -/
noncomputable def othersEval (env : Env) : Option LinProd → ℂ
  | some q => q.eval env
  | none => 1

/-- Evaluation of the derivative tree (a sum of products) with variable of differentiation `d`:
`EvalJ(d)` passes `some d`, a plain `Eval()` passes `none`. -/
noncomputable def evalDeriv (terms : List DerivTerm) (env : Env) (d : Option Var) : ℂ :=
  (terms.map fun t => diffLinearEval t.linear d * othersEval env t.others).sum

/-- `LinearProduct::Degree(v)`, `linear_product.cpp:102-113`. -/
def LinProd.degV (p : LinProd) (v : Var) : ℕ := if v ∈ p.vars then p.numFactors else 0

/-- `LinearProduct::Degree(vars)`, `linear_product.cpp:119-134`. -/
def LinProd.degG (p : LinProd) (vars : List Var) : ℕ :=
  if vars.any (· ∈ p.vars) then p.numFactors else 0

/-- `LinearProduct::Homogenize(vars, homvar)`, `linear_product.cpp:160-221`; `homogenized` is
`is_homogenized_`; `none` is the exception. Returns the node and the new flag. -/
def LinProd.homogenize (p : LinProd) (homogenized : Bool) (vars : List Var) (h : Var) :
    Option (LinProd × Bool) :=
  if homogenized then some (p, homogenized)
  else
    let temp := vars.filter (· ≠ h)
    let larger := if temp.length < p.vars.length then p.vars else temp
    let smaller := if temp.length < p.vars.length then temp else p.vars
    let same := larger.all (· ∈ smaller)
    let some' := larger.any (· ∈ smaller)
    if !same && some' then none
    else if same then some ({ p with hom := .var h }, true)
    else some (p, homogenized)

/-- `LinearProduct::MultiDegree(vars)`, `linear_product.cpp:138-153`. -/
def LinProd.multiDeg (p : LinProd) (vars : List Var) : List ℕ :=
  vars.map fun v => if v ∈ p.vars then p.numFactors else 0

/-- `LinearProduct::IsHomogeneous(vars)`, `linear_product.cpp:263-310`; `homogenized` is
`is_homogenized_`. -/
def LinProd.isHomG (p : LinProd) (homogenized : Bool) (vars : List Var) : Bool :=
  let same0 := p.vars.all (· ∈ vars)
  let some0 := p.vars.any (· ∈ vars)
  let check := homogenized && !p.isHomVars
  let homIn := match p.hom with
    | .var h => decide (h ∈ vars)
    | .const _ => false
  let same := if check then same0 && homIn else same0
  let some' := if check then some0 || homIn else some0
  if !same && some' then false
  else if !same then true
  else homogenized

end B2
