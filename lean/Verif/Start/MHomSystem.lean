import Verif.Start.MHom
import Verif.Tree.Linear
import Verif.Patch.Basic

/-!
# `MHomogeneous` as a system: degree matrix, functions, start points

Code: `core/src/system/start/mhom.cpp`.

The linear solve of line 405 (`A.partialPivLu().solve(b)`) is a parameter: any function of the matrix
and the right-hand side. The random coefficients of the linear products are a parameter.
-/

namespace B2.Start

open Classical B2.Sys

/-- `var_groups_`, 152-155: the homogeneous groups, then the affine ones. -/
def varGroups (o : Obj) : List (List Var) := o.vs.homGroups ++ o.vs.groups

/-- `degree_matrix_`, 148-186. -/
noncomputable def degMat (w : World) (o : Obj) (r c : ℕ) : ℤ :=
  match (w.roots o)[r]?, (varGroups o)[c]? with
  | some f, some g => degG w.vals g f
  | _, _ => 0

/-- The checks of the constructor, 43-50, and of `CreateDegreeMatrix`, 174-200: no exception, no access
to an empty matrix or group list. -/
def mhomAccepts (w : World) (o : Obj) : Prop :=
  o.total = o.vs.numVariables ∧ o.path = none ∧
  ¬ (o.vs.numHomVars ≠ 0 ∧ o.vs.numHomVars ≠ o.vs.groups.length) ∧ systemIsPoly w o ∧
  o.fns ≠ [] ∧ varGroups o ≠ [] ∧
  (∀ c < (varGroups o).length, ∃ r < o.fns.length, degMat w o r c ≠ 0) ∧
  (∀ r < o.fns.length, ∃ c < (varGroups o).length, degMat w o r c ≠ 0)

/-- `GenerateValidPartitions(s)` for the object `o`: the counters start at `VariableGroupSizes()`
(226-236); entries past the end of that vector are undefined behaviour, excluded by the length
condition. -/
def mhomPartitions (w : World) (o : Obj) (ps : List (List ℤ)) : Prop :=
  ∃ sizes, o.vs.groupSizes = some sizes ∧ (varGroups o).length ≤ sizes.length ∧
    Partitions (degMat w o) o.fns.length (varGroups o).length (fun j => (sizes.getD j 0 : ℕ)) ps

/-- `linprod_matrix_(ii,jj)`, 59-84. -/
noncomputable def linprod (coeff : ℕ → ℕ → ℕ → ℕ → ℂ) (w : World) (o : Obj) (r c : ℕ) : LinProd :=
  let isHom := decide (c < o.vs.homGroups.length)
  { vars := (varGroups o).getD c []
    hom := .const (if isHom then 0 else 1)
    numFactors := (degMat w o r c).toNat
    coeff := fun k l => if isHom ∧ l = ((varGroups o).getD c []).length then 0 else coeff r c k l
    isHomVars := isHom }

/-- The value of the start function of row `r`, 63-86: the product of the linear products of the
groups in which the degree is nonzero (before any `Homogenize`). -/
noncomputable def mhomFunction (coeff : ℕ → ℕ → ℕ → ℕ → ℂ) (w : World) (o : Obj) (r : ℕ) (env : Env) : ℂ :=
  ((List.range (varGroups o).length).map fun c =>
    if degMat w o r c ≠ 0 then (linprod coeff w o r c).eval env else 1).prod

/-- `variable_cols_[c]`, 162-172: consecutive columns. This is the first; the number is the size of
the group. -/
def firstCol (o : Obj) (c : ℕ) : ℕ := (((varGroups o).take c).map List.length).sum

/-- One row of `A`, 390-402, for the linear `k` of the linear product `(r, c)`; `N` columns. -/
noncomputable def mhomRow (coeff : ℕ → ℕ → ℕ → ℕ → ℂ) (w : World) (o : Obj) (N r c k : ℕ) : List ℂ :=
  (List.range N).map fun q =>
    if firstCol o c ≤ q ∧ q < firstCol o c + ((varGroups o).getD c []).length then
      (linprod coeff w o r c).coeff k (q - firstCol o c) else 0

/-- `GenerateStartPointT`, 343-417. The matrix must be square (Eigen's `partialPivLu`), and lines 408
and 409 access the first two variables of the first group and the first two coordinates. -/
noncomputable def mhomStartPoint (coeff : ℕ → ℕ → ℕ → ℕ → ℂ)
    (solve : List (List ℂ) → List ℂ → List ℂ) (w : World) (o : Obj) (ps : List (List ℤ)) (index : ℕ) :
    Option (List ℂ) :=
  (mhomSubscript (degMat w o) ps index).bind fun (p, s) =>
  let N := o.vs.numNatural - o.vs.ungrouped.length
  if p.length ≠ N then none
  else
    let rows := (p.zip s).zipIdx.map fun q => mhomRow coeff w o N q.2 q.1.1.toNat q.1.2
    let b := (p.zip s).zipIdx.map fun q =>
      -(linprod coeff w o q.2 q.1.1.toNat).coeff q.1.2 ((varGroups o).getD q.1.1.toNat []).length
    let x := solve rows b
    if ((varGroups o).getD 0 []).length < 2 ∨ x.length < 2 then none else some x

end B2.Start
