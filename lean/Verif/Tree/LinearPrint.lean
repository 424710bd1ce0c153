import Verif.Tree.Linear

/-!
# Printing of `LinearProduct` and `DiffLinear`, homogeneity in one variable

Code: /repo/core/src/function_tree/linear_product.cpp lines 227-252, 391-419, 482-495.

Simplifications: the text is a list of tokens; the coefficients that are printed are the copies in double precision, here
the exact ones.
-/

namespace B2

/-- The pieces of a printed linear product. -/
inductive LTok where
  | lpar
  | rpar
  | star
  | plus
  | num (c : ℂ)
  | var (v : Var)
  | dvar (v : Var)

/-- `" + " << coeff_ref(ii,jj) << "*"` and the variable, for `jj = 1, 2, …`: linear_product.cpp lines 399-403. -/
noncomputable def LinProd.printRest (p : LinProd) (ii : ℕ) : List Var → ℕ → List LTok
  | [], _ => []
  | v :: vs, jj => .plus :: .num (p.coeff ii jj) :: .star :: .var v :: p.printRest ii vs (jj + 1)

/-- One round of the loop of `LinearProduct::print`, linear_product.cpp lines 396-418.  `v` is `variables_[0]`, `vs` the
other variables. -/
noncomputable def LinProd.printFactor (p : LinProd) (v : Var) (vs : List Var) (ii : ℕ) : List LTok :=
  .lpar :: .num (p.coeff ii 0) :: .star :: .var v :: (p.printRest ii vs 1 ++
    ((if p.isHomVars then [] else [.plus, .num (p.coeff ii (vs.length + 1))]) ++
      if ii = p.numFactors - 1 then [.rpar] else [.rpar, .star]))

/-- `LinearProduct::print`, linear_product.cpp lines 391-419.  `none`: `variables_[0]` is accessed and there is no
variable. -/
noncomputable def LinProd.print (p : LinProd) : Option (List LTok) :=
  match p.vars with
  | [] => if p.numFactors = 0 then some [] else none
  | v :: vs => some ((List.range p.numFactors).flatMap (p.printFactor v vs))

/-- The terms after the first one in `DiffLinear::print`, linear_product.cpp lines 488-492. -/
noncomputable def LinProd.printDiffRest (l : LinProd) : List Var → ℕ → List LTok
  | [], _ => []
  | v :: vs, jj => .plus :: .num (l.coeff 0 jj) :: .star :: .dvar v :: l.printDiffRest vs (jj + 1)

/-- `DiffLinear::print`, linear_product.cpp lines 482-495, for the differential of the linear `l`. -/
noncomputable def LinProd.printDiff (l : LinProd) : Option (List LTok) :=
  match l.vars with
  | [] => none
  | v :: vs => some (.lpar :: .num (l.coeff 0 0) :: .star :: .dvar v :: (l.printDiffRest vs 1 ++ [.rpar]))

/-- `LinearProduct::IsHomogeneous(v)`, linear_product.cpp lines 227-252: without a variable the flag `is_homogenized_`, with
one whether it is not in `variables_`. -/
def LinProd.isHomV (p : LinProd) (homogenized : Bool) (v : Option Var) : Bool :=
  match v with
  | none => if homogenized then true else false
  | some v => if v ∉ p.vars then true else false

end B2
