/-
Model of the comparison of patches and of real random patches
(/repo/core/include/bertini2/system/patch.hpp 199-233, 439-505).

Numbers are elements of a field, as in `Basic.lean`; real coefficients are complex numbers without imaginary part.
-/
import Verif.Patch.Basic
import Mathlib.Analysis.Complex.Basic

namespace B2.Patch

/-- The members a comparison looks at: `variable_group_sizes_` and `coefficients_highest_precision_`, patch.hpp 512-524. -/
structure Obj (K : Type) where
  sizes : List ℕ
  hi : List (List K)

/-- The loop over the sizes, patch.hpp 486-488; `none`: an access past the end. `n` turns are left, `ii` is the index. -/
def eqSizes (a b : List ℕ) : ℕ → ℕ → Option Bool
  | 0, _ => some true
  | n + 1, ii =>
    match a[ii]?, b[ii]? with
    | some x, some y => if x ≠ y then some false else eqSizes a b n (ii + 1)
    | _, _ => none

/-- The loop over the coefficient vectors, patch.hpp 489-491. Eigen compares vectors entry by entry and requires equal
sizes (an assertion): `none` otherwise. -/
def eqCoeffs {K : Type} [DecidableEq K] (a b : List (List K)) : ℕ → ℕ → Option Bool
  | 0, _ => some true
  | n + 1, ii =>
    match a[ii]?, b[ii]? with
    | some x, some y =>
      if x.length ≠ y.length then none
      else if x ≠ y then some false
      else eqCoeffs a b n (ii + 1)
    | _, _ => none

/-- `operator==`, patch.hpp 480-495; `NumVariableGroups` 441-444, `NumVariables` 453-459. -/
def patchEq {K : Type} [DecidableEq K] (a b : Obj K) : Option Bool :=
  if a.sizes.length ≠ b.sizes.length then some false
  else if a.sizes.sum ≠ b.sizes.sum then some false
  else
    match eqSizes a.sizes b.sizes a.sizes.length 0 with
    | none => none
    | some false => some false
    | some true => eqCoeffs a.hi b.hi a.sizes.length 0

/-- `operator!=`, patch.hpp 500-503. -/
def patchNe {K : Type} [DecidableEq K] (a b : Obj K) : Option Bool := (patchEq a b).map not

/-- The coefficients of `RandomReal(sizes)`, patch.hpp 199-233, with `RandomRealAssign`, random.hpp 168-175: entry after
entry a real number drawn from [-1, 1], as a complex number. `k` counts the draws.  The assertion `coefficients(0)`
fails for an empty group: `none`. -/
def randomReal (draw : ℕ → ℝ) : List ℕ → ℕ → Option (List (List ℂ))
  | [], _ => some []
  | n :: sizes, k =>
    if n = 0 then none
    else (randomReal draw sizes (k + n)).map fun r => ((List.range n).map fun j => (draw (k + j) : ℂ)) :: r

end B2.Patch
