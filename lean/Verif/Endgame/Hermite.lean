/-
Model of `HermiteInterpolateAndSolve`, /repo/core/include/bertini2/endgames/interpolation.hpp, lines 62-128.

Simplification: exact field arithmetic.  Every entry of the difference matrix is written exactly once and
before it is read, so the matrix is given as a function of its indices instead of a filled array.
-/
import Mathlib.Algebra.Module.Defs
import Mathlib.Algebra.Field.Defs

namespace B2.Endgame

variable {K V : Type} [Field K] [AddCommGroup V] [Module K V]

/-- `time_differences(k)`: interpolation.hpp lines 91-92, `z[2*i] = z[2*i+1] = times[num-i]`; `y i` is `times[num-i]`. -/
def node (y : ℕ → K) (k : ℕ) : K := y (k / 2)

/-- `space_differences(i,j)`.  Column 0: interpolation.hpp lines 88-89.  Column 1: line 90 for odd rows, line 98 for even
rows.  Columns `≥ 2`: lines 103-112.  `y`, `x`, `d` are the times, samples and derivatives counted from the
back (or from position `n-1`). -/
def table (y : ℕ → K) (x d : ℕ → V) : ℕ → ℕ → V
  | i, 0 => x (i / 2)
  | i, 1 =>
    if i % 2 = 1 then d (i / 2)
    else (node y i - node y (i - 1))⁻¹ • (x (i / 2) - x ((i - 1) / 2))
  | i, j + 2 =>
    (node y i - node y (i - (j + 2)))⁻¹ • (table y x d i (j + 1) - table y x d (i - 1) (j + 1))

/-- The loop `for (unsigned ii=num_sample_points-1; ii >= 1; --ii)`, interpolation.hpp lines 121-124:
`Result = (Result*(target - z(ii)) + F(2ii,2ii)) * (target - z(ii-1)) + F(2ii-1,2ii-1)`. -/
def hornerLoop (T : K) (y : ℕ → K) (F : ℕ → ℕ → V) : ℕ → V → V
  | 0, r => r
  | ii + 1, r =>
    hornerLoop T y F ii
      ((T - node y ii) • ((T - node y (ii + 1)) • r + F (2 * (ii + 1)) (2 * (ii + 1)))
        + F (2 * ii + 1) (2 * ii + 1))

/-- `HermiteInterpolateAndSolve`: start value interpolation.hpp line 116, last term line 127. -/
def hermiteCore (T : K) (n : ℕ) (y : ℕ → K) (x d : ℕ → V) : V :=
  let F := table y x d
  (T - node y 0) • hornerLoop T y F (n - 1) (F (2 * n - 1) (2 * n - 1)) + F 0 0

/-- `HermiteInterpolateAndSolve`, interpolation.hpp lines 62-128, with the three asserts (lines 64-66); `n = 0` reads outside
the matrix.  `none` is a failed assertion / undefined behaviour.  `front` is
`shift_from == ContStart::Front`, lines 69-79. -/
def hermite (T : K) (n : ℕ) (times : List K) (samples derivs : List V) (front : Bool) : Option V :=
  if 0 < n ∧ n ≤ times.length ∧ n ≤ samples.length ∧ n ≤ derivs.length then
    let nt := if front then n - 1 else times.length - 1
    let ns := if front then n - 1 else samples.length - 1
    let nd := if front then n - 1 else derivs.length - 1
    some (hermiteCore T n (fun i => times.getD (nt - i) 0) (fun i => samples.getD (ns - i) 0)
      (fun i => derivs.getD (nd - i) 0))
  else none

end B2.Endgame
