/-
Specification for the extrapolation of the power series endgame: samples of a fractional power series.
-/
import Mathlib.Analysis.SpecialFunctions.Pow.Deriv
import Mathlib.Algebra.Polynomial.Eval.Defs

namespace B2.Endgame
open Polynomial

variable {ι : Type}

/-- The branch `t ↦ q(((t - t0)/w)^(1/c))`. -/
noncomputable def branch (q : ι → ℂ[X]) (c : ℕ) (t0 w : ℂ) (t : ℂ) : ι → ℂ :=
  fun j => (q j).eval (((t - t0) / w) ^ (1 / (c : ℂ)))

/-- Specification: the samples and derivatives are those of a fractional power series with finitely many terms and cycle
number `c` at `t0`, taken at distinct times on a ray into `t0`. -/
structure OnBranch (q : ι → ℂ[X]) (c : ℕ) (t0 w : ℂ) (rs : List ℝ) (times : List ℂ) (samples derivs : List (ι → ℂ)) :
    Prop where
  c_pos : 0 < c
  w_ne : w ≠ 0
  rs_pos : ∀ r ∈ rs, 0 < r
  rs_nodup : rs.Nodup
  times_eq : times = rs.map fun r : ℝ => t0 + (r : ℂ) * w
  samples_eq : samples = times.map (branch q c t0 w)
  derivs_len : derivs.length = times.length
  derivs_at : ∀ (k : ℕ) (t : ℂ) (d : ι → ℂ), times[k]? = some t → derivs[k]? = some d → ∀ j, HasDerivAt (fun t => branch q c t0 w t j) (d j) t

end B2.Endgame
