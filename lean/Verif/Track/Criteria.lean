/-
Model of the criteria of adaptive precision, /repo/core/include/bertini2/trackers/amp_criteria.hpp lines 44-205, of the
digits the adaptive tracker derives from them, /repo/core/include/bertini2/trackers/amp_tracker.hpp lines 897-1003, and
of the corrector's use of criterion B, /repo/core/include/bertini2/trackers/newton_corrector.hpp lines 289-320.

Doubles are real numbers; the logarithm of zero is minus infinity, as in C++, so the right hand sides are extended reals.
-/
import Mathlib.Analysis.SpecialFunctions.Log.Base
import Mathlib.Data.EReal.Inv

namespace B2.Track.Crit

/-- `log10` of a non-negative double. -/
noncomputable def lg (x : ℝ) : EReal := if x = 0 then ⊥ else (Real.logb 10 x : ℝ)

/-- `AdaptiveMultiplePrecisionConfig`, trackers/config.hpp lines 153-175: the fields the criteria use. -/
structure Conf where
  eps : ℝ
  phi : ℝ
  psi : ℝ
  safety1 : ℤ
  safety2 : ℤ

/-- `CriterionARHS`, amp_criteria.hpp lines 50-53. -/
noncomputable def rhsA (c : Conf) (nJ nJi : ℝ) : EReal := ((c.safety1 : ℝ) : EReal) + lg (nJi * c.eps * (nJ + c.phi))

/-- `D`, amp_criteria.hpp lines 86-90. -/
noncomputable def capD (c : Conf) (nJ nJi : ℝ) : EReal := lg (nJi * ((2 + c.eps) * nJ + c.eps * c.phi) + 1)

/-- `CriterionBRHS`, amp_criteria.hpp lines 106-110; `n` is the number of remaining iterations. -/
noncomputable def rhsB (c : Conf) (nJ nJi : ℝ) (n : ℕ) (tol res : ℝ) : EReal :=
  ((c.safety1 : ℝ) : EReal) + capD c nJ nJi + (-(lg tol) + lg res) / ((n : ℝ) : EReal)

/-- `CriterionCRHS`, amp_criteria.hpp lines 155-162. -/
noncomputable def rhsC (c : Conf) (nJi nz tol : ℝ) : EReal :=
  ((c.safety2 : ℝ) : EReal) + -(lg tol) + lg (nJi * c.psi + nz)

/-- `CriterionA`, amp_criteria.hpp lines 69-73, with `p` digits. -/
def passA (c : Conf) (p : ℕ) (nJ nJi : ℝ) : Prop := rhsA c nJ nJi < ((p : ℝ) : EReal)

/-- `CriterionB`, amp_criteria.hpp lines 129-138. -/
def passB (c : Conf) (p : ℕ) (nJ nJi : ℝ) (n : ℕ) (tol res : ℝ) : Prop := rhsB c nJ nJi n tol res < ((p : ℝ) : EReal)

/-- `CriterionC`, amp_criteria.hpp lines 201-205. -/
def passC (c : Conf) (p : ℕ) (nJi nz tol : ℝ) : Prop := rhsC c nJi nz tol < ((p : ℝ) : EReal)

/-- `unsigned(max(r, 0))` for a finite `r` within the range of `unsigned`; minus infinity gives 0. -/
noncomputable def digitsOf (r : EReal) : ℕ := ⌊(max r 0).toReal⌋₊

/-- `DigitsB`, amp_tracker.hpp lines 900-934: criterion B with the allowed number of iterations, and the size proportion
of the latest prediction in place of the residual. -/
noncomputable def digitsB (c : Conf) (nJ nJi : ℝ) (maxIts : ℕ) (tol a : ℝ) : ℕ := digitsOf (rhsB c nJ nJi maxIts tol a)

/-- `DigitsC`, amp_tracker.hpp lines 942-970. -/
noncomputable def digitsC (c : Conf) (nJi nz tol : ℝ) : ℕ := digitsOf (rhsC c nJi nz tol)

/-- `MinRequiredPrecision_BCTol`, amp_tracker.hpp lines 997-1003. -/
noncomputable def minRequired (c : Conf) (nJ nJi nz : ℝ) (maxIts digitsTol : ℕ) (tol a : ℝ) : ℕ :=
  max (max (digitsB c nJ nJi maxIts tol a) (digitsC c nJi nz tol)) (max digitsTol 16)

/-- The outcomes of the corrector. -/
inductive Out
  | success
  | higherPrecision
  | failed
  deriving DecidableEq

open Classical in
/-- The loop of `Correct`, newton_corrector.hpp lines 290-320, from iteration `ii` on, `k` iterations to come:
`res ii` is the length of the step of iteration `ii`, `nJ ii`, `nJi ii` the norms found in it, `nz ii` the norm of the new
point; linear solves succeed.  Criterion B is told that `max - ii` iterations remain.  The test
`ii >= min - 1` is `ii + 1 ≥ min` for `min ≥ 1`. -/
noncomputable def correct (c : Conf) (p minIts maxIts : ℕ) (tol : ℝ) (nJ nJi nz res : ℕ → ℝ) : ℕ → ℕ → Out
  | 0, _ => .failed
  | k + 1, ii =>
    if res ii < tol ∧ minIts ≤ ii + 1 then .success
    else if ¬ passB c p (nJ ii) (nJi ii) (maxIts - ii) tol (res ii) then .higherPrecision
    else if ¬ passC c p (nJi ii) (nz ii) tol then .higherPrecision
    else correct c p minIts maxIts tol nJ nJi nz res k (ii + 1)

end B2.Track.Crit
