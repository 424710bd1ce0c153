/-
Model of the cycle number search and extrapolation of the power series endgame,
/repo/core/include/bertini2/endgames/powerseries.hpp lines 317-354 (`ComputeBoundOnCycleNumber`), 375-426
(`ComputeCycleNumber`), 474-510 (`TransformToSPlane`), 531-546 (`ComputeApproximationOfXAtT0`).

Simplifications: exact complex arithmetic, no rounding and no NaN.  `none` is a failed assertion, an exception or a
read outside a container.
-/
import Verif.Endgame.Hermite
import Mathlib.Analysis.SpecialFunctions.Pow.Complex
import Mathlib.Analysis.Complex.Norm
import Mathlib.Analysis.Normed.Group.Constructions
import Mathlib.Algebra.Order.Round

namespace B2.Endgame

variable {ι : Type} [Fintype ι]

/-- `EndgameConfig`, `PowerSeriesConfig`, /repo/core/include/bertini2/endgames/config.hpp lines 100-125, and
`top`, `NumTraits<RT>::highest()`. -/
structure CycCfg where
  n : ℕ
  factor : ℝ
  maxCycle : ℕ
  amplification : ℕ
  top : ℝ

/-- `((b - a).transpose()*rand_vector_).sum()`, powerseries.hpp lines 333-334. -/
def randSum (rand a b : ι → ℂ) : ℂ := ∑ i, (b i - a i) * rand i

/-- The decision on the two sums, powerseries.hpp lines 336-353.  Simplified: the conversion to `unsigned` (line 349) does
not overflow; `round` of a number `≥ 1`. -/
noncomputable def boundFrom (cfg : CycCfg) (r1 r2 : ℂ) : ℕ :=
  if ‖r1‖ = 0 ∨ ‖r2‖ = 0 then 1
  else
    let estimate := Real.log cfg.factor / Real.log ‖r2 / r1‖
    if estimate < 1 then 1
    else max (round estimate * (cfg.amplification : ℤ)).toNat cfg.maxCycle

/-- `ComputeBoundOnCycleNumber`, powerseries.hpp lines 317-354: the last three samples. -/
noncomputable def boundOnCycle (cfg : CycCfg) (rand : ι → ℂ) (samples : List (ι → ℂ)) : Option ℕ :=
  match samples.reverse with
  | s2 :: s1 :: s0 :: _ => some (boundFrom cfg (randSum rand s0 s1) (randSum rand s1 s2))
  | _ => none

/-- `TransformToSPlane`, powerseries.hpp lines 474-510, at offset `off` (0 for `ContStart::Front`, size minus `num` for
`ContStart::Back`). -/
noncomputable def toSPlane (c : ℕ) (t0 : ℂ) (num off : ℕ) (times : List ℂ) (derivs : List (ι → ℂ)) :
    Option (List ℂ × List (ι → ℂ)) :=
  if c = 0 then none
  else
    let shift := times.getD off 0 - t0
    let ts := (times.drop off).take num
    let ds := (derivs.drop off).take num
    let ss := ts.map fun t => ((t - t0) / shift) ^ (1 / (c : ℂ))
    some (ss, List.zipWith (fun (d : ι → ℂ) s => fun i => d i * (c * s ^ (c - 1)) * shift) ds ss)

/-- The quantity minimised, powerseries.hpp lines 408-415: predict the latest sample from the earliest `num` ones. -/
noncomputable def residual (t0 : ℂ) (num : ℕ) (times : List ℂ) (samples derivs : List (ι → ℂ)) (c : ℕ) : Option ℝ :=
  (toSPlane c t0 num 0 times derivs).bind fun p =>
    (hermite (((times.getLastD 0 - t0) / (times.headD 0 - t0)) ^ (1 / (c : ℂ))) num p.1 samples p.2 true).map fun v =>
      ‖v - samples.getLastD 0‖

/-- The loop `for(candidate = 1; candidate <= upper_bound; ++candidate)`, powerseries.hpp lines 404-423; the state is
`min_found_difference` and `cycle_number_`. -/
noncomputable def searchLoop (res : ℕ → Option ℝ) : List ℕ → ℝ × ℕ → Option (ℝ × ℕ)
  | [], st => some st
  | c :: cs, st =>
    match res c with
    | none => none
    | some r => searchLoop res cs (if r < st.1 then (r, c) else st)

/-- The asserts `AssertSizesTimeSpaceDeriv`, powerseries.hpp lines 228-235. -/
def sizesOk (cfg : CycCfg) (times : List ℂ) (samples derivs : List (ι → ℂ)) : Prop :=
  samples.length = times.length ∧ samples.length = derivs.length ∧ cfg.n ≤ samples.length

/-- `num_pts`, powerseries.hpp lines 391-396. -/
def numPts (cfg : CycCfg) (len : ℕ) : ℕ := if cfg.n < len then cfg.n else cfg.n - 1

open Classical in
/-- `ComputeCycleNumber`, powerseries.hpp lines 375-426; `old` is the value of `cycle_number_` before the call. -/
noncomputable def cycleNumber (cfg : CycCfg) (rand : ι → ℂ) (t0 : ℂ) (times : List ℂ) (samples derivs : List (ι → ℂ))
    (old : ℕ) : Option ℕ :=
  if sizesOk cfg times samples derivs then
    (boundOnCycle cfg rand samples).bind fun ub =>
      (searchLoop (residual t0 (numPts cfg samples.length) times samples derivs)
        ((List.range ub).map (· + 1)) (cfg.top, old)).map (·.2)
  else none

/-- `ComputeApproximationOfXAtT0`, powerseries.hpp lines 531-546: transform the latest `n` samples with the cycle number
found and extrapolate to 0. -/
noncomputable def approxAtT0 (cfg : CycCfg) (rand : ι → ℂ) (t0 : ℂ) (times : List ℂ) (samples derivs : List (ι → ℂ))
    (old : ℕ) : Option (ι → ℂ) :=
  (cycleNumber cfg rand t0 times samples derivs old).bind fun c =>
    (toSPlane c t0 cfg.n (times.length - cfg.n) times derivs).bind fun p =>
      hermite 0 cfg.n p.1 samples p.2 false

end B2.Endgame
