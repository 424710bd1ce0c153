import Verif.System.State

/-!
# Bounds of coefficients and degrees of a system, and the settings of adaptive precision made from them

`core/src/system/system.cpp:932-967`, `core/include/bertini2/trackers/config.hpp:150-213`. Numbers are
exact: the rounding of the evaluations is not modelled.
-/

namespace B2.Sys

open Classical

/-- What one evaluation of `CoefficientBound` gets from outside: the random point `randy`, the random time,
and the uninitialised memory of the results of `Eval` and `Jacobian` (`system.cpp:943-951`). -/
structure Draw where
  x : List ℂ
  t : ℂ
  fj : List ℂ
  Jj : List (List ℂ)

/-- `v.array().abs().maxCoeff()`; Eigen asserts that there are entries. -/
noncomputable def maxAbs : List ℂ → Option ℝ
  | [] => none
  | z :: zs => some (zs.foldl (fun m y => max m ‖y‖) ‖z‖)

/-- One evaluation, `system.cpp:943-954`: `Eval` at the random point, then the Jacobian at the stored
values; `J.array().abs().maxCoeff()` goes over all entries. -/
noncomputable def coefEval (simp : Node → Node) (w : World) (i : ℕ) (d : Draw) : Option (ℝ × World) := do
  let (f, w) ← if (w.objs i).path.isSome then evalAtTime simp w i d.fj d.x d.t else evalAt simp w i d.fj d.x
  let (J, w) ← jacStored simp w i d.Jj
  let a ← maxAbs f
  let b ← maxAbs J.flatten
  some (max a b, w)

/-- The loop of `CoefficientBound`, `system.cpp:940-956`; the number of evaluations is the number of
draws, one by default (`system.hpp:1386`). -/
noncomputable def coefLoop (simp : Node → Node) (i : ℕ) : List Draw → ℝ → World → Option (ℝ × World)
  | [], b, w => some (b, w)
  | d :: ds, b, w => do
    let (m, w) ← coefEval simp w i d
    coefLoop simp i ds (max m b) w

/-- `CoefficientBound(num_evaluations)`. -/
noncomputable def coefficientBound (simp : Node → Node) (w : World) (i : ℕ) (ds : List Draw) : Option (ℝ × World) :=
  coefLoop simp i ds 0 w

/-- `DegreeBound()`, `system.cpp:962-966`: the largest of the degrees. Without functions the end of an
empty range is dereferenced. -/
noncomputable def degreeBound (w : World) (i : ℕ) : Option ℤ :=
  match degreesOf w (w.objs i) with
  | some (d :: ds) => some (ds.foldl max d)
  | _ => none

/-- The members of `AdaptiveMultiplePrecisionConfig` made from a system, `config.hpp:152-166`. -/
structure Amp where
  coefficient_bound : ℝ
  degree_bound : ℝ
  epsilon : ℝ
  Phi : ℝ
  Psi : ℝ

/-- `SetBoundsAndEpsilonFrom`, `config.hpp:184-192`. -/
noncomputable def Amp.setBounds (simp : Node → Node) (w : World) (i : ℕ) (ds : List Draw) (a : Amp) :
    Option (Amp × World) := do
  let vars ← (w.objs i).vars
  let D ← degreeBound w i
  let (B, w) ← coefficientBound simp w i ds
  some ({ a with epsilon := (vars.length : ℝ) ^ 2, degree_bound := D, coefficient_bound := B }, w)

/-- `SetPhiPsiFromBounds`, `config.hpp:201-205`. -/
noncomputable def Amp.setPhiPsi (a : Amp) : Amp :=
  { a with Phi := a.degree_bound * (a.degree_bound - 1) * a.coefficient_bound,
           Psi := a.degree_bound * a.coefficient_bound }

/-- `AdaptiveMultiplePrecisionConfig(sys)`, `config.hpp:213-221`: the members are those of the default
constructor, of which three are uninitialised (`a`), then set from the system. `AMPConfigFrom`,
`config.hpp:246-251`, used by the constructor of the adaptive tracker (`amp_tracker.hpp:362-367`). -/
noncomputable def ampFrom (simp : Node → Node) (w : World) (i : ℕ) (ds : List Draw) (a : Amp) :
    Option (Amp × World) :=
  (Amp.setBounds simp w i ds { a with coefficient_bound := 1000, degree_bound := 5 }).map fun r => (r.1.setPhiPsi, r.2)

end B2.Sys
