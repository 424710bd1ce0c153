import Verif.Alg.Homotopy
import Verif.Start.TotalDegree

/-!
# `CloneGiven::SystemSetup` with the total degree start system

`nag_algorithms/common/policies.hpp:184-226`. The target is the clone made at construction
(`policies.hpp:159-167`); here it is the object `i` itself.
-/

namespace B2.Alg.Htp

open B2.Sys B2.Start

/-- `Patch(sizes)` (`system/patch.hpp:147-180`): random coefficients, one vector per group;
`coef k` are the random numbers drawn for group `k`. -/
def randomPatch (coef : ℕ → ℕ → ℂ) (sizes : List ℕ) : List (List ℂ) :=
  sizes.zipIdx.map fun p => (List.range p.1).map (coef p.2)

open Classical in
/-- `System::AutoPatch`, `system.cpp:900-908`: throws unless `IsHomogeneous()`. -/
noncomputable def autoPatch (coef : ℕ → ℕ → ℂ) (w : World) (i : ℕ) : Option World :=
  if ¬ systemIsHom w (w.objs i) then none
  else (w.objs i).vs.groupSizes.map fun sizes =>
    w.set i { w.objs i with patch := randomPatch coef sizes, patched := true }

/-- `PrepareTarget`, `policies.hpp:184-190`. -/
noncomputable def prepareTarget (fresh : ℕ → Var) (coef : ℕ → ℕ → ℂ) (w : World) (i : ℕ) : Option World :=
  (homogenize fresh w i).bind fun w1 => autoPatch coef w1 i

/-- The random choices made in `SystemSetup`: names of new variables are fresh by `fresh`; `fresh'`
is what the start system's own `Homogenize` would use. -/
structure Choices where
  fresh : ℕ → Var
  coef : ℕ → ℕ → ℂ
  rand : ℕ → ℚ × ℚ
  fresh' : ℕ → Var
  γ : ℚ × ℚ

/-- `SystemSetup`, `policies.hpp:218-226`, for `StartSystemT = TotalDegree`: target object `i`, start
system object `k`, homotopy object `h`, temporaries `a`, `b`, `c`. -/
noncomputable def systemSetup (simp : Node → Node) (r : Choices) (t : Var) (i k a b c h : ℕ) (w : World) :
    Option World :=
  (prepareTarget r.fresh r.coef w i).bind fun w2 =>
    (totalDegree r.rand r.fresh' w2 i k).bind fun w3 =>
      formHomotopy simp r.γ t i k a b c h w3

end B2.Alg.Htp
