import Verif.SLP.Foreign

/-!
# Implicit parameters of a system

Code: `SetImplicitParameters`, /repo/core/include/bertini2/system/system.hpp 1058-1069; `AddImplicitParameter`,
/repo/core/src/system/system.cpp 636-648; evaluation by straight line program as in Basic.lean and Run.lean.
-/

namespace B2.SLP

variable {V : Type}

/-- The loop of `SetImplicitParameters`, system.hpp 1064-1066, over parameters and values. -/
def assignParams : List ℕ → List V → (ℕ → V) → ℕ → V
  | p :: ps, v :: vs, x => assignParams ps vs (Function.update x p v)
  | _, _, x => x

/-- `SetImplicitParameters`, system.hpp 1058-1069: the values of the parameter nodes; `none` is the exception for a wrong number of
values. -/
def setImplicit (ps : List ℕ) (vs : List V) (x : ℕ → V) : Option (ℕ → V) :=
  if vs.length ≠ ps.length then none else some (assignParams ps vs x)

end B2.SLP
