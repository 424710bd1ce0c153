/-
Model of the midpath check, /repo/core/include/bertini2/nag_algorithms/midpath_check.hpp.

Points are vectors of exact complex numbers, all of the same dimension `d`; rounding and non-finite coordinates are not
modelled.  The supremum norm of `Fin d → ℂ` is Eigen's `lpNorm<Infinity>`.
-/
import Mathlib.Analysis.Complex.Basic
import Verif.Track.Newton

namespace B2.Alg
open B2.Track (Code)

/-- Points. -/
abbrev Pt (d : ℕ) := Fin d → ℂ

/-- `EGBoundaryMetaData`, zero_dim_solve.hpp lines 193-218, without the step size. -/
structure Bdry (d : ℕ) where
  pt : Pt d
  code : Code

/-- `CrossedPath`, midpath_check.hpp lines 74-111. -/
structure Crossed where
  index : ℕ
  with_ : List (ℕ × Bool)
  rerun : Bool
  deriving DecidableEq

/-- `MidpathChecker`, midpath_check.hpp lines 205-208: state kept between checks. -/
structure Checker where
  crossed : List Crossed
  passed : Bool

/-- A freshly constructed checker, midpath_check.hpp lines 59-64. -/
def Checker.fresh : Checker := { crossed := [], passed := true }

open Classical in
/-- The comparison of two boundary points, midpath_check.hpp lines 150-152: a quotient of norms.  A zero denominator gives infinity or
not-a-number; neither is below the tolerance. -/
noncomputable def relClose {d : ℕ} (tol : ℝ) (x y : Pt d) : Bool :=
  decide (‖x‖ ≠ 0 ∧ ‖x - y‖ / ‖x‖ < tol)

open Classical in
/-- The variable `same_start`, midpath_check.hpp lines 158-160. -/
noncomputable def sameStart {d : ℕ} (tol : ℝ) (x y : Pt d) : Bool := decide (tol < ‖x - y‖)

/-- The body of `for(auto& v : crossed_paths_)`, midpath_check.hpp lines 164-178. -/
def note (i j : ℕ) (same : Bool) (v : Crossed) : Crossed :=
  let v1 := if v.index = i then { v with with_ := v.with_ ++ [(j, same)], rerun := v.rerun || !same } else v
  if v1.index = j then { v1 with with_ := v1.with_ ++ [(i, same)], rerun := v1.rerun || !same } else v1

/-- What is done with a coinciding pair, midpath_check.hpp lines 154-194. -/
def addPair (i j : ℕ) (same : Bool) (c : Checker) : Checker :=
  let iStored := c.crossed.any fun v => v.index == i
  let jStored := c.crossed.any fun v => v.index == j
  let l := c.crossed.map (note i j same)
  let l1 := if iStored then l else l ++ [{ index := i, with_ := [(j, same)], rerun := !same }]
  let l2 := if jStored then l1 else l1 ++ [{ index := j, with_ := [(i, same)], rerun := !same }]
  { crossed := l2, passed := false }

/-- The test for a pair, midpath_check.hpp lines 137-152: both successful and close. -/
noncomputable def coincide {d : ℕ} (tol : ℝ) (data : List (Bdry d)) (i j : ℕ) : Bool :=
  match data[i]?, data[j]? with
  | some a, some b => decide (a.code = .success) && decide (b.code = .success) && relClose tol a.pt b.pt
  | _, _ => false

/-- The inner loop, midpath_check.hpp lines 143-196. -/
noncomputable def inner {d : ℕ} (tol : ℝ) (data : List (Bdry d)) (start : ℕ → Pt d) (i : ℕ) (js : List ℕ) (c : Checker) :
    Checker :=
  js.foldl (fun c j => if coincide tol data i j then addPair i j (sameStart tol (start i) (start j)) c else c) c

/-- `Check`, midpath_check.hpp lines 133-199.  Returns the new state; the returned flag is `passed`. -/
noncomputable def check {d : ℕ} (tol : ℝ) (data : List (Bdry d)) (start : ℕ → Pt d) (c : Checker) : Checker :=
  (List.range data.length).foldl
    (fun c i => inner tol data start i (List.range' (i + 1) (data.length - (i + 1))) c) c

end B2.Alg
