/-
Model of the extraction of solutions from a finished solve, /repo/core/include/bertini2/nag_algorithms/output.hpp lines
70-114 (which paths are printed) and 226-287 (`NonsingularSolutions`, `AllSolutions`).
-/
import Verif.Alg.ZeroDim

namespace B2.Alg
open B2.Track (Code)

variable {d : ℕ} {β : Type}

/-- `NonsingularSolutions::Extract`, output.hpp lines 229-255; `dehom` is `DehomogenizePoint` of the target system (see
System/Vars.lean).  Points of successful paths have been computed by the endgame, so they have the right size. -/
def nonsingular (dehom : Pt d → β) (s : ZSt d) : List β :=
  (List.range s.sols.length).filterMap fun i =>
    match s.md[i]?, s.sols[i]? with
    | some m, some x => if m.post = .success ∧ m.mult = 1 then some (dehom x) else none
    | _, _ => none

/-- Is this an endgame run on path `i`? -/
def isEg (i : ℕ) : Ev d → Bool
  | .endgame j _ => j == i
  | .before _ _ => false

/-- Has the endgame ever stored a point for path `i`?  Before that the entry of `solutions_post_endgame_` is an empty
vector, zero_dim_solve.hpp line 579. -/
def stored (s : ZSt d) (i : ℕ) : Bool := s.log.any (isEg i)

/-- `AllSolutions::Extract`, output.hpp lines 263-286, for a system with at least one variable: `DehomogenizePoint` throws
(`none`) for an empty vector, system.hpp lines 1289-1296. -/
def allSolutions (dehom : Pt d → β) (s : ZSt d) : Option (List β) :=
  (List.range s.sols.length).mapM fun i =>
    match s.sols[i]? with
    | some x => if stored s i then some (dehom x) else none
    | none => none

/-- The paths whose endpoint `Classic::MainData` and `Classic::RawData` print, output.hpp lines 79-86 and 104-109. -/
def printed (s : ZSt d) : List ℕ :=
  (List.range s.sols.length).filter fun i =>
    match s.md[i]? with
    | some m => decide (m.post ≠ .neverStarted)
    | none => false

end B2.Alg
