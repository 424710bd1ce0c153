/-!
# Choosing an algorithm at run time

Model of /repo/core/include/bertini2/blackbox/switches_zerodim.hpp, user_homotopy.hpp and config.hpp:
the chain of switches that turns run time options into an instance of the class template
`algorithm::ZeroDim`. The instance is represented by its template arguments.
-/

namespace B2.Alg.Blackbox

/-- `type::Start`, `type::Tracker`, `type::Endgame`, blackbox/config.hpp 37-41. -/
inductive Start | totalDegree | mhom | user
deriving DecidableEq

inductive Tracker | fixedDouble | fixedMultiple | adaptive
deriving DecidableEq

inductive Endgame | powerSeries | cauchy
deriving DecidableEq

/-- `policy::CloneGiven` or `policy::RefToGiven`. -/
inductive Policy | clone | refer
deriving DecidableEq

/-- `ZeroDimRT`, switches_zerodim.hpp 44-49. -/
structure RT where
  start : Start := .totalDegree
  tracker : Tracker := .adaptive
  endgame : Endgame := .cauchy
deriving DecidableEq

/-- Template arguments of `algorithm::ZeroDim`: tracker type, endgame type (the flavour, and the
tracker type it is made for by `EndgameSelector`), start system type, policy. -/
structure Instance where
  tracker : Tracker
  endgame : Endgame
  endgameFor : Tracker
  start : Start
  policy : Policy
deriving DecidableEq

/-- `StorageSelector<StartType>::ShouldClone`, blackbox/config.hpp 44-70. -/
def shouldClone : Start → Bool
  | .user => false
  | .totalDegree => true
  | .mhom => true

/-- `ZeroDimSpecifyComplete`, switches_zerodim.hpp 52-63. -/
def specifyComplete (s : Start) (t : Tracker) (e : Endgame × Tracker) (p : Policy) : Instance :=
  ⟨t, e.1, e.2, s, p⟩

/-- Both overloads of `ZeroDimSpecifyShouldClone`, switches_zerodim.hpp 65-77. The template parameter
`EndgameType` is not used: `EndgameSelector<TrackerType>::Cauchy` is passed on. -/
def specifyShouldClone (clone : Bool) (s : Start) (t : Tracker) (_e : Endgame × Tracker) : Instance :=
  if clone then specifyComplete s t (.cauchy, t) .clone
  else specifyComplete s t (.cauchy, t) .refer

/-- `ZeroDimSpecifyEndgame`, switches_zerodim.hpp 80-95. -/
def specifyEndgame (rt : RT) (s : Start) (t : Tracker) : Instance :=
  match rt.endgame with
  | .powerSeries => specifyShouldClone (shouldClone s) s t (.powerSeries, t)
  | .cauchy => specifyShouldClone (shouldClone s) s t (.cauchy, t)

/-- `ZeroDimSpecifyTracker`, switches_zerodim.hpp 97-109. -/
def specifyTracker (rt : RT) (s : Start) : Instance :=
  match rt.tracker with
  | .fixedDouble => specifyEndgame rt s .fixedDouble
  | .fixedMultiple => specifyEndgame rt s .fixedMultiple
  | .adaptive => specifyEndgame rt s .adaptive

/-- `MakeZeroDim` / `ZeroDimSpecifyStart`, switches_zerodim.hpp 111-129; `none`: throws. -/
def makeZeroDim (rt : RT) : Option Instance :=
  match rt.start with
  | .totalDegree => some (specifyTracker rt .totalDegree)
  | .mhom => some (specifyTracker rt .mhom)
  | .user => none

/-- `MakeUserHom` / `UserHomSpecifyStart`, user_homotopy.hpp 48-58. The field `start` is not looked
at. -/
def makeUserHom (rt : RT) : Instance := specifyTracker rt .user

end B2.Alg.Blackbox
