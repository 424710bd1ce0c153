import Verif.System.VarsProof

/-!
# Printing a system

`operator<<(std::ostream&, System const&)`, `core/src/system/system.cpp:1162-1278`.

Simplified: a line is one value of `SLine`; a variable stands in the text as itself (its name), an expression as itself (its
printing is the subject of Parse/Print.lean); the straight line program (C185), the patch and the current values are opaque texts of type `X`.
-/

namespace B2.Sys

variable {α E X : Type}

/-- The derivatives of a differentiated system, by the method that was used. -/
inductive DiffForm (E : Type)
  | jacobian (l : List (String × E))
  | derivatives (space time : List E)

/-- The members of a system that are printed. -/
structure Desc (α E X : Type) where
  vars : Vars α
  functions : List (String × E)
  parameters : List (String × E)
  constants : List (String × E)
  path : Option α
  /-- `none`: `is_differentiated_` is not set -/
  diff : Option (DiffForm E)
  /-- the straight line program, if that is the method of evaluation -/
  slp : Option X
  patch : Option X
  current : X

/-- A line of the text, with its label. -/
inductive SLine (α E X : Type)
  | numGroups (n : ℕ)
  | group (k : ℕ) (vs : List α)
  | numHomVars (n : ℕ)
  | homVars (vs : List α)
  | numUngrouped (n : ℕ)
  | ungrouped (vs : List α)
  | numFunctions (n : ℕ)
  | function (name : String) (e : E)
  | numParameters (n : ℕ)
  | parameter (name : String) (e : E)
  | numConstants (n : ℕ)
  | constant (name : String) (e : E)
  | path (v : α)
  | noPath
  | differentiated
  | jacobian (name : String) (e : E)
  | space (i j : ℕ) (e : E)
  | time (i : ℕ) (e : E)
  | slp (x : X)
  | notDifferentiated
  | patch (x : X)
  | notPatched
  | current (x : X)

/-- The groups, `system.cpp:1166-1178`: `counter` goes up with each. -/
def groupLines (counter : ℕ) : List (List α) → List (SLine α E X)
  | [] => []
  | g :: r => .group counter g :: groupLines (counter + 1) r

/-- A section which appears only if not empty, `system.cpp:1198-1210`. -/
def section' (num : ℕ → SLine α E X) (line : String → E → SLine α E X) (l : List (String × E)) : List (SLine α E X) :=
  if l.length ≠ 0 then num l.length :: l.map (fun p => line p.1 p.2) else []

/-- The derivatives by the variables, `system.cpp:1234-1239`: `none`, an access past the end. -/
def spaceLines (nf nv : ℕ) (space : List E) : Option (List (SLine α E X)) :=
  ((List.range nv).mapM fun jj => (List.range nf).mapM fun ii =>
    (space[ii + jj * nf]?).map (SLine.space ii jj)).map List.flatten

/-- The derivatives by the path variable, `system.cpp:1241-1246`. -/
def timeLines (havePath : Bool) (nf : ℕ) (time : List E) : Option (List (SLine α E X)) :=
  if havePath then (List.range nf).mapM fun ii => (time[ii]?).map (SLine.time ii) else some []

/-- The `switch` on the method of differentiation, `system.cpp:1222-1249`. -/
def Desc.derivLines (s : Desc α E X) : DiffForm E → Option (List (SLine α E X))
  | .jacobian l => some (l.map fun p => SLine.jacobian p.1 p.2)
  | .derivatives space time => do
      let a ← spaceLines s.functions.length s.vars.numVariables space
      let b ← timeLines s.path.isSome s.functions.length time
      some (a ++ b)

/-- The section on the derivatives, `system.cpp:1218-1263`. -/
def Desc.diffLines (s : Desc α E X) : Option (List (SLine α E X)) :=
  match s.diff with
  | none => some [.notDifferentiated]
  | some d => do
      let ds ← s.derivLines d
      some (.differentiated :: ds ++ s.slp.toList.map .slp)

/-- The line on the path variable, `system.cpp:1213-1216`. -/
def pathLine : Option α → SLine α E X
  | some v => .path v
  | none => .noPath

/-- The lines on the patch, `system.cpp:1265-1271`. -/
def patchLine : Option X → SLine α E X
  | some x => .patch x
  | none => .notPatched

/-- `operator<<`, `system.cpp:1162-1278`. -/
def Desc.print (s : Desc α E X) : Option (List (SLine α E X)) := do
  let d ← s.diffLines
  some (.numGroups s.vars.groups.length :: groupLines 0 s.vars.groups ++
    [.numHomVars s.vars.numHomVars, .homVars s.vars.homVars,
      .numUngrouped s.vars.ungrouped.length, .ungrouped s.vars.ungrouped,
      .numFunctions s.functions.length] ++ s.functions.map (fun p => SLine.function p.1 p.2) ++
    section' .numParameters .parameter s.parameters ++ section' .numConstants .constant s.constants ++
    [pathLine s.path] ++ d ++
    [patchLine s.patch, .current s.current])

end B2.Sys
