import Verif.Alg.Metadata

/-!
# Comparison and printing of metadata

Code: /repo/core/include/bertini2/nag_algorithms/zero_dim_solve.hpp 145-169 and 172-198 (`SolutionMetaData`), 203-234
(`EGBoundaryMetaData`).

Simplified: numbers are real or complex numbers (no `NaN`, which is not equal to itself); a printed text is the list of its
labels and values (values are printed with the digits of the stream, which may be fewer than they have).
-/

namespace B2.Alg.Md

open B2.Track (Code)

/-- `SolutionMetaData`, zero_dim_solve.hpp 109-143: the members of `Rec`, and those with an initial value. -/
structure MD where
  raw : Rec
  precChanged : Bool
  firstTime : ℂ
  maxPrec : ℕ
  pre : Code
  eg : Code
  mult : ℤ

/-- A record as `resize` makes it and the calls of the log have left it: value-initialised, so that members never assigned are
zero, zero_dim_solve.hpp 577. -/
def Rec.zeroed (r : Rec) : Rec :=
  ⟨some (r.pathIndex.getD 0), some (r.solIndex.getD 0), some (r.cond.getD 0), some (r.newton.getD 0), some (r.time.getD 0),
    some (r.acc.getD 0), some (r.accUser.getD 0), some (r.cycle.getD 0), some (r.resid.getD 0), some (r.isReal.getD false),
    some (r.isFinite.getD false), some (r.isSingular.getD false)⟩

/-- A chain of `&&`: `none` is a read of an indeterminate value. -/
def conj : List (Option Bool) → Option Bool
  | [] => some true
  | none :: _ => none
  | some false :: _ => some false
  | some true :: l => conj l

open Classical in
/-- `==` of two members; `none` if one of them has no value. -/
noncomputable def cmp {α : Type} : Option α → Option α → Option Bool
  | some a, some b => some (decide (a = b))
  | _, _ => none

/-- `final_time_used`: a complex number, so zero by default and never indeterminate. -/
def MD.time (m : MD) : ℂ := m.raw.time.getD 0

/-- `SolutionMetaData::operator==`, zero_dim_solve.hpp 145-168. -/
noncomputable def mdEq (m o : MD) : Option Bool :=
  conj [cmp m.raw.pathIndex o.raw.pathIndex, cmp m.raw.solIndex o.raw.solIndex,
    cmp (some m.precChanged) (some o.precChanged), cmp (some m.firstTime) (some o.firstTime),
    cmp (some m.maxPrec) (some o.maxPrec), cmp (some m.pre) (some o.pre),
    cmp m.raw.cond o.raw.cond, cmp m.raw.newton o.raw.newton, cmp (some m.time) (some o.time),
    cmp m.raw.acc o.raw.acc, cmp m.raw.accUser o.raw.accUser, cmp m.raw.cycle o.raw.cycle,
    cmp (some m.eg) (some o.eg), cmp m.raw.resid o.raw.resid, cmp (some m.mult) (some o.mult),
    cmp m.raw.isReal o.raw.isReal, cmp m.raw.isFinite o.raw.isFinite, cmp m.raw.isSingular o.raw.isSingular]

/-- A printed value. -/
inductive Val where
  | nat (n : ℕ)
  | int (z : ℤ)
  | real (x : ℝ)
  | cpx (z : ℂ)
  | flag (b : Bool)
  | code (c : Code)

/-- The lines one after another; `none` if a value is indeterminate. -/
def lines : List (String × Option Val) → Option (List (String × Val))
  | [] => some []
  | (_, none) :: _ => none
  | (l, some v) :: r => (lines r).map ((l, v) :: ·)

/-- `operator<<` of `SolutionMetaData`, zero_dim_solve.hpp 172-198. -/
def mdPrint (m : MD) : Option (List (String × Val)) :=
  lines [("path_index", m.raw.pathIndex.map .nat), ("solution_index", m.raw.solIndex.map .nat),
    ("precision_changed", some (.flag m.precChanged)), ("time_of_first_prec_increase", some (.cpx m.firstTime)),
    ("max_precision_used", some (.nat m.maxPrec)), ("pre_endgame_success", some (.code m.pre)),
    ("condition_number", m.raw.cond.map .real), ("newton_residual", m.raw.newton.map .real),
    ("final_time_used", some (.cpx m.time)), ("accuracy_estimate", m.raw.acc.map .real),
    ("accuracy_estimate_user_coords", m.raw.accUser.map .real), ("cycle_num", m.raw.cycle.map .nat),
    ("endgame_success", some (.code m.eg)), ("function_residual", m.raw.resid.map .real),
    ("multiplicity", some (.int m.mult)), ("is_real", m.raw.isReal.map .flag),
    ("is_finite", m.raw.isFinite.map .flag), ("is_singular", m.raw.isSingular.map .flag)]

/-- `EGBoundaryMetaData`, zero_dim_solve.hpp 203-217. -/
structure BD where
  pt : List ℂ
  code : Code
  step : Option ℝ

/-- `==` of two vectors: their sizes must agree (an assertion of the matrix library), `none` otherwise. -/
noncomputable def vecEq (u v : List ℂ) : Option Bool := if u.length = v.length then cmp (some u) (some v) else none

/-- `EGBoundaryMetaData::operator==`, zero_dim_solve.hpp 219-227. -/
noncomputable def bdEq (m o : BD) : Option Bool :=
  conj [vecEq m.pt o.pt, cmp (some m.code) (some o.code), cmp m.step o.step]

end B2.Alg.Md
