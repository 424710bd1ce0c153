import Verif.Start.PropsIndex
import Verif.System.StateProof
import Verif.Tree.Operators
import Mathlib.Analysis.SpecialFunctions.Pow.Complex

/-!
# `start_system::TotalDegree`

Code: `core/src/system/start/total_degree.cpp`. Built on the system model of `Verif.System.State`.

Simplifications: exact complex numbers; the random rational numbers are a parameter; degrees are
`int`s in range.
-/

namespace B2

mutual
/-- `Degree()` with the default null argument: the total degree. As `degV` except that every variable
counts (`variable.cpp:119-120`). -/
noncomputable def degT (cur : Env) : Node → ℤ
  | .int _ | .float _ _ | .rat _ _ | .special _ => 0
  | .var _ => 1
  | .sum ops => degTSum cur ops
  | .mult ops => degTMult cur ops
  | .neg n | .fn n => degT cur n
  | .pow b e => powDeg (degT cur b) (degT cur e) (eval cur e)
  | .ipow n k => if degT cur n < 0 then degT cur n else k * degT cur n
  | .sqrt n | .exp n | .log n | .sin n | .cos n | .tan n | .asin n | .acos n | .atan n =>
      transDeg (degT cur n)
/-- The loop of `SumOperator::Degree`, `arithmetic.cpp:217-230`. -/
noncomputable def degTSum (cur : Env) : Ops → ℤ
  | .nil => 0
  | .cons _ n r =>
      if degT cur n < 0 then degT cur n
      else if degTSum cur r < 0 then degTSum cur r
      else max (degT cur n) (degTSum cur r)
/-- The loop of `MultOperator::Degree`, `arithmetic.cpp:763-791`. -/
noncomputable def degTMult (cur : Env) : Ops → ℤ
  | .nil => 0
  | .cons m n r =>
      if degT cur n < 0 then degT cur n
      else if degT cur n ≠ 0 ∧ m = false then -1
      else if degTMult cur r < 0 then degTMult cur r
      else degT cur n + degTMult cur r
end

end B2

namespace B2.Start

open Classical B2.Sys

/-- `System::IsHomogeneous()`, `system.cpp:491-527`. -/
def systemIsHom (w : World) (o : Obj) : Prop :=
  o.vs.numHomVars = o.vs.groups.length ∧
  ∀ f ∈ w.roots o,
    (∀ g ∈ (if o.vs.numHomVars = 0 then o.vs.groups
      else List.zipWith (fun g h => h :: g) o.vs.groups o.vs.homVars), isHom w.vals g f) ∧
    (∀ g ∈ o.vs.homGroups, isHom w.vals g f) ∧
    (o.vs.ungrouped ≠ [] → isHom w.vals o.vs.ungrouped f)

/-- `TotalDegree::SanityChecks`, `total_degree.cpp:137-153`: no exception is thrown. `IsPolynomial`
itself throws for a partially homogenized system (`system.cpp:541-543`). -/
def tdAccepts (w : World) (o : Obj) : Prop :=
  o.vs.homGroups.length = 0 ∧ o.total = o.vs.numVariables ∧ o.path = none ∧
  o.vs.groups.length = 1 ∧ ¬ (o.vs.numHomVars ≠ 0 ∧ o.vs.numHomVars ≠ o.vs.groups.length) ∧
  systemIsPoly w o

/-- `GenerateFunctions`, `total_degree.cpp:170-176`: `pow(x, d) - r` for each variable of the group,
with the degrees and random values at the same position. Reading past the end of those vectors is
`none`. -/
def tdFunctions : List Var → List ℤ → List (ℚ × ℚ) → Option (List Node)
  | [], _, _ => some []
  | v :: vs, d :: ds, r :: rs =>
    (tdFunctions vs ds rs).map (mkSub (mkPow (.var v) d) (.rat r.1 r.2) :: ·)
  | _, _, _ => none

/-- `AddFunction` for each of a list of nodes, `system.cpp:702-708`. -/
def addFns (k : ℕ) : List Node → World → World
  | [], w => w
  | n :: ns, w => addFns k ns ({ w with heap := Function.update w.heap w.next n,
                                        next := w.next + 1 }.set k
      { w.objs k with fns := (w.objs k).fns ++ [w.next], diffed := false })

/-- The constructor `TotalDegree(System const& s)`, `total_degree.cpp:37-50`, for `s` the object `i`;
the new object is `k`. `rand` are the random rational numbers of `SeedRandomValues` (163-168). -/
noncomputable def totalDegree (rand : ℕ → ℚ × ℚ) (fresh : ℕ → Var) (w : World) (i k : ℕ) :
    Option World :=
  let o := w.objs i
  if ¬ tdAccepts w o then none
  else
    (tdFunctions (o.vs.groups.headD []) ((w.roots o).map (degT w.vals))
      ((List.range o.fns.length).map rand)).bind fun fs =>
    (if systemIsHom w o then
        homogenize fresh (addFns k fs (w.set k { Obj.new .slp with vs := o.vs, path := o.path })) k
      else some (addFns k fs (w.set k { Obj.new .slp with vs := o.vs, path := o.path }))).bind fun w2 =>
    some (if o.patched then w2.set k { w2.objs k with patch := o.patch, patched := true } else w2)

/-- `degrees_`, `CopyDegrees`, `total_degree.cpp:155-160`: `static_cast<size_t>` of each degree. -/
noncomputable def tdDegrees (w : World) (o : Obj) : List ℕ :=
  (w.roots o).map fun n => (degT w.vals n % 2 ^ 64).toNat

/-- `NumStartPoints`, `total_degree.cpp:61-67`: a product in `unsigned long long`. -/
def numStartPoints (degs : List ℕ) : ℕ := degs.foldl (fun a d => a * d % 2 ^ 64) 1

/-- The value of a random number. -/
noncomputable def ratValue (r : ℚ × ℚ) : ℂ := (r.1 : ℂ) + (r.2 : ℂ) * Complex.I

/-- One coordinate, `total_degree.cpp:86`. -/
noncomputable def tdCoord (s d : ℕ) (r : ℚ × ℚ) : ℂ :=
  Complex.exp (2 * Real.pi * Complex.I * s / d) * ratValue r ^ ((1 : ℂ) / d)

/-- The loop of lines 85-86 over the natural variables; reading past the end of a vector is `none`. -/
noncomputable def tdCoords (n : ℕ) (s degs : List ℕ) (rs : List (ℚ × ℚ)) : Option (List ℂ) :=
  (List.range n).mapM fun ii =>
    (s[ii]?).bind fun k => (degs[ii]?).bind fun d => (rs[ii]?).map (tdCoord k d)

/-- `GenerateStartPoint(dbl, index)`, `total_degree.cpp:71-92` (the multiprecision version 95-128
computes the same numbers), for the start system object `o`. The result vector has `NumVariables()`
entries; if the loop does not fill exactly these, entries are uninitialised or out of range: `none`. -/
noncomputable def startPoint (o : Obj) (degs : List ℕ) (rs : List (ℚ × ℚ)) (index : ℕ) :
    Option (List ℂ) :=
  (indexToSubscript index degs).bind fun s =>
  (tdCoords o.vs.numNatural s degs rs).bind fun cs =>
  let x := if o.patched then 1 :: cs else cs
  if x.length ≠ o.vs.numVariables then none
  else if o.patched then Patch.rescale o.patch x else some x

/-- `TotalDegree::operator*=(n)`, `total_degree.cpp:53-57`, as a big-step relation "the call on object
`i` with argument `N` in world `w` returns, leaving world `w'`". Its body is `*this *= n; return
*this;`, where `*this *= n` names the same member function (the one of the base class is hidden), so a
call returns only if another call with the same arguments returns. The same holds for
`MHomogeneous::operator*=`, `mhom.cpp:102-106`. -/
inductive TimesReturns (i : ℕ) (N : Node) : World → World → Prop
  | body {w w' : World} : TimesReturns i N w w' → TimesReturns i N w w'

end B2.Start
