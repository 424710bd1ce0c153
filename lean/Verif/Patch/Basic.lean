import Mathlib.Algebra.Field.Defs
import Mathlib.Algebra.BigOperators.Group.List.Basic

/-!
# Patches: evaluation, Jacobian, rescaling, precision

Code: `core/include/bertini2/system/patch.hpp`.

A `Patch` holds one coefficient vector per variable group. Numbers are elements of a field `K`
(rounding is treated separately in the precision part). Reading or writing past the end of a vector
(an assertion failure or undefined behaviour in C++) gives `none`.
-/

namespace B2.Patch

variable {K : Type} [Field K]

/-- The inner loop of `EvalInPlace`: `value += x(counter)*coefficients[ii](jj); counter++;`
patch.hpp 323–327. -/
def dotLoop (x : List K) : List K → ℕ → K → Option K
  | [], _, v => some v
  | c :: cs, k, v => (x[k]?).bind fun xk => dotLoop x cs (k + 1) (v + xk * c)

/-- Writing `function_values(k) = v`; `none` when out of range. -/
def write {β : Type} (l : List β) (k : ℕ) (v : β) : Option (List β) :=
  if k < l.length then some (l.set k v) else none

/-- The outer loop of `EvalInPlace`: group `ii` is written at `ii+offset`. patch.hpp 319–328.
The argument `row` is `ii+offset`. -/
def evalLoop (x : List K) : List (List K) → ℕ → ℕ → List K → Option (List K)
  | [], _, _, vals => some vals
  | g :: gs, row, counter, vals =>
    (dotLoop x g counter (-1)).bind fun v =>
    (write vals row v).bind fun vals' =>
    evalLoop x gs (row + 1) (counter + g.length) vals'

/-- `Patch::EvalInPlace(function_values, x)`, patch.hpp 297–329: throws when the output is shorter
than the number of groups; the patch values go to the last entries. `cs` is the list of coefficient
vectors, `variable_group_sizes_` is the list of their lengths (established by every constructor,
patch.hpp 102–185). -/
def evalInPlace (cs : List (List K)) (vals x : List K) : Option (List K) :=
  if vals.length < cs.length then none
  else evalLoop x cs (vals.length - cs.length) 0 vals

/-- `Patch::Eval(x)`, patch.hpp 337–343: evaluation into a zero vector of length
`NumVariableGroups()`. -/
def eval (cs : List (List K)) (x : List K) : Option (List K) :=
  evalInPlace cs (List.replicate cs.length 0) x

/-- The inner loop of `JacobianInPlace` on one row: `jacobian(row,counter++) = coefficients[ii](jj)`.
patch.hpp 373–375. -/
def jacRow : List K → ℕ → List K → Option (List K)
  | [], _, r => some r
  | c :: cs, k, r => (write r k c).bind fun r' => jacRow cs (k + 1) r'

/-- The outer loop of `JacobianInPlace`. patch.hpp 371–375. -/
def jacLoop : List (List K) → ℕ → ℕ → List (List K) → Option (List (List K))
  | [], _, _, m => some m
  | g :: gs, row, counter, m =>
    (m[row]?).bind fun r =>
    (jacRow g counter r).bind fun r' =>
    (write m row r').bind fun m' =>
    jacLoop gs (row + 1) (counter + g.length) m'

/-- `NumVariables()`, patch.hpp 453–459. -/
def numVariables (cs : List (List K)) : ℕ := (cs.map List.length).sum

/-- `Patch::JacobianInPlace(jacobian, x)`, patch.hpp 355–376, with its assertions on the shape of
the matrix (list of rows). -/
def jacobianInPlace (cs : List (List K)) (m : List (List K)) : Option (List (List K)) :=
  if m.length < cs.length ∨ ¬ (∀ r ∈ m, r.length = numVariables cs) then none
  else jacLoop cs (m.length - cs.length) 0 m

/-- The dot product `subvec.transpose() * coefficients[ii]`, patch.hpp 419. -/
def dot (xs cs : List K) : K := (List.zipWith (· * ·) xs cs).sum

variable [DecidableEq K]

/-- The loop of `RescalePointToFitInPlace`: `subvec /= subvec.transpose()*coefficients[ii]` on the
segment of the point from `starting_index_counter`. patch.hpp 416–421. A division by zero (NaN or
infinite coordinates in C++) gives `none`. -/
def rescaleLoop : List (List K) → ℕ → List K → Option (List K)
  | [], _, x => some x
  | g :: gs, start, x =>
    if x.length < start + g.length then none
    else if dot ((x.drop start).take g.length) g = 0 then none
    else rescaleLoop gs (start + g.length)
      (x.take start ++
        ((x.drop start).take g.length).map (· / dot ((x.drop start).take g.length) g) ++
        x.drop (start + g.length))

/-- `RescalePointToFitInPlace`, patch.hpp 404–422, with the size assertion. -/
def rescale (cs : List (List K)) (x : List K) : Option (List K) :=
  if x.length ≠ numVariables cs then none else rescaleLoop cs 0 x

end B2.Patch

namespace B2.Patch.Prec

/-- The precision-related state of one patch: the stored highest-precision coefficients, the working
multiprecision coefficients and the member `precision_` (digits). Coefficients of all groups are in
one list; real and imaginary parts are separate entries. -/
structure State (K : Type) where
  hi : List K
  work : List K
  prec : ℕ

/-- `Patch(sizes)` at default precision `d`: working coefficients are the stored ones rounded to `d`
digits (`x.precision(d)`). patch.hpp 147–185. -/
def init {K : Type} (rnd : ℕ → K → K) (d : ℕ) (cs : List K) : State K :=
  ⟨cs, cs.map (rnd d), d⟩

inductive Op
  | setPrecision (p : ℕ)
  | copy (defaultPrecision : ℕ)

/-- `Precision(new_precision)`, patch.hpp 254–279, and the copy constructor, patch.hpp 102–135
(after which we follow the copy). When lowering, the working value itself is rounded; when raising,
it is taken afresh from the stored coefficients. The copy constructor copies the stored coefficients
into the working ones without rounding ("assignment preserves precision of source") and records
`DefaultPrecision()`. -/
def step {K : Type} (rnd : ℕ → K → K) (s : State K) : Op → State K
  | .setPrecision p =>
    if s.prec = p then s
    else if p > s.prec then ⟨s.hi, s.hi.map (rnd p), p⟩
    else ⟨s.hi, s.work.map (rnd p), p⟩
  | .copy d => ⟨s.hi, s.hi, d⟩

def run {K : Type} (rnd : ℕ → K → K) (s : State K) (ops : List Op) : State K :=
  ops.foldl (step rnd) s

end B2.Patch.Prec
