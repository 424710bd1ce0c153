import Verif.Tree.Total
import Verif.System.State

/-!
# The two ways a system differentiates itself

`System::SetDerivMethod` and `SetEvalMethod` choose where `Jacobian` and `TimeDerivative` read from: `jacobian_` (one total
differential per function), `space_derivatives_` / `time_derivatives_` (one tree per function and variable), or the compiled program
`slp_`.  `Verif/System/State.lean` has the evaluation of values and the default `DerivMethod::Derivatives`; here the containers of
both methods are kept.

Simplifications: the variables have the values `env` when derivatives are asked for (`SetVariables`, `SetPathVariable`: C20, C105),
also in the memory of the program; patches are left out (C22); the functions are distinct objects with their roots in `fns`;
`SimplifyDerivatives` changes nothing, as the roots it is applied to are `Function` and `Jacobian` nodes, for which
`EliminateZeros`, `EliminateOnes` and `ReduceDepth` are those of `Symbol` and `Node` (`symbols/symbol.cpp:35-42`, `node.cpp:64-67`).
-/

namespace B2.Sys

open Classical

/-- `DerivMethod`, `system.hpp:72-80`. -/
inductive DMethod
  | jacobianNode | derivatives
deriving DecidableEq

/-- The members of `System` which take part. -/
structure DSys where
  fns : List Node
  vars : List Var
  path : Option Var
  emethod : Method
  dmethod : DMethod
  diffed : Bool
  jac : List Node
  dx : List Node
  dt : List Node
  prog : Prog

/-- A new system, `system.hpp:111` with the defaults of `system.cpp:41-49`. -/
def DSys.new : DSys := ⟨[], [], none, .slp, .derivatives, false, [], [], [], Prog.empty⟩

/-- `DifferentiateUsingJacobianNode()`, `system.cpp:360-368`. -/
def DSys.useJacobianNode (M : Marks) (s : DSys) : DSys :=
  { s with jac := s.fns.map (differentiateNode M none), diffed := true }

/-- `DifferentiateUsingDerivatives()`, `system.cpp:370-391`. -/
def DSys.useDerivatives (M : Marks) (s : DSys) : DSys :=
  { s with
    dx := s.vars.flatMap fun v => s.fns.map (differentiateNode M (some v))
    dt := match s.path with
      | some t => s.fns.map (differentiateNode M (some t))
      | none => s.dt
    diffed := true }

/-- `GetSpaceDerivatives()` and `GetTimeDerivatives()`, `system.cpp:393-408`: what they leave behind. -/
def DSys.getDerivatives (M : Marks) (s : DSys) : DSys :=
  if s.dmethod = .jacobianNode ∨ s.diffed = false then s.useDerivatives M else s

/-- The time derivatives the compiled program computes.  `Compile` calls `GetTimeDerivatives` twice, once to give the derivatives
their output locations (`straight_line_program.cpp:812-819`) and once to compile them (`847-849`).  With `DerivMethod::Derivatives` both
calls return the same nodes.  With `DerivMethod::JacobianNode` each call makes new nodes: the second ones are compiled to other
locations, and the output locations are never written; they keep the 0 with which `resize` filled the memory (`854-855`). -/
def DSys.compiledTime (s : DSys) : List Node :=
  match s.dmethod with
  | .derivatives => s.dt
  | .jacobianNode => s.dt.map fun _ => .int 0

/-- `SLPCompiler::Compile(*this)`, `straight_line_program.cpp:739-864`, as in `State.lean`: the program computes the functions and the
derivatives which `GetSpaceDerivatives` and `GetTimeDerivatives` return; functions of unknown variables are out of its domain. -/
noncomputable def DSys.compile (M : Marks) (s : DSys) : Option DSys :=
  let s := s.getDerivatives M
  if ∀ f ∈ s.fns, Closed s.vars s.path f then
    some { s with prog :=
      { vars := s.vars, path := s.path, fns := s.fns, dx := s.dx,
        dt := match s.path with | some _ => s.compiledTime | none => [], mem := fun _ => 0 } }
  else none

/-- The first switch of `Differentiate()`, `system.cpp:325-336`. -/
def DSys.fillContainers (M : Marks) (s : DSys) : DSys :=
  match s.dmethod with
  | .jacobianNode => s.useJacobianNode M
  | .derivatives => s.useDerivatives M

/-- `Differentiate()`, `system.cpp:323-358`. -/
noncomputable def DSys.differentiate (M : Marks) (s : DSys) : Option DSys :=
  match s.emethod with
  | .functionTree => some (s.fillContainers M)
  | .slp => (s.fillContainers M).compile M

/-- `if (!is_differentiated_) Differentiate();`, `system.hpp:481-482`, `772-773`. -/
noncomputable def DSys.ensure (M : Marks) (s : DSys) : Option DSys :=
  if s.diffed then some s else s.differentiate M

/-- The entries of `jacobian_`, evaluated for each variable, `system.hpp:490-493`; `jacobian_[ii]` must exist. -/
noncomputable def jacobianNodeRows (M : Marks) (env : Env) (jac : List Node) (nf : ℕ) (vars : List Var) :
    Option (List (List ℂ)) :=
  (List.range nf).mapM fun ii => (jac[ii]?).map fun J => vars.map fun v => evalJ M env v J

/-- The switches of `JacobianInPlace`, `system.hpp:484-510`: the rows that are written. -/
noncomputable def DSys.jacRows (M : Marks) (s : DSys) (env : Env) : Option (List (List ℂ)) :=
  match s.emethod, s.dmethod with
  | .functionTree, .jacobianNode => jacobianNodeRows M env s.jac s.fns.length s.vars
  | .functionTree, .derivatives => Sys.jacRows s.dx env s.fns.length s.vars.length
  | .slp, _ => Sys.jacRows s.prog.dx env s.prog.fns.length s.prog.vars.length

/-- `JacobianInPlace(J)`, `system.hpp:470-516`; `junk` is the memory of the matrix before the call. -/
noncomputable def DSys.jacobian (M : Marks) (s : DSys) (env : Env) (junk : List (List ℂ)) :
    Option (List (List ℂ) × DSys) :=
  if junk.length ≠ s.fns.length ∨ ¬ ∀ r ∈ junk, r.length = s.vars.length then none
  else do
    let s ← s.ensure M
    let rows ← s.jacRows M env
    let out ← blit2 rows junk
    some (out, s)

/-- The switches of `TimeDerivativeInPlace`, `system.hpp:775-803`. -/
noncomputable def DSys.timeRow (M : Marks) (s : DSys) (env : Env) (t : Var) : Option (List ℂ) :=
  match s.emethod, s.dmethod with
  | .functionTree, .jacobianNode => (List.range s.fns.length).mapM fun ii => (s.jac[ii]?).map fun J => evalJ M env t J
  | .functionTree, .derivatives => timeRows s.dt env s.fns.length
  | .slp, _ => timeRows s.prog.dt env s.prog.fns.length

/-- `TimeDerivativeInPlace(ds_dt)`, `system.hpp:757-810`, without patches. -/
noncomputable def DSys.timeDerivative (M : Marks) (s : DSys) (env : Env) (junk : List ℂ) : Option (List ℂ × DSys) :=
  match s.path with
  | none => none
  | some t =>
    if junk.length < s.fns.length then none
    else do
      let s ← s.ensure M
      let row ← s.timeRow M env t
      let out ← blit row junk
      some (out, s)

/-- What a user may do with a system. -/
inductive DOp
  /-- `SetEvalMethod`, `system.hpp:1583-1586`. -/
  | setEval (m : Method)
  /-- `SetDerivMethod`, `system.hpp:1602-1605`. -/
  | setDeriv (m : DMethod)
  /-- Any operation that changes functions or variables and clears `is_differentiated_`: `AddFunction`, `AddVariableGroup`,
  `AddPathVariable`, `Homogenize`, ... (`system.cpp:480-742`). -/
  | edit (fns : List Node) (vars : List Var) (path : Option Var)
  /-- `Jacobian`. -/
  | jacobian (env : Env) (junk : List (List ℂ))
  /-- `TimeDerivative`. -/
  | time (env : Env) (junk : List ℂ)
  /-- `GetSpaceDerivatives` or `GetTimeDerivatives`; also compiling a program of one's own, `StraightLineProgram(sys)` or
  `SLPCompiler::Compile(sys)`, which calls them (`straight_line_program.cpp:797-812`). -/
  | get
  /-- Go on with a copy made by the copy constructor, `system.cpp:95-148`: neither `deriv_method_` nor `slp_` is copied. -/
  | copy

/-- One operation; `none` when it throws or reads outside of a container. -/
noncomputable def DSys.step (M : Marks) (s : DSys) : DOp → Option DSys
  | .setEval m => some { s with emethod := m }
  | .setDeriv m => some { s with dmethod := m }
  | .edit fns vars path => some { s with fns := fns, vars := vars, path := path, diffed := false }
  | .jacobian env junk => (s.jacobian M env junk).map Prod.snd
  | .time env junk => (s.timeDerivative M env junk).map Prod.snd
  | .get => some (s.getDerivatives M)
  | .copy => some { s with dmethod := .derivatives, prog := Prog.empty }

/-- A history. -/
noncomputable def DSys.run (M : Marks) : List DOp → DSys → Option DSys
  | [], s => some s
  | op :: ops, s => (s.step M op).bind (DSys.run M ops)

end B2.Sys
