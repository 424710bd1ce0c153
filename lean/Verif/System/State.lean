import Verif.System.Vars
import Verif.Patch.Basic
import Verif.Tree.Diff
import Verif.Tree.Degree

/-!
# `System` objects: evaluation, derivatives, edits, arithmetic, copies

Code: `core/include/bertini2/system/system.hpp`, `core/src/system/system.cpp`.

`Function` objects are shared by pointer between systems (the copy constructor copies the pointers),
so the model has a heap from function identities to their root expressions. `Variable` objects are
shared as well: their current values are global.

Simplifications:
* one number type; values are exact complex numbers; precision is not modelled here;
* function trees and compiled programs compute the current values of their inputs: this is what C12
  (caches) and C15, C17 (straight-line programs) are about. A compiled program is therefore kept as
  the expressions it was compiled from together with its input memory. Compiling outside the domain
  of `C15_compile_correct_partial` (a function listed twice, variables in no group) is `none`;
* derivatives use the default `DerivMethod::Derivatives`; `simp` is what `SimplifyDerivatives` does to
  a derivative (identity when `auto_simplify_` is off);
* `Variables()` is always computed (its cache agrees with it: C18);
* parameters, subfunctions and constants are not modelled: expressions are trees over variables.
-/

namespace B2.Sys

open Classical

/-- `EvalMethod`, `system.hpp:60-70`. -/
inductive Method
  | functionTree | slp
deriving DecidableEq

/-- The straight-line program of a system, `slp_`: what it was compiled from, and the values in its
input locations. -/
structure Prog where
  vars : List Var
  path : Option Var
  fns : List Node
  dx : List Node
  dt : List Node
  mem : Env

/-- The default-constructed `StraightLineProgram`: no functions, no variables. -/
def Prog.empty : Prog := ⟨[], none, [], [], [], fun _ => 0⟩

/-- The members of `System`, `system.hpp:1740-1795`. `patch` is `patch_` (one coefficient vector per
group), `patched` is `is_patched_`, `cur` is `current_variable_values_`. -/
structure Obj where
  vs : Vars Var
  path : Option Var
  fns : List ℕ
  diffed : Bool
  dx : List Node
  dt : List Node
  prog : Prog
  method : Method
  patch : List (List ℂ)
  patched : Bool
  cur : List ℂ

/-- `System()`; the default method is the straight-line program (`system.cpp:40-53`). -/
def Obj.new (m : Method) : Obj :=
  ⟨Vars.empty, none, [], false, [], [], Prog.empty, m, [], false, []⟩

structure World where
  heap : ℕ → Node
  next : ℕ
  vals : Env
  objs : ℕ → Obj

/-- `Variables()`. -/
def Obj.vars (o : Obj) : Option (List Var) := o.vs.ordering

/-- `NumTotalFunctions()`, `system.cpp:232-235`: natural functions plus the size of `patch_`
(whether or not `is_patched_`). -/
def Obj.total (o : Obj) : ℕ := o.fns.length + o.patch.length

/-- The roots of the functions of a system. -/
def World.roots (w : World) (o : Obj) : List Node := o.fns.map w.heap

def World.set (w : World) (i : ℕ) (o : Obj) : World := { w with objs := Function.update w.objs i o }

/-- Setting variables to values one after the other (`system.hpp:984-990`, and the loop of
`StraightLineProgram::SetVariableValues`). -/
noncomputable def bind (vars : List Var) (x : List ℂ) (env : Env) : Env :=
  (vars.zip x).foldl (fun e p => Function.update e p.1 p.2) env

/-- Every variable of the expression is a variable of the system or its path variable. -/
def Closed (vars : List Var) (path : Option Var) (n : Node) : Prop :=
  ∀ v ∈ n.vars, v ∈ vars ∨ path = some v

/-- The space derivatives, column-major: `space_derivatives_[ii+jj*num_functions]`,
`system.cpp:377-381`. -/
def spaceDerivs (simp : Node → Node) (vars : List Var) (fs : List Node) : List Node :=
  vars.flatMap fun v => fs.map fun f => simp (diff v f)

/-- `Differentiate()`, `system.cpp:323-358` with `DifferentiateUsingDerivatives`, `370-391`. -/
noncomputable def differentiate (simp : Node → Node) (w : World) (o : Obj) : Option Obj := do
  let vars ← o.vars
  let fs := w.roots o
  let dx := spaceDerivs simp vars fs
  let dt := match o.path with
    | some t => fs.map fun f => simp (diff t f)
    | none => o.dt
  let o' := { o with dx := dx, dt := dt, diffed := true }
  match o.method with
  | .functionTree => some o'
  | .slp =>
    if o.fns.Nodup ∧ ∀ f ∈ fs, Closed vars o.path f then
      some { o' with prog :=
        { vars := vars, path := o.path, fns := fs, dx := dx,
          dt := match o.path with | some _ => dt | none => [], mem := fun _ => 0 } }
    else none

/-- `if (!is_differentiated_) Differentiate();` -/
noncomputable def ensureDiff (simp : Node → Node) (w : World) (o : Obj) : Option Obj :=
  if o.diffed then some o else differentiate simp w o

/-- `SetVariables(new_values)`, `system.hpp:964-1002`. -/
noncomputable def setVariables (simp : Node → Node) (w : World) (i : ℕ) (x : List ℂ) :
    Option World := do
  let o := w.objs i
  let vars ← o.vars
  if x.length ≠ vars.length then none
  else do
    let o ← ensureDiff simp w o
    match o.method with
    | .functionTree => some ({ w with vals := bind vars x w.vals }.set i { o with cur := x })
    | .slp =>
      if x.length < o.prog.vars.length then none
      else some (w.set i { o with
        cur := x, prog := { o.prog with mem := bind o.prog.vars x o.prog.mem } })

/-- `SetPathVariable(new_value)`, `system.hpp:1015-1034` with
`StraightLineProgram::SetPathVariable`. -/
noncomputable def setPath (simp : Node → Node) (w : World) (i : ℕ) (t : ℂ) : Option World := do
  let o := w.objs i
  let p ← o.path
  let o ← ensureDiff simp w o
  let w := { w with vals := Function.update w.vals p t }
  match o.method with
  | .functionTree => some (w.set i o)
  | .slp => do
    let q ← o.prog.path
    some (w.set i { o with prog := { o.prog with mem := Function.update o.prog.mem q t } })

/-- Write `a` over the first entries of `out`; out of range is `none`. -/
def blit {β : Type} (a out : List β) : Option (List β) :=
  if a.length ≤ out.length then some (a ++ out.drop a.length) else none

/-- Write the rows `a` over the upper left corner of the matrix `out`. -/
def blit2 {β : Type} : List (List β) → List (List β) → Option (List (List β))
  | [], out => some out
  | _ :: _, [] => none
  | r :: rs, o :: os => do
    let r' ← blit r o
    (blit2 rs os).map (r' :: ·)

/-- The case `FunctionTree` of the switch in `EvalInPlace`, `system.hpp:284-290`. -/
noncomputable def evalTrees (w : World) (o : Obj) (out : List ℂ) : Option (List ℂ) :=
  match o.method with
  | .functionTree => blit ((w.roots o).map (eval w.vals)) out
  | .slp => some out

/-- Patch values into the last entries when patched, `system.hpp:299-302`. -/
noncomputable def evalPatch (o : Obj) (out : List ℂ) : Option (List ℂ) :=
  if o.patched then Patch.evalInPlace o.patch out o.cur else some out

/-- `EvalInPlace(function_values)` with the stored values, `system.hpp:272-303`. The case
`FunctionTree` of the switch has no `break` and falls through into the other case. -/
noncomputable def evalStored (w : World) (i : ℕ) (out : List ℂ) : Option (List ℂ) := do
  let o := w.objs i
  if out.length ≠ o.total then none
  else do
    let out ← evalTrees w o out
    let out ← blit (o.prog.fns.map (eval o.prog.mem)) out
    evalPatch o out

/-- `Eval(x)`, `system.hpp:339-371`; `junk` is the freshly allocated, uninitialised vector of length
`NumTotalFunctions()`. -/
noncomputable def evalAt (simp : Node → Node) (w : World) (i : ℕ) (junk x : List ℂ) :
    Option (List ℂ × World) := do
  let vars ← (w.objs i).vars
  if x.length ≠ vars.length ∨ (w.objs i).path.isSome then none
  else do
    let w ← setVariables simp w i x
    (evalStored w i junk).map (·, w)

/-- `Eval(x,t)`, `system.hpp:405-451`. -/
noncomputable def evalAtTime (simp : Node → Node) (w : World) (i : ℕ) (junk x : List ℂ) (t : ℂ) :
    Option (List ℂ × World) := do
  let vars ← (w.objs i).vars
  if x.length ≠ vars.length ∨ (w.objs i).path.isNone then none
  else do
    let w ← setVariables simp w i x
    let w ← setPath simp w i t
    (evalStored w i junk).map (·, w)

/-- Rows of derivative values read column-major from the list `ds` of derivatives:
`J(ii,jj) = ds[ii+jj*nf]` (`system.hpp:497-500`, and `GetJacobianInPlace` of the program). -/
noncomputable def jacRows (ds : List Node) (env : Env) (nf nv : ℕ) : Option (List (List ℂ)) :=
  (List.range nf).mapM fun ii => (List.range nv).mapM fun jj =>
    (ds[ii + jj * nf]?).map (eval env)

/-- The switch of `JacobianInPlace`, `system.hpp:484-510`. -/
noncomputable def jacValues (w : World) (o : Obj) (nv : ℕ) : Option (List (List ℂ)) :=
  match o.method with
  | .functionTree => jacRows o.dx w.vals o.fns.length nv
  | .slp => jacRows o.prog.dx o.prog.mem o.prog.fns.length o.prog.vars.length

/-- Patch rows, `system.hpp:513-514`. -/
noncomputable def jacPatch (o : Obj) (out : List (List ℂ)) : Option (List (List ℂ)) :=
  if o.patched then Patch.jacobianInPlace o.patch out else some out

/-- `JacobianInPlace(J)`, `system.hpp:470-516`. -/
noncomputable def jacStored (simp : Node → Node) (w : World) (i : ℕ) (out : List (List ℂ)) :
    Option (List (List ℂ) × World) := do
  let o := w.objs i
  let vars ← o.vars
  if out.length ≠ o.total ∨ ¬ (∀ r ∈ out, r.length = vars.length) then none
  else do
    let o ← ensureDiff simp w o
    let rows ← jacValues w o vars.length
    let out ← blit2 rows out
    let out ← jacPatch o out
    some (out, w.set i o)

/-- `Jacobian(x)`, `system.hpp:540-575`; `junk` is the uninitialised matrix `Mat<T> J(m,n)`. -/
noncomputable def jacAt (simp : Node → Node) (w : World) (i : ℕ) (junk : List (List ℂ))
    (x : List ℂ) : Option (List (List ℂ) × World) := do
  let vars ← (w.objs i).vars
  if x.length ≠ vars.length ∨ (w.objs i).path.isSome then none
  else do
    let w ← setVariables simp w i x
    jacStored simp w i junk

/-- `Jacobian(x,t)`, `system.hpp:587-640`. -/
noncomputable def jacAtTime (simp : Node → Node) (w : World) (i : ℕ) (junk : List (List ℂ))
    (x : List ℂ) (t : ℂ) : Option (List (List ℂ) × World) := do
  let vars ← (w.objs i).vars
  if x.length ≠ vars.length ∨ (w.objs i).path.isNone then none
  else do
    let w ← setVariables simp w i x
    let w ← setPath simp w i t
    jacStored simp w i junk

/-- The values of the time derivatives of the first `nf` functions (`system.hpp:789-793`, and
`GetTimeDerivInPlace` of the program). -/
noncomputable def timeRows (ds : List Node) (env : Env) (nf : ℕ) : Option (List ℂ) :=
  (List.range nf).mapM fun ii => (ds[ii]?).map (eval env)

/-- The switch of `TimeDerivativeInPlace`, `system.hpp:777-803`. -/
noncomputable def timeValues (w : World) (o : Obj) : Option (List ℂ) :=
  match o.method with
  | .functionTree => timeRows o.dt w.vals o.fns.length
  | .slp => timeRows o.prog.dt o.prog.mem o.prog.fns.length

/-- Zeros for the patches, `system.hpp:806-808`: one per variable group (affine or homogeneous). -/
noncomputable def timePatch (o : Obj) (out : List ℂ) : Option (List ℂ) :=
  if o.patched then
    if out.length < o.fns.length + (o.vs.groups.length + o.vs.homGroups.length) then none
    else some (out.take o.fns.length ++
      List.replicate (o.vs.groups.length + o.vs.homGroups.length) 0 ++
      out.drop (o.fns.length + (o.vs.groups.length + o.vs.homGroups.length)))
  else some out

/-- `TimeDerivativeInPlace(ds_dt)`, `system.hpp:757-810`. -/
noncomputable def timeStored (simp : Node → Node) (w : World) (i : ℕ) (out : List ℂ) :
    Option (List ℂ × World) := do
  let o := w.objs i
  if out.length < o.fns.length ∨ o.path.isNone then none
  else do
    let o ← ensureDiff simp w o
    let vals ← timeValues w o
    let out ← blit vals out
    let out ← timePatch o out
    some (out, w.set i o)

/-- `TimeDerivative(x,t)`, `system.hpp:679-713`. -/
noncomputable def timeAt (simp : Node → Node) (w : World) (i : ℕ) (junk x : List ℂ) (t : ℂ) :
    Option (List ℂ × World) := do
  let w ← setVariables simp w i x
  let w ← setPath simp w i t
  timeStored simp w i junk

/-- The copy constructor, `system.cpp:95-148`: it does not copy `slp_` (nor `deriv_method_`,
`auto_simplify_`), but it does copy `is_differentiated_`. Function pointers are shared. -/
def Obj.copy (o : Obj) : Obj := { o with prog := Prog.empty }

/-- `swap(System&, System&)`, `system.cpp:56-91`: exchanges everything but `slp_` and
`current_variable_values_` (and `deriv_method_`, `auto_simplify_`, which are not modelled). What the first
argument becomes; the second becomes `b.swapped a`. -/
def Obj.swapped (a b : Obj) : Obj := { b with prog := a.prog, cur := a.cur }

/-- `operator+=` on the function roots, `system.cpp:1320-1321`, one function after the other. -/
def plusRoots : List ℕ → List ℕ → (ℕ → Node) → Option (ℕ → Node)
  | [], _, heap => some heap
  | _ :: _, [], _ => none
  | f :: fs, g :: gs, heap =>
    plusRoots fs gs (Function.update heap f
      (.sum (.cons true (heap g) (.cons true (heap f) .nil))))

/-- `operator+=`, `system.cpp:1295-1324`: object `i` += object `j`. `NumTotalVariableGroups()` is the
number of affine and homogeneous groups. -/
noncomputable def plusAssign (w : World) (i j : ℕ) : Option World := do
  let a := w.objs i
  let b := w.objs j
  if a.total ≠ b.total ∨ a.vs.numVariables ≠ b.vs.numVariables ∨
      a.vs.numHomVars ≠ b.vs.numHomVars ∨
      a.vs.groups.length + a.vs.homGroups.length ≠ b.vs.groups.length + b.vs.homGroups.length then none
  else if a.patched ∧ b.patched ∧ a.patch ≠ b.patch then none
  else do
    let a := if ¬ a.patched ∧ b.patched then { a with patch := b.patch, patched := true } else a
    let heap ← plusRoots a.fns b.fns w.heap
    some ({ w with heap := heap }.set i a)

/-- `operator*=` on the roots, `system.cpp:1334-1341`: `SetRoot(N * EntryNode())`. -/
def timesRoots (N : Node) : List ℕ → (ℕ → Node) → (ℕ → Node)
  | [], heap => heap
  | f :: fs, heap => timesRoots N fs (Function.update heap f
      (.mult (.cons true N (.cons true (heap f) .nil))))

/-- `operator*=`. -/
def timesAssign (w : World) (i : ℕ) (N : Node) : World :=
  { w with heap := timesRoots N (w.objs i).fns w.heap }

/-- `a + b` as a new object `k`: `operator+(System lhs, System const& rhs) { return lhs+=rhs; }`,
`system.cpp:1328-1331`; `lhs` is a copy made by the copy constructor. -/
noncomputable def plusNew (w : World) (i j k : ℕ) : Option World :=
  plusAssign (w.set k (w.objs i).copy) k j

/-- `N * s` as a new object `k`, `system.cpp:1344-1353`. -/
def timesNew (w : World) (i : ℕ) (N : Node) (k : ℕ) : World :=
  timesAssign (w.set k (w.objs i).copy) k N

/-- `Degrees(Variables())`, `system.cpp:978-984`. -/
noncomputable def degreesOf (w : World) (o : Obj) : Option (List ℤ) :=
  o.vars.map fun vars => (w.roots o).map (degG w.vals vars)

/-- Reordering by a list of indices, `system.cpp:1001-1009`. -/
def Obj.permute (o : Obj) (indices : List ℕ) : Option Obj :=
  (indices.mapM fun k => o.fns[k]?).map fun fs => { o with fns := fs }

/-- What `std::sort` guarantees about the index list of `system.cpp:992-996`: a rearrangement of
`0, ..., n-1` in which no later index compares less than an earlier one. (Ties may come in any
order.) -/
def IsSorting (less : ℕ → ℕ → Prop) (n : ℕ) (indices : List ℕ) : Prop :=
  indices.Perm (List.range n) ∧ indices.Pairwise fun a b => ¬ less b a

/-- `ReorderFunctionsByDegreeDecreasing()`, `system.cpp:987-1010`, as a relation between the object
before and after. -/
def ReorderDecreasing (w : World) (o o' : Obj) : Prop :=
  ∃ degs indices, degreesOf w o = some degs ∧
    IsSorting (fun a b => degs.getD a 0 > degs.getD b 0) degs.length indices ∧
    o.permute indices = some o'

/-- `ReorderFunctionsByDegreeIncreasing()`, `system.cpp:1014-1037`. -/
def ReorderIncreasing (w : World) (o o' : Obj) : Prop :=
  ∃ degs indices, degreesOf w o = some degs ∧
    IsSorting (fun a b => degs.getD a 0 < degs.getD b 0) degs.length indices ∧
    o.permute indices = some o'

/-- `Concatenate(sys1, sys2)` as a new object `k`, `system.cpp:1357-1378`. When only the second
system is patched the code calls `sys1.CopyPatches(sys1)`, which throws since `sys1` is unpatched
(`system.cpp:912-919`). -/
noncomputable def concatenate (w : World) (i j k : ℕ) : Option World := do
  let a := (w.objs i).copy
  let b := w.objs j
  if a.vs.numVariables ≠ b.vs.numVariables then none
  else do
    let va ← a.vars
    let vb ← b.vars
    if va ≠ vb then none
    else if a.patched ∧ b.patched ∧ a.patch ≠ b.patch then none
    else if b.patched ∧ ¬ a.patched then none
    else some (w.set k { a with
      fns := a.fns ++ b.fns, diffed := if b.fns = [] then a.diffed else false })

/-- Homogenizing the function roots for one group: `for (curr_function : functions_)
curr_function->Homogenize(group, hom_var)`, `system.cpp:463-473`. -/
noncomputable def homRoots (cur : Env) (g : List Var) (h : Var) :
    List ℕ → (ℕ → Node) → Option (ℕ → Node)
  | [], heap => some heap
  | f :: fs, heap => (hom cur g h (heap f)).bind fun n => homRoots cur g h fs (Function.update heap f n)

/-- The loop over the groups, `system.cpp:455-476`. Each group comes with its homogenizing variable
and, when the system already had homogenizing variables, with that variable put in front. -/
noncomputable def homGroupsLoop (cur : Env) (ids : List ℕ) :
    List (List Var × Var) → (ℕ → Node) → Option (ℕ → Node)
  | [], heap => some heap
  | (g, h) :: r, heap => (homRoots cur g h ids heap).bind (homGroupsLoop cur ids r)

/-- The groups passed to the functions' `Homogenize`. -/
def homArgs (fresh : ℕ → Var) (s : Vars Var) : List (List Var × Var) :=
  if s.numHomVars = 0 then
    List.zipWith (fun g k => (g, fresh k)) s.groups (List.range s.groups.length)
  else List.zipWith (fun g h => (h :: g, h)) s.groups s.homVars

/-- `IsPolynomial()`, `system.cpp:530-557` (after its check of the number of homogenizing
variables). -/
def systemIsPoly (w : World) (o : Obj) : Prop :=
  ∀ f ∈ w.roots o,
    (∀ g ∈ (if o.vs.numHomVars = 0 then o.vs.groups
      else List.zipWith (fun g h => h :: g) o.vs.groups o.vs.homVars), isPoly w.vals g f) ∧
    ∀ g ∈ o.vs.homGroups, isPoly w.vals g f

/-- `System::Homogenize()`, `system.cpp:409-486`. -/
noncomputable def homogenize (fresh : ℕ → Var) (w : World) (i : ℕ) : Option World := do
  let o := w.objs i
  if ¬ (∀ f ∈ w.roots o, ∀ g ∈ o.vs.homGroups, isHom w.vals g f) then none
  else do
    let vs ← o.vs.homogenize fresh
    if ¬ systemIsPoly w o then none
    else do
      let heap ← homGroupsLoop w.vals o.fns (homArgs fresh o.vs) w.heap
      some ({ w with heap := heap }.set i { o with vs := vs, diffed := false })

/-- The operations a program performs on systems. Each names the object(s) it acts on. -/
inductive SysOp
  | create (i : ℕ) (m : Method)
  | addFunction (i : ℕ) (n : Node)
  | addSharedFunction (i : ℕ) (f : ℕ)
  | varOp (i : ℕ) (f : Vars Var → Vars Var)
  | addPath (i : ℕ) (t : Var)
  | copyStructure (i j : ℕ)
  | patch (i : ℕ) (cs : List (List ℂ))
  | setMethod (i : ℕ) (m : Method)
  | reorder (i : ℕ) (indices : List ℕ)
  | copy (i k : ℕ)
  | swap (i k : ℕ)
  | move (i k : ℕ)
  | plusAssign (i j : ℕ)
  | plus (i j k : ℕ)
  | timesAssign (i : ℕ) (N : Node)
  | times (i : ℕ) (N : Node) (k : ℕ)
  | concatenate (i j k : ℕ)
  | homogenize (i : ℕ) (fresh : ℕ → Var)
  | eval (i : ℕ) (junk x : List ℂ)
  | evalTime (i : ℕ) (junk x : List ℂ) (t : ℂ)
  | jacobian (i : ℕ) (junk : List (List ℂ)) (x : List ℂ)
  | jacobianTime (i : ℕ) (junk : List (List ℂ)) (x : List ℂ) (t : ℂ)
  | timeDerivative (i : ℕ) (junk x : List ℂ) (t : ℂ)

/-- One operation. `varOp` stands for `AddVariableGroup`, `AddHomVariableGroup`,
`AddUngroupedVariable(s)` (`system.cpp:585-630`): the variable structure changes by the given
function (see `Vars`), `is_differentiated_` and `is_patched_` become false. `addFunction` makes a new
`Function` (`system.cpp:702-708`), `addSharedFunction` adds an existing one (`694-698`).
`copyStructure` is `CopyVariableStructure` (`850-866`), which does not touch `is_differentiated_`.
`swap` is the free function; `move` is the move constructor (`system.hpp:128-131`), which makes an empty
system `k` and swaps it with `i`.
`setMethod` is `system.hpp:1583`. `patch` is `AutoPatchFIFO`/`CopyPatches` (`900-919`). -/
noncomputable def step (simp : Node → Node) (w : World) : SysOp → Option World
  | .create i m => some (w.set i (Obj.new m))
  | .addFunction i n =>
    some ({ w with heap := Function.update w.heap w.next n, next := w.next + 1 }.set i
      { w.objs i with fns := (w.objs i).fns ++ [w.next], diffed := false })
  | .addSharedFunction i f =>
    if f < w.next then
      some (w.set i { w.objs i with fns := (w.objs i).fns ++ [f], diffed := false })
    else none
  | .varOp i f => some (w.set i
      { w.objs i with vs := f (w.objs i).vs, diffed := false, patched := false })
  | .addPath i t => some (w.set i { w.objs i with path := some t, diffed := false })
  | .copyStructure i j => some (w.set i
      { w.objs i with vs := (w.objs i).vs.copyStructure (w.objs j).vs, path := (w.objs j).path })
  | .patch i cs => some (w.set i { w.objs i with patch := cs, patched := true })
  | .setMethod i m => some (w.set i { w.objs i with method := m })
  | .reorder i ind => ((w.objs i).permute ind).map (w.set i)
  | .copy i k => some (w.set k (w.objs i).copy)
  | .swap i k =>
    some ((w.set i ((w.objs i).swapped (w.objs k))).set k ((w.objs k).swapped (w.objs i)))
  | .move i k => if i = k then none else
    some ((w.set i ((w.objs i).swapped (Obj.new .slp))).set k ((Obj.new .slp).swapped (w.objs i)))
  | .plusAssign i j => plusAssign w i j
  | .plus i j k => plusNew w i j k
  | .timesAssign i N => some (timesAssign w i N)
  | .times i N k => some (timesNew w i N k)
  | .concatenate i j k => concatenate w i j k
  | .homogenize i fresh => homogenize fresh w i
  | .eval i junk x => (evalAt simp w i junk x).map (·.2)
  | .evalTime i junk x t => (evalAtTime simp w i junk x t).map (·.2)
  | .jacobian i junk x => (jacAt simp w i junk x).map (·.2)
  | .jacobianTime i junk x t => (jacAtTime simp w i junk x t).map (·.2)
  | .timeDerivative i junk x t => (timeAt simp w i junk x t).map (·.2)

/-- A sequence of operations, none of which throws. -/
noncomputable def run (simp : Node → Node) : List SysOp → World → Option World
  | [], w => some w
  | o :: os, w => (step simp w o).bind (run simp os)

/-- The initial world: no functions, all objects empty. -/
def World.init : World := ⟨fun _ => .int 0, 0, fun _ => 0, fun _ => Obj.new .slp⟩

end B2.Sys
