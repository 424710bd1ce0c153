import Verif.System.State
import Verif.Tree.Operators

/-!
# The predefined systems (`src/system/precon.cpp`)

`x`, `y`, `z` are the variables made by `Variable::Make`; the variable `t` that two of the functions make and never use is
left out. `same` is the comparison of pointers in `operator*`. The functions return a new system, which is object `i`.
The names of the variables are not modelled.
-/

namespace B2.Sys.Precon

open B2.Sys

/-- `(mpq_rational(29,16))*pow(x,3)-2*x*y`, `precon.cpp:43`. -/
def goFirst (x y : Var) : UExpr :=
  .sub (.mulConst (.leaf (.rat (29 / 16) 0)) (.pow (.leaf (.var x)) 3))
    (.mul (.mulConst (.leaf (.int 2)) (.leaf (.var x))) (.leaf (.var y)))

/-- `y - pow(x,2)`, `precon.cpp:44`. -/
def goSecond (x y : Var) : UExpr := .sub (.leaf (.var y)) (.pow (.leaf (.var x)) 2)

/-- `pow(x,3)+ two`, `precon.cpp:62`. -/
def cpFirst (x : Var) : UExpr := .add (.pow (.leaf (.var x)) 3) (.leaf (.int 2))

/-- `pow(y,2) + half`, `precon.cpp:63`. -/
def cpSecond (y : Var) : UExpr := .add (.pow (.leaf (.var y)) 2) (.leaf (.rat (1 / 2) 0))

/-- `pow(x,2) + pow(y,2) + pow(z,2) - one`, `precon.cpp:80`. -/
def sphereFirst (x y z : Var) : UExpr :=
  .sub (.add (.add (.pow (.leaf (.var x)) 2) (.pow (.leaf (.var y)) 2)) (.pow (.leaf (.var z)) 2)) (.leaf (.int 1))

/-- What all three functions do: a new system (with the default evaluation method), one affine variable group, then
the functions in order. -/
def ops (i : ℕ) (g : List Var) (ns : List Node) : List SysOp :=
  .create i .slp :: .varOp i (·.addGroup g) :: ns.map (.addFunction i)

/-- `Precon::GriewankOsborn`, `precon.cpp:33-47`. -/
noncomputable def griewankOsborn (simp : Node → Node) (same : Node → Node → Bool) (i : ℕ) (x y : Var) (w : World) :
    Option World := do
  let f ← (goFirst x y).build same
  let g ← (goSecond x y).build same
  run simp (ops i [x, y] [f, g]) w

/-- `Precon::CrossedPaths`, `precon.cpp:51-66`. -/
noncomputable def crossedPaths (simp : Node → Node) (same : Node → Node → Bool) (i : ℕ) (x y : Var) (w : World) :
    Option World := do
  let f ← (cpFirst x).build same
  let g ← (cpSecond y).build same
  run simp (ops i [x, y] [f, g]) w

/-- `Precon::Sphere`, `precon.cpp:69-83`. -/
noncomputable def sphere (simp : Node → Node) (same : Node → Node → Bool) (i : ℕ) (x y z : Var) (w : World) :
    Option World := do
  let f ← (sphereFirst x y z).build same
  run simp (ops i [x, y, z] [f]) w

end B2.Sys.Precon
