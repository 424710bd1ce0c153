import Verif.System.PropsStateOps

/-!
# Forming the homotopy of a zero-dimensional solve

`policy::CloneGiven::FormHomotopy`, `nag_algorithms/common/policies.hpp:197-204`:

    auto t = node::Variable::Make(path_variable_name);
    homotopy = (1-t)*target + node::Rational::Make(node::Rational::Rand())*t*start;
    homotopy.AddPathVariable(t);

written out in the operations on systems of `System/State.lean`.
-/

namespace B2.Alg.Htp

open B2.Sys

/-- `1-t`, `arithmetic.hpp:1175-1236`. -/
def oneMinus (t : Var) : Node := .sum (.cons true (.int 1) (.cons false (.var t) .nil))

/-- `Rational::Make(Rational::Rand())*t`, `arithmetic.hpp:1302-1335`: neither factor is an integer
power, so a product node. `γ` are the real and the imaginary part of the random number
(`number.hpp:341-346`), arbitrary here. -/
def gammaTimes (γ : ℚ × ℚ) (t : Var) : Node :=
  .mult (.cons true (.rat γ.1 γ.2) (.cons true (.var t) .nil))

/-- `FormHomotopy`: target is object `i`, start system object `j`, homotopy object `h`; `a`, `b`, `c`
are the temporaries holding the two products and the sum. `*` between a node and a system is the
operator of `System` (`system.cpp:1344-1353`) also for the start system, as derived classes declare
none in a header. The sum is a `const System`, so the assignment copies it and moves the
copy (`system.cpp:150-155`; the move assignment is defaulted, it moves every member). -/
def homotopyOps (γ : ℚ × ℚ) (t : Var) (i j a b c h : ℕ) : List SysOp :=
  [.times i (oneMinus t) a, .times j (gammaTimes γ t) b, .plus a b c, .copy c h, .addPath h t]

noncomputable def formHomotopy (simp : Node → Node) (γ : ℚ × ℚ) (t : Var) (i j a b c h : ℕ)
    (w : World) : Option World :=
  run simp (homotopyOps γ t i j a b c h) w

/-- The complex number `γ`. -/
noncomputable def gammaVal (γ : ℚ × ℚ) : ℂ := (γ.1 : ℂ) + (γ.2 : ℂ) * Complex.I

/-- What `SystemSetup` (`policies.hpp:218-226`) guarantees before `FormHomotopy`: six different
objects, no function listed twice, target and start system have no function in common, and equally
many functions. -/
structure Setup (w : World) (i j a b c h : ℕ) : Prop where
  distinct : [i, j, a, b, c, h].Nodup
  nodupT : (w.objs i).fns.Nodup
  nodupS : (w.objs j).fns.Nodup
  apart : ¬ Shares (w.objs j) (w.objs i)
  same : (w.objs i).fns.length = (w.objs j).fns.length

end B2.Alg.Htp
