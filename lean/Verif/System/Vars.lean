import Mathlib.Data.List.Basic
import Mathlib.Data.List.Perm.Basic
import Mathlib.Algebra.BigOperators.Group.List.Basic
import Mathlib.Algebra.Field.Defs

/-!
# The variable structure of a `System`

Models the variable-related members of `System` (`core/include/bertini2/system/system.hpp`,
`core/src/system/system.cpp`): adders, ordering, group sizes, counters, homogenizing variables,
and the dehomogenization of points. `α` is the type of variables (identities of `Variable` nodes).
A thrown exception or an out-of-range access is `none`.
-/

namespace B2.Sys

variable {α : Type}

/-- `VariableGroupType`, `system.hpp:90`. -/
inductive Kind
  | homogeneous | affine | ungrouped
deriving DecidableEq

/-- The variable-related members of `System`, `system.hpp:1740-1775`. `cache` holds
`variable_ordering_` when `have_ordering_` is set. -/
structure Vars (α : Type) where
  ungrouped : List α
  groups : List (List α)
  homGroups : List (List α)
  homVars : List α
  order : List Kind
  cache : Option (List α)

/-- The default-constructed system. -/
def Vars.empty : Vars α := ⟨[], [], [], [], [], none⟩

/-- `AddVariableGroup`, `system.cpp:585-592`. -/
def Vars.addGroup (s : Vars α) (v : List α) : Vars α :=
  { s with groups := s.groups ++ [v], order := s.order ++ [.affine], cache := none }

/-- `AddHomVariableGroup`, `system.cpp:597-604`. -/
def Vars.addHomGroup (s : Vars α) (v : List α) : Vars α :=
  { s with homGroups := s.homGroups ++ [v], order := s.order ++ [.homogeneous], cache := none }

/-- `AddUngroupedVariable`, `system.cpp:610-617`. -/
def Vars.addUngrouped (s : Vars α) (v : α) : Vars α :=
  { s with ungrouped := s.ungrouped ++ [v], order := s.order ++ [.ungrouped], cache := none }

/-- `AddUngroupedVariables`, `system.cpp:622-630`. -/
def Vars.addUngroupeds (s : Vars α) (v : List α) : Vars α :=
  { s with
    ungrouped := s.ungrouped ++ v
    order := s.order ++ v.map fun _ => .ungrouped
    cache := none }

/-- `NumNaturalVariables`, `system.cpp:175-186`. -/
def Vars.numNatural (s : Vars α) : ℕ :=
  (s.groups.map List.length).sum + (s.homGroups.map List.length).sum + s.ungrouped.length

/-- `NumHomVariables`, `system.cpp:188-191`. -/
def Vars.numHomVars (s : Vars α) : ℕ := s.homVars.length

/-- `NumVariables`, `system.cpp:170-173`. -/
def Vars.numVariables (s : Vars α) : ℕ := s.numHomVars + s.numNatural

/-- The loop of `VariableOrdering`, `system.cpp:781-812`; `a`, `u`, `g` are the counters
`affine_group_counter`, `ungrouped_variable_counter`, `hom_group_counter`. -/
def Vars.orderingLoop (s : Vars α) (have_homvars : Bool) :
    List Kind → ℕ → ℕ → ℕ → List α → Option (List α)
  | [], _, _, _, acc => some acc
  | .affine :: r, a, u, g, acc => do
    let acc ← if have_homvars then (s.homVars[a]?).map (fun h => acc ++ [h]) else some acc
    let gp ← s.groups[a]?
    s.orderingLoop have_homvars r (a + 1) u g (acc ++ gp)
  | .homogeneous :: r, a, u, g, acc => do
    let gp ← s.homGroups[g]?
    s.orderingLoop have_homvars r a u (g + 1) (acc ++ gp)
  | .ungrouped :: r, a, u, g, acc => do
    let v ← s.ungrouped[u]?
    s.orderingLoop have_homvars r a (u + 1) g (acc ++ [v])

/-- `VariableOrdering`, `system.cpp:770-826`. -/
def Vars.ordering (s : Vars α) : Option (List α) := do
  let have_homvars := decide (s.numHomVars > 0)
  if have_homvars ∧ s.numHomVars ≠ s.groups.length then none
  else do
    let l ← s.orderingLoop have_homvars s.order 0 0 0 []
    if l.length ≠ s.numVariables then none else some l

/-- `Variables`, `system.cpp:840-847` with `ConstructOrdering`, `system.cpp:832-836`. Returns the
ordering and the new state. -/
def Vars.variables (s : Vars α) : Option (List α × Vars α) :=
  match s.cache with
  | some l => some (l, s)
  | none => s.ordering.map fun l => (l, { s with cache := some l })

/-- The loop of `VariableGroupSizesFIFO`, `system.cpp:880-887`. -/
def Vars.sizesLoop (s : Vars α) (have_homvars : Bool) : List Kind → ℕ → ℕ → Option (List ℕ)
  | [], _, _ => some []
  | .affine :: r, a, g => do
    let gp ← s.groups[a]?
    (s.sizesLoop have_homvars r (a + 1) g).map ((gp.length + if have_homvars then 1 else 0) :: ·)
  | .homogeneous :: r, a, g => do
    let gp ← s.homGroups[g]?
    (s.sizesLoop have_homvars r a (g + 1)).map (gp.length :: ·)
  | .ungrouped :: r, a, g => s.sizesLoop have_homvars r a g

/-- `VariableGroupSizesFIFO`, `system.cpp:872-889`. -/
def Vars.groupSizes (s : Vars α) : Option (List ℕ) :=
  let have_homvars := decide (s.numHomVars > 0)
  if have_homvars ∧ s.numHomVars ≠ s.groups.length then none
  else s.sizesLoop have_homvars s.order 0 0

/-- The part of `Homogenize` acting on the variables, `system.cpp:433-482`, assuming the checks on
the functions pass. `fresh` supplies the newly made `HOM_VAR_i`. -/
def Vars.homogenize (fresh : ℕ → α) (s : Vars α) : Option (Vars α) :=
  let already := decide (s.numHomVars ≠ 0)
  if already ∧ s.numHomVars ≠ s.groups.length then none
  else some { s with
    homVars := if already then s.homVars else (List.range s.groups.length).map fresh
    cache := none }

/-- `ClearVariables`, `system.cpp:1055-1064` (the path variable is not part of this model). -/
def Vars.clear (s : Vars α) : Vars α :=
  { s with ungrouped := [], groups := [], homGroups := [], homVars := [] }

/-- `CopyVariableStructure`, `system.cpp:850-866`: everything is taken from the other system. -/
def Vars.copyStructure (_ other : Vars α) : Vars α := other

/-- Copy `n` coordinates of `x`, starting at `i`, through `f`. -/
def block {K : Type} (f : K → K) (x : List K) : ℕ → ℕ → Option (List K)
  | _, 0 => some []
  | i, n + 1 => do
    let c ← x[i]?
    (block f x (i + 1) n).map (f c :: ·)

/-- The loop of `DehomogenizePointFIFO`, `system.hpp:1692-1728`: `a`, `g` are the counters
`affine_group_counter`, `hom_group_counter`, `i` is `hom_index`; the result lists the coordinates
written, in order. As in the code, `g` is never advanced, and `a` only when homogenized. -/
def Vars.dehomLoop {K : Type} [Div K] (s : Vars α) (is_homogenized : Bool) (x : List K) :
    List Kind → ℕ → ℕ → ℕ → Option (List K)
  | [], _, _, _ => some []
  | .affine :: r, a, g, i =>
    if is_homogenized then do
      let h ← x[i]?
      let gp ← s.groups[a]?
      let b ← block (· / h) x (i + 1) gp.length
      (s.dehomLoop is_homogenized x r (a + 1) g (i + 1 + gp.length)).map (b ++ ·)
    else do
      let gp ← s.groups[a]?
      let b ← block id x i gp.length
      (s.dehomLoop is_homogenized x r a g (i + gp.length)).map (b ++ ·)
  | .homogeneous :: r, a, g, i => do
    let gp ← s.homGroups[g]?
    let b ← block id x i gp.length
    (s.dehomLoop is_homogenized x r a g (i + gp.length)).map (b ++ ·)
  | .ungrouped :: r, a, g, i => do
    let c ← x[i]?
    (s.dehomLoop is_homogenized x r a g (i + 1)).map (c :: ·)

/-- `DehomogenizePointFIFO`, `system.hpp:1677-1732`. The result vector has `NumNaturalVariables()`
entries; writing more is out of range, writing fewer leaves entries uninitialised: both `none`. -/
def Vars.dehomogenize {K : Type} [Div K] (s : Vars α) (x : List K) : Option (List K) :=
  if s.homVars.length = 0 ∨ s.homVars.length = s.groups.length then
    (s.dehomLoop (decide (s.homVars.length ≠ 0)) x s.order 0 0 0).bind fun l =>
      if l.length = s.numNatural then some l else none
  else none

end B2.Sys
