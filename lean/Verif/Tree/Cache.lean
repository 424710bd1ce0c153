import Verif.Tree.Syntax

/-!
# Cached evaluation of expression graphs with sharing

A function tree is a graph of nodes held by `shared_ptr`; each node caches its last value per
number type. Nodes are numbered so that operands have smaller numbers than the operators using
them (a node's operands exist before it is built).
-/

namespace B2.Cache

open B2 (Var)

/-- The two number types with separate caches: `std::tuple<std::pair<dbl,bool>,
std::pair<mpfr_complex,bool>> current_value_`, `node.hpp:325`. -/
inductive NumType | dbl | mp
deriving DecidableEq

/-- What a node computes. An operator's `FreshEval` combines the values of its operands; which
function it is does not matter for caching. `V` is the type of values. -/
inductive Cell (V : Type) where
  /-- `Variable`: `variable.cpp:178-197` returns the stored value. -/
  | var (v : Var)
  /-- `Integer`, `Float`, `Rational`, `Pi`, `E`. -/
  | const (c : V)
  /-- `Differential`: `differential.cpp:60-100`, 1 if it belongs to the variable of
  differentiation and 0 otherwise (the two values are given here). -/
  | differential (v : Var) (one zero : V)
  /-- any operator, function root or Jacobian root, with its operands. -/
  | op (f : List V → V) (operands : List ℕ)

/-- The operands of a node. -/
def Cell.operands {V : Type} : Cell V → List ℕ
  | .op _ os => os
  | _ => []

/-- An expression graph. -/
structure Graph (V : Type) where
  cell : ℕ → Cell V
  acyclic : ∀ i, ∀ j ∈ (cell i).operands, j < i

/-- Mutable state: the variables' values and the node caches (`none` = flag `second` false), per
number type, and `Jacobian::current_diff_variable_` (`jacobian.hpp:100`). -/
structure State (V : Type) where
  vals : NumType → Var → V
  cache : NumType → ℕ → Option V
  curDiff : ℕ → Option Var

variable {V : Type}

/-- The cache write at the end of `Node::EvalInPlace`, `node.cpp:75-77`. -/
def State.store (s : State V) (t : NumType) (i : ℕ) (x : V) : State V :=
  { s with cache := fun t' j => if t' = t ∧ j = i then some x else s.cache t' j }

/-- `Node::EvalInPlace<T>(value, diff_variable)`, `node.cpp:70-80`, with the operands evaluated
left to right by `FreshEval` (`arithmetic.cpp:374-433`, `867-920`, ...). A variable's value and
its cache are the same field (`variable.cpp:178-197`), so it is never stale. -/
def evalC (G : Graph V) (t : NumType) (d : Option Var) (i : ℕ) (s : State V) : V × State V :=
  match _h : G.cell i with
  | .var v => (s.vals t v, s)
  | .const c => (c, s)
  | .differential v one zero =>
      match s.cache t i with
      | some x => (x, s)
      | none =>
          let x := if d = some v then one else zero
          (x, s.store t i x)
  | .op f os =>
      match s.cache t i with
      | some x => (x, s)
      | none =>
          let r := os.attach.foldl (fun (acc : List V × State V) j =>
            let q := evalC G t d j.1 acc.2
            (acc.1 ++ [q.1], q.2)) ([], s)
          (f r.1, r.2.store t i (f r.1))
termination_by i
decreasing_by
  exact G.acyclic i j.1 (by rw [_h]; exact j.2)

/-- `Reset()`: clears this node (both number types) and recursively its operands
(`operator.cpp:33-37`, `138-144`, `arithmetic.cpp:941-946`, `function.cpp:110-116`,
`variable.cpp:102`, `differential.cpp:39`; numbers do nothing, `number.cpp:36`). -/
def reset (G : Graph V) (i : ℕ) (s : State V) : State V :=
  let s' := { s with cache := fun t j => if j = i then none else s.cache t j }
  (G.cell i).operands.attach.foldl (fun acc j => reset G j.1 acc) s'
termination_by i
decreasing_by
  exact G.acyclic i j.1 j.2

/-- `Variable::set_current_value<T>`, `variable.cpp:50-59`. -/
def setVar (t : NumType) (v : Var) (x : V) (s : State V) : State V :=
  { s with vals := fun t' w => if t' = t ∧ w = v then x else s.vals t' w }

/-- `Jacobian::EvalJ(diff_variable)`, `jacobian.cpp:42-57`. -/
def evalJ (G : Graph V) (t : NumType) (d : Option Var) (i : ℕ) (s : State V) : V × State V :=
  match s.cache t i with
  | some x =>
      if d = s.curDiff i then (x, s)
      else evalC G t d i (reset G i { s with curDiff := fun j => if j = i then d else s.curDiff j })
  | none => evalC G t d i (reset G i { s with curDiff := fun j => if j = i then d else s.curDiff j })

/-- The operations a user performs. -/
inductive Op (V : Type) where
  | set (t : NumType) (v : Var) (x : V)
  | reset (i : ℕ)
  | eval (t : NumType) (d : Option Var) (i : ℕ)
  | evalJ (t : NumType) (d : Option Var) (i : ℕ)

/-- Effect of one operation. -/
def step (G : Graph V) (s : State V) : Op V → State V
  | .set t v x => setVar t v x s
  | .reset i => reset G i s
  | .eval t d i => (evalC G t d i s).2
  | .evalJ t d i => (evalJ G t d i s).2

/-- Effect of a history. -/
def run (G : Graph V) (s : State V) (ops : List (Op V)) : State V := ops.foldl (step G) s

/-! ### Specification -/

/-- The mathematical value of a node, from the variables' values and the variable of
differentiation alone. -/
def value (G : Graph V) (vals : Var → V) (d : Option Var) (i : ℕ) : V :=
  match _h : G.cell i with
  | .var v => vals v
  | .const c => c
  | .differential v one zero => if d = some v then one else zero
  | .op f os => f (os.attach.map fun j => value G vals d j.1)
termination_by i
decreasing_by
  exact G.acyclic i j.1 (by rw [_h]; exact j.2)

/-- `j` is `i` or below it. -/
inductive Below (G : Graph V) : ℕ → ℕ → Prop
  | refl (i) : Below G i i
  | step {i j k} (h : j ∈ (G.cell i).operands) (hk : Below G j k) : Below G i k

end B2.Cache
