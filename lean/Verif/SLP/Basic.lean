import Mathlib.Data.List.Basic
import Mathlib.Data.Nat.Bitwise

/-!
# Straight-line programs: expression graphs, instructions, compiler

Models `core/include/bertini2/system/straight_line_program.hpp` and
`core/src/system/straight_line_program.cpp`.

Nodes are numbered; operands have smaller numbers than the nodes using them (they exist before
the node that holds a `shared_ptr` to them). Numbers are kept as payloads of a type `C` (the
"true value" of a number node) and only turned into values of the numeric type `V` when they are
copied into memory.
-/

namespace B2.SLP

/-- The unary function nodes, one opcode each (`straight_line_program.hpp:143-161`). -/
inductive UnFn
  | exp | log | neg | sqrt | sin | cos | tan | asin | acos | atan
deriving DecidableEq

/-- The binary opcodes acting on two memory locations. -/
inductive BinOp
  | add | sub | mul | div | pow
deriving DecidableEq

/-- A node of the expression graph. `other` stands for the node types the compiler cannot
compile: `Jacobian`, `Differential` (`straight_line_program.cpp:385-395`), `LinearProduct` and
`DiffLinear` (no visitor, so `visitable.hpp:58-67` throws). -/
inductive Cell (C : Type)
  | var
  | num (c : C)
  | sum (ops : List (Bool × ℕ))
  | mult (ops : List (Bool × ℕ))
  | ipow (base : ℕ) (k : ℤ)
  | pow (base exponent : ℕ)
  | un (f : UnFn) (operand : ℕ)
  | fn (entry : ℕ)
  | other (operands : List ℕ)

/-- The nodes a node points to. -/
def Cell.operands {C : Type} : Cell C → List ℕ
  | .var | .num _ => []
  | .sum ops | .mult ops => ops.map Prod.snd
  | .ipow b _ => [b]
  | .pow b e => [b, e]
  | .un _ n => [n]
  | .fn n => [n]
  | .other os => os

/-- An expression graph, with arbitrary sharing. -/
structure Graph (C : Type) where
  cell : ℕ → Cell C
  acyclic : ∀ i, ∀ j ∈ (cell i).operands, j < i

/-- The operations of a numeric type (`dbl_complex` or `mpfr_complex`). No laws are assumed:
these may be floating-point operations. -/
structure Arith (C V : Type) where
  /-- value of a number node -/
  ofNum : C → V
  bin : BinOp → V → V → V
  un : UnFn → V → V
  /-- `pow(z, int)` -/
  ipow : V → ℤ → V

variable {C V : Type} [One C]

/-! ### Instructions -/

/-- One instruction, as added by `AddInstruction`, `straight_line_program.cpp:96-110`. The second
argument of `ipow` is a location in the table of integers. -/
inductive Instr
  | bin (op : BinOp) (a b out : ℕ)
  | ipow (a k out : ℕ)
  | un (f : UnFn) (a out : ℕ)
  | assign (a out : ℕ)
deriving DecidableEq

/-- Where the instruction writes. -/
def Instr.out : Instr → ℕ
  | .bin _ _ _ o | .ipow _ _ o | .un _ _ o | .assign _ o => o

/-- The memory locations the instruction reads. -/
def Instr.reads : Instr → List ℕ
  | .bin _ a b _ => [a, b]
  | .ipow a _ _ | .un _ a _ | .assign a _ => [a]

/-- Memory contents. -/
abbrev Mem (V : Type) := ℕ → V

/-- Assignment to one memory location. -/
def Mem.set (m : Mem V) (l : ℕ) (x : V) : Mem V := fun l' => if l' = l then x else m l'

/-- Effect of one instruction, the `switch` of `straight_line_program.cpp:229-296`. `T` is the
table `integers_`; that lookups stay within the table is a theorem. -/
def Instr.exec (A : Arith C V) (T : List ℤ) (m : Mem V) : Instr → Mem V
  | .bin op a b o => m.set o (A.bin op (m a) (m b))
  | .ipow a k o => m.set o (A.ipow (m a) (T[k]?.getD 0))
  | .un f a o => m.set o (A.un f (m a))
  | .assign a o => m.set o (m a)

/-- Run a list of instructions. -/
def exec (A : Arith C V) (T : List ℤ) (code : List Instr) (m : Mem V) : Mem V :=
  code.foldl (Instr.exec A T) m

/-! ### The flat encoding -/

/-- Opcodes, `straight_line_program.hpp:143-161`. -/
def UnFn.opcode : UnFn → ℕ
  | .exp => 1 <<< 5 | .log => 1 <<< 6 | .neg => 1 <<< 7 | .sqrt => 1 <<< 8 | .sin => 1 <<< 9
  | .cos => 1 <<< 10 | .tan => 1 <<< 11 | .asin => 1 <<< 12 | .acos => 1 <<< 13
  | .atan => 1 <<< 14

/-- Opcodes, `straight_line_program.hpp:143-161`. -/
def BinOp.opcode : BinOp → ℕ
  | .add => 1 <<< 0 | .sub => 1 <<< 1 | .mul => 1 <<< 2 | .div => 1 <<< 3 | .pow => 1 <<< 4

/-- `Assign`, `straight_line_program.hpp:159`. -/
def opAssign : ℕ := 1 <<< 15
/-- `IntPower`, `straight_line_program.hpp:160`. -/
def opIntPower : ℕ := 1 <<< 16

/-- `UnaryOperations`, `straight_line_program.hpp:163-165`. -/
def unaryMask : ℕ :=
  (1 <<< 5) ||| (1 <<< 6) ||| (1 <<< 7) ||| opAssign |||
  ((1 <<< 9) ||| (1 <<< 10) ||| (1 <<< 11) ||| (1 <<< 12) ||| (1 <<< 13) ||| (1 <<< 14)) |||
  (1 <<< 8)

/-- `IsUnary`, `straight_line_program.hpp:167-170`. -/
def isUnary (op : ℕ) : Bool := (op &&& unaryMask) != 0

/-- `AddInstruction`: what is pushed onto `instructions_`, `straight_line_program.cpp:96-110`. -/
def Instr.encode : Instr → List ℕ
  | .bin op a b o => [op.opcode, a, b, o]
  | .ipow a k o => [opIntPower, a, k, o]
  | .un f a o => [f.opcode, a, o]
  | .assign a o => [opAssign, a, o]

/-- The `switch` of `StraightLineProgram::Eval` on the raw numbers, reading
`instructions_[ii+1..ii+3]`; `none` when an access is past the end. An unknown opcode does
nothing (no `default:`). -/
def flatEffect (A : Arith C V) (T : List ℤ) (op : ℕ) (rest : List ℕ) (m : Mem V) :
    Option (Mem V) :=
  let binary (f : ℕ → ℕ → V) : Option (Mem V) := do
    let a ← rest[0]?
    let b ← rest[1]?
    let o ← rest[2]?
    some (m.set o (f a b))
  let unary (f : ℕ → V) : Option (Mem V) := do
    let a ← rest[0]?
    let o ← rest[1]?
    some (m.set o (f a))
  if op = 1 then binary fun a b => A.bin .add (m a) (m b)
  else if op = 2 then binary fun a b => A.bin .sub (m a) (m b)
  else if op = 4 then binary fun a b => A.bin .mul (m a) (m b)
  else if op = 8 then binary fun a b => A.bin .div (m a) (m b)
  else if op = 16 then binary fun a b => A.bin .pow (m a) (m b)
  else if op = 65536 then binary fun a k => A.ipow (m a) (T[k]?.getD 0)
  else if op = 32768 then unary fun a => m a
  else if op = 128 then unary fun a => A.un .neg (m a)
  else if op = 256 then unary fun a => A.un .sqrt (m a)
  else if op = 64 then unary fun a => A.un .log (m a)
  else if op = 32 then unary fun a => A.un .exp (m a)
  else if op = 512 then unary fun a => A.un .sin (m a)
  else if op = 1024 then unary fun a => A.un .cos (m a)
  else if op = 2048 then unary fun a => A.un .tan (m a)
  else if op = 4096 then unary fun a => A.un .asin (m a)
  else if op = 8192 then unary fun a => A.un .acos (m a)
  else if op = 16384 then unary fun a => A.un .atan (m a)
  else some m

/-- The loop of `StraightLineProgram::Eval<NumT>`, `straight_line_program.cpp:226-308`, on the
part of `instructions_` from position `ii` on: 3 steps after a unary opcode, 4 otherwise. -/
def runFlat (A : Arith C V) (T : List ℤ) : List ℕ → Mem V → Option (Mem V)
  | [], m => some m
  | op :: rest, m => do
      let m' ← flatEffect A T op rest m
      runFlat A T (rest.drop (if isUnary op then 2 else 3)) m'
termination_by l => l.length
decreasing_by simp; omega

/-! ### The compiler -/

/-- State of `SLPCompiler` and of the program under construction. -/
structure CState (C : Type) where
  /-- `next_available_complex_` -/
  next : ℕ
  /-- `locations_encountered_nodes_` -/
  loc : ℕ → Option ℕ
  /-- `locations_integers_` -/
  intLoc : ℤ → Option ℕ
  /-- `slp.integers_` -/
  ints : List ℤ
  /-- `slp.true_values_of_numbers_`: the number (by its true value) and its location -/
  nums : List (C × ℕ)
  /-- the instructions, oldest first -/
  code : List Instr

/-- A cleared compiler, `straight_line_program.cpp:870-876`. -/
def CState.init : CState C := ⟨0, fun _ => none, fun _ => none, [], [], []⟩

/-- `locations_encountered_nodes_[n] = l`. -/
def CState.setLoc (s : CState C) (n l : ℕ) : CState C :=
  { s with loc := fun j => if j = n then some l else s.loc j }

/-- `locations_encountered_nodes_[n]` used as a value: `std::map::operator[]` inserts a zero if
the key is absent. -/
def CState.getLoc (s : CState C) (n : ℕ) : ℕ × CState C :=
  match s.loc n with
  | some l => (l, s)
  | none => (0, s.setLoc n 0)

/-- `AddInstruction(...)`. -/
def CState.emit (s : CState C) (i : Instr) : CState C := { s with code := s.code ++ [i] }

/-- `next_available_complex_++`. -/
def CState.bump (s : CState C) : CState C := { s with next := s.next + 1 }

/-- `DealWithNumber`, `straight_line_program.hpp:735-739`, without the entry in
`locations_encountered_nodes_`. -/
def CState.addNum (s : CState C) (c : C) : CState C :=
  { s with nums := s.nums ++ [(c, s.next)], next := s.next + 1 }

/-- "if not found, `n->Accept(*this)`". -/
def ensure (rec : ℕ → CState C → Option (CState C)) (j : ℕ) (s : CState C) :
    Option (CState C) :=
  match s.loc j with
  | some _ => some s
  | none => rec j s

/-- The loop collecting `operand_locations`, `straight_line_program.cpp:431-441`, `483-494`. -/
def gather (rec : ℕ → CState C → Option (CState C)) :
    List ℕ → CState C → Option (List ℕ × CState C)
  | [], s => some ([], s)
  | j :: js, s => do
      let s1 ← ensure rec j s
      let p := s1.getLoc j
      let q ← gather rec js p.2
      some (p.1 :: q.1, q.2)

/-- The loop combining the remaining operands, `straight_line_program.cpp:457-466`,
`517-527`. Returns the location of the last result. -/
def chain (opT opF : BinOp) : ℕ → List (Bool × ℕ) → CState C → ℕ × CState C
  | prev, [], s => (prev, s)
  | prev, (b, l) :: r, s =>
      chain opT opF s.next r (s.emit (.bin (if b then opT else opF) prev l s.next)).bump

/-- `Visit(SumOperator)` after collecting the operands; `none`: `signs[0]` on an empty vector. -/
def sumCode : List (Bool × ℕ) → CState C → Option (ℕ × CState C)
  | [], _ => none
  | (true, l) :: r, s => some (chain .add .sub l r s)
  | (false, l) :: r, s => some (chain .add .sub s.next r (s.emit (.un .neg l s.next)).bump)

/-- `Visit(MultOperator)` after collecting the operands. -/
def multCode : List (Bool × ℕ) → CState C → Option (ℕ × CState C)
  | [], _ => none
  | (true, l) :: r, s => some (chain .mul .div l r s)
  | (false, l) :: r, s =>
      let s1 := s.addNum 1
      some (chain .mul .div s1.next r (s1.emit (.bin .div s.next l s1.next)).bump)

/-- `locations_integers_` lookup with insertion, `straight_line_program.cpp:552-559`. -/
def CState.intIndex (s : CState C) (k : ℤ) : ℕ × CState C :=
  match s.intLoc k with
  | some l => (l, s)
  | none => (s.ints.length,
      { s with intLoc := fun z => if z = k then some s.ints.length else s.intLoc z,
               ints := s.ints ++ [k] })

/-- `SLPCompiler::Visit`, all overloads (`straight_line_program.cpp:344-711`), where `rec`
visits operands. -/
def visitWith (G : Graph C) (rec : ℕ → CState C → Option (CState C)) (i : ℕ) (s : CState C) :
    Option (CState C) :=
  match G.cell i with
  | .var => some s
  | .num c => some ((s.addNum c).setLoc i s.next)
  | .other _ => none
  | .fn n => do
      let s1 ← ensure rec n s
      let p := s1.getLoc n
      let q : ℕ × CState C := match p.2.loc i with
        | none => (p.2.next, (p.2.setLoc i p.2.next).bump)
        | some l => (l, p.2)
      some (q.2.emit (.assign p.1 q.1))
  | .sum ops => do
      let p ← gather rec (ops.map Prod.snd) s
      let q ← sumCode ((ops.map Prod.fst).zip p.1) p.2
      some (q.2.setLoc i q.1)
  | .mult ops => do
      let p ← gather rec (ops.map Prod.snd) s
      let q ← multCode ((ops.map Prod.fst).zip p.1) p.2
      some (q.2.setLoc i q.1)
  | .ipow b k => do
      let s1 ← ensure rec b s
      let p := s1.getLoc b
      let e := p.2.intIndex k
      some ((e.2.setLoc i e.2.next).emit (.ipow p.1 e.1 e.2.next)).bump
  | .pow b e => do
      let s1 ← ensure rec b s
      let s2 ← ensure rec e s1
      let p := s2.getLoc b
      let q := p.2.getLoc e
      some ((q.2.setLoc i q.2.next).emit (.bin .pow p.1 q.1 q.2.next)).bump
  | .un f n => do
      let s1 ← ensure rec n s
      let p := s1.getLoc n
      some ((p.2.setLoc i p.2.next).emit (.un f p.1 p.2.next)).bump

/-- `node->Accept(compiler)`. The recursion is on the node number (the guard always holds, see
`visit_eq`). -/
def visit (G : Graph C) (i : ℕ) (s : CState C) : Option (CState C) :=
  visitWith G (fun j s' => if _h : j < i then visit G j s' else none) i s
termination_by i

/-- The parts of a `System` the compiler looks at: the variable ordering, the path variable, the
natural functions, and the derivatives (all node numbers). -/
structure Sys where
  vars : List ℕ
  path : Option ℕ
  functions : List ℕ
  /-- `GetSpaceDerivatives()`, entry `i + j * NumFunctions` is the derivative of function `i` by
  variable `j` -/
  dx : List ℕ
  /-- `GetTimeDerivatives()` -/
  dt : List ℕ

/-- The compiled program. -/
structure Prog (C : Type) where
  numVars : ℕ
  hasPath : Bool
  numFunctions : ℕ
  varBase : ℕ
  timeLoc : ℕ
  fnBase : ℕ
  jacBase : ℕ
  dtBase : ℕ
  /-- size of the memory -/
  size : ℕ
  ints : List ℤ
  nums : List (C × ℕ)
  instrs : List Instr

/-- `locations_encountered_nodes_[v] = next_available_complex_++` for each of a list of nodes. -/
def CState.reserve (s : CState C) (ns : List ℕ) : CState C :=
  ns.foldl (fun s n => (s.setLoc n s.next).bump) s

/-- Visiting a list of top-level functions. -/
def visitAll (G : Graph C) (ns : List ℕ) (s : CState C) : Option (CState C) :=
  ns.foldlM (fun s f => visit G f s) s

/-- `SLPCompiler::Compile`, `straight_line_program.cpp:739-868`. -/
def compile (G : Graph C) (sys : Sys) : Option (Prog C) := do
  let s1 := (CState.init : CState C).reserve sys.vars
  let s2 := s1.reserve sys.path.toList
  let s3 := s2.reserve sys.functions
  let s4 := s3.reserve sys.dx
  let s5 := if sys.path.isSome then s4.reserve sys.dt else s4
  let s6 ← visitAll G sys.functions s5
  let s7 ← visitAll G sys.dx s6
  let s8 ← visitAll G (if sys.path.isSome then sys.dt else []) s7
  some { numVars := sys.vars.length
         hasPath := sys.path.isSome
         numFunctions := sys.functions.length
         varBase := 0
         timeLoc := if sys.path.isSome then s1.next else 0
         fnBase := s2.next
         jacBase := s3.next
         dtBase := if sys.path.isSome then s4.next else 0
         size := s8.next
         ints := s8.ints
         nums := s8.nums
         instrs := s8.code }

/-! ### Running a compiled program -/

/-- `CopyNumbersIntoMemory`, `straight_line_program.cpp:317-326`. -/
def loadNums (A : Arith C V) (nums : List (C × ℕ)) (m : Mem V) : Mem V :=
  nums.foldl (fun m p => m.set p.2 (A.ofNum p.1)) m

/-- `SetVariableValues`, `straight_line_program.hpp:505-524`: the `k`-th variable is written at
`varBase + k`. -/
def Prog.setVars (p : Prog C) (x : ℕ → V) (m : Mem V) : Mem V :=
  (List.range p.numVars).foldl (fun m k => m.set (k + p.varBase) (x k)) m

/-- `SetPathVariable`, `straight_line_program.hpp:535-553` (`none`: it throws). -/
def Prog.setPath (p : Prog C) (t : V) (m : Mem V) : Option (Mem V) :=
  if p.hasPath then some (m.set p.timeLoc t) else none

/-- The flat instruction vector. -/
def Prog.flat (p : Prog C) : List ℕ := p.instrs.flatMap Instr.encode

/-- `GetFuncValsInPlace`, entry `i`: `straight_line_program.hpp:357-367`. -/
def Prog.func (p : Prog C) (m : Mem V) (i : ℕ) : V := m (i + p.fnBase)

/-- `GetJacobianInPlace`, entry `(i, j)`: `straight_line_program.hpp:381-393`. -/
def Prog.jac (p : Prog C) (m : Mem V) (i j : ℕ) : V := m (i + j * p.numFunctions + p.jacBase)

/-- `GetTimeDerivInPlace`, entry `i`: `straight_line_program.hpp:407-418`. -/
def Prog.timeDeriv (p : Prog C) (m : Mem V) (i : ℕ) : V := m (i + p.dtBase)

/-! ### Evaluating the expression graph itself -/

/-- `SumOperator::FreshEval_mp`, `arithmetic.cpp:407-433`. -/
def sumMp (A : Arith C V) : List (Bool × V) → V
  | [] => A.ofNum 1  -- not reached: the code reads `signs_[0]`
  | (b, x) :: r => r.foldl (fun acc p => A.bin (if p.1 then .add else .sub) acc p.2)
      (if b then x else A.un .neg x)

/-- `MultOperator::FreshEval_mp`, `arithmetic.cpp:900-920`. -/
def multMp (A : Arith C V) : List (Bool × V) → V
  | [] => A.ofNum 1  -- not reached: the code reads `mult_or_div_[0]`
  | (b, x) :: r => r.foldl (fun acc p => A.bin (if p.1 then .mul else .div) acc p.2)
      (if b then x else A.bin .div (A.ofNum 1) x)

/-- The value of a node in terms of the values `v` of its operands, as the `FreshEval_mp` methods
compute it (`arithmetic.cpp:374-1105`, `trig.cpp`, `function.cpp:79-82`, `number.cpp:68-156`). -/
def valueWith (G : Graph C) (A : Arith C V) (x : ℕ → V) (v : ℕ → V) (i : ℕ) : V :=
  match G.cell i with
  | .var => x i
  | .num c => A.ofNum c
  | .sum ops => sumMp A (ops.map fun o => (o.1, v o.2))
  | .mult ops => multMp A (ops.map fun o => (o.1, v o.2))
  | .ipow b k => A.ipow (v b) k
  | .pow b e => A.bin .pow (v b) (v e)
  | .un f n => A.un f (v n)
  | .fn n => v n
  | .other _ => x i

/-- The value of a node by its expression tree, from the values `x` of the variables (each `var`
node by its own number). The recursion is on the node number; the guard always holds. -/
def value (G : Graph C) (A : Arith C V) (x : ℕ → V) (i : ℕ) : V :=
  valueWith G A x (fun j => if _h : j < i then value G A x j else x j) i
termination_by i

/-- `j` is `i` or below it in the graph. -/
inductive Below (G : Graph C) : ℕ → ℕ → Prop
  | refl (i) : Below G i i
  | step {i j k} (h : j ∈ (G.cell i).operands) (hk : Below G j k) : Below G i k

end B2.SLP
