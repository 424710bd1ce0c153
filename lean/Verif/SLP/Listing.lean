import Verif.SLP.Run

/-!
# Printing a straight line program

`operator<<(std::ostream&, StraightLineProgram const&)`, `core/src/system/straight_line_program.cpp:118-202`, and
`OpcodeToString`, lines 37-60.

Simplified: a line of the text is one value of `PLine` (label and contents); a number node or a value in memory stands in
the text as itself, so the rounding of the decimal output is not modelled here; blank lines and the second copy of the two
sizes in the first line are kept only once; the line `Jacobian: n` of the section "numbers of things" and its neighbour
`TimeDeriv: n` are left out (`Prog` does not carry these counts).
-/

namespace B2.SLP

variable {C V W : Type}

/-- A line of the printed text, with its label. `V`, `W`: values of the double and of the multiple precision memory. -/
inductive PLine (C V W : Type)
  | fnsVars (f v : ℕ)
  | havePath (b : Bool)
  | outFunctions (n : ℕ)
  | outJacobian (n : ℕ)
  | outTimeDeriv (n : ℕ)
  | inVariables (n : ℕ)
  | inTime (n : ℕ)
  | number (c : C) (loc : ℕ)
  | unary (op : String) (a out : ℕ)
  | binary (op : String) (a b out : ℕ)
  | varsD (l : List V)
  | varsM (l : List W)
  | timeD (v : V)
  | timeM (w : W)
  | memD (l : List V)
  | memM (l : List W)

/-- `OpcodeToString`, `straight_line_program.cpp:37-60`; `none`: the `switch` has no `default:` and the function has no
`return` after it, undefined behaviour. -/
def opName (op : ℕ) : Option String :=
  if op = 1 then some "Add"
  else if op = 2 then some "Subtract"
  else if op = 4 then some "Multiply"
  else if op = 8 then some "Divide"
  else if op = 16 then some "Power"
  else if op = 32 then some "Exp"
  else if op = 64 then some "Log"
  else if op = 128 then some "Negate"
  else if op = 256 then some "Sqrt"
  else if op = 512 then some "Sin"
  else if op = 1024 then some "Cos"
  else if op = 2048 then some "Tan"
  else if op = 4096 then some "Asin"
  else if op = 8192 then some "Acos"
  else if op = 16384 then some "Atan"
  else if op = 32768 then some "Assign"
  else if op = 65536 then some "IntPower"
  else none

/-- The loop over `instructions_`, `straight_line_program.cpp:153-162`: each access moves `ii` on (from left to right, the
project asks for C++17 in `core/configure.ac:33`); `none`: an access past the end, or an unknown opcode. -/
def listing : List ℕ → Option (List (PLine C V W))
  | [] => some []
  | op :: rest => do
      let name ← opName op
      if isUnary op then
        match rest with
        | a :: o :: rest' => (listing rest').map (PLine.unary name a o :: ·)
        | _ => none
      else
        match rest with
        | a :: b :: o :: rest' => (listing rest').map (PLine.binary name a b o :: ·)
        | _ => none
termination_by l => l.length
decreasing_by all_goals (simp; try omega)

/-- The values of the variables, `straight_line_program.cpp:169-178`; `none`: an access past the end of the memory. -/
def varValues (base n : ℕ) (mem : List V) : Option (List V) :=
  (List.range n).mapM fun ii => mem[base + ii]?

/-- The value of the path variable, `straight_line_program.cpp:180-187`; `none`: an access past the end of the memory. -/
def Prog.timeValues (p : Prog C) (memD : List V) (memM : List W) : Option (List (PLine C V W)) :=
  if p.hasPath then do
    let td ← memD[p.timeLoc]?
    let tm ← memM[p.timeLoc]?
    some [.timeD td, .timeM tm]
  else some []

/-- `operator<<`, `straight_line_program.cpp:118-202`, with the two memories. The table `integers_` is not looked at. -/
def Prog.print (p : Prog C) (memD : List V) (memM : List W) : Option (List (PLine C V W)) := do
  let head := [PLine.fnsVars p.numFunctions p.numVars, .havePath p.hasPath]
  let outs := [PLine.outFunctions p.fnBase, .outJacobian p.jacBase] ++
    (if p.hasPath then [.outTimeDeriv p.dtBase] else [])
  let ins := PLine.inVariables p.varBase :: (if p.hasPath then [.inTime p.timeLoc] else [])
  let numbers := p.nums.map fun q => PLine.number q.1 q.2
  let code ← listing p.flat
  let vd ← varValues p.varBase p.numVars memD
  let vm ← varValues p.varBase p.numVars memM
  let time ← p.timeValues memD memM
  some (head ++ outs ++ ins ++ numbers ++ code ++ [.varsD vd, .varsM vm] ++ time ++ [.memD memD, .memM memM])

end B2.SLP
