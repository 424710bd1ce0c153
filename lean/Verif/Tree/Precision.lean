import Mathlib.Data.List.Basic
import Mathlib.Tactic.Linarith

/-!
# Precision of expression trees, and of the constants in them

Every node of a function tree holds a multiple precision value, of some precision, and a flag saying
that the value is up to date (`current_value_`, node.hpp 325). Nodes are numbered so that operands have
smaller numbers than the nodes using them. `W` is the type of exact complex values; the precision a
number carries is recorded beside its value. Boost's rules: a result of arithmetic has the largest
precision among its operands, assignment copies value and precision.
-/

namespace B2.Tree.Prec

/-- A multiple precision number: value and precision. -/
abbrev MP (W : Type) := W × ℕ

/-- What a node is. Functions of a precision `q` and of operands say what the arithmetic at `q` digits
gives. -/
inductive Cell (W : Type) where
  /-- `Variable`. -/
  | var
  /-- `Integer`, `Float`, `Rational`, `Pi`, `E`: `c q` is what `FreshEval_mp` gives at default
  precision `q` (number.cpp 75-135, special_number.cpp 48-78). -/
  | num (c : ℕ → W)
  /-- `UnaryOperator`, `NaryOperator`, `PowerOperator`. -/
  | op (f : ℕ → List W → W) (operands : List ℕ)
  /-- `LinearProduct`: its coefficients (computed at each precision from rational ones if `rational`,
  given otherwise), variables, and the node used for the last column (linear_product.hpp 345-356). -/
  | lin (f : ℕ → List W → W) (rational : Bool) (coef : List (ℕ → W)) (vars : List ℕ) (hom : ℕ)
  /-- `Handle`: `Function` and `Jacobian`, with its entry node. -/
  | handle (entry : ℕ)

/-- The nodes a node refers to. -/
def Cell.kids {W : Type} : Cell W → List ℕ
  | .op _ os => os
  | .lin _ _ _ vs h => vs ++ [h]
  | .handle e => [e]
  | _ => []

/-- An expression graph; operators have operands. -/
structure Graph (W : Type) where
  cell : ℕ → Cell W
  acyclic : ∀ i, ∀ j ∈ (cell i).kids, j < i
  operands : ∀ i f os, cell i = .op f os → os ≠ []

/-- The mutable state: default precision, multiple precision value and flag of each node, the multiple
precision coefficients of each `LinearProduct`, and whether an element of an empty matrix was
accessed (undefined behaviour, or a failed assertion). -/
structure St (W : Type) where
  dflt : ℕ
  val : ℕ → MP W
  flag : ℕ → Bool
  coefs : ℕ → List (MP W)
  bad : Bool

variable {W : Type}

/-- Change of the stored value. -/
def St.put (s : St W) (i : ℕ) (x : MP W) : St W :=
  { s with val := fun j => if j = i then x else s.val j }

/-- Change of the flag. -/
def St.mark (s : St W) (i : ℕ) (b : Bool) : St W :=
  { s with flag := fun j => if j = i then b else s.flag j }

/-- `val_pair.first.precision(p)`, `R p` being rounding to `p` digits. -/
def St.setPrec (R : ℕ → W → W) (p i : ℕ) (s : St W) : St W := s.put i (R p (s.val i).1, p)

/-- `Node::precision(p)` with recursion depth `n`: `UnaryOperator` operator.cpp 122-128,
`NaryOperator` operator.cpp 175-184, `PowerOperator` arithmetic.hpp 626-633, `Variable` variable.cpp
170-174, `Number` number.cpp 42-47 (clears the flag), `Handle` function.cpp 187-197 (does nothing if
its own value already has that precision), `LinearProduct` linear_product.hpp 319-329 and 735-753 (the
new coefficients are stored in a local copy and are lost; the rational coefficients are read even
if there are none; the node for the last column is not visited). -/
def precF (G : Graph W) (R : ℕ → W → W) (p : ℕ) : ℕ → ℕ → St W → St W
  | 0, _, s => s
  | n + 1, i, s =>
    match G.cell i with
    | .var => s.setPrec R p i
    | .num _ => (s.setPrec R p i).mark i false
    | .op _ os => os.foldl (fun s j => precF G R p n j s) (s.setPrec R p i)
    | .lin _ rational coef vs _ =>
        let s := s.setPrec R p i
        let s := { s with bad := s.bad || (!rational && !coef.isEmpty) }
        vs.foldl (fun s j => precF G R p n j s) s
    | .handle e => if (s.val i).2 = p then s else precF G R p n e (s.setPrec R p i)

/-- `Node::Reset` with recursion depth `n` (operator.cpp 33-37, 138-144, arithmetic.cpp 941-946,
function.cpp 110-116, variable.cpp 102, linear_product.hpp 216-223; `Number::Reset` does nothing,
number.cpp 34-37). -/
def resetF (G : Graph W) : ℕ → ℕ → St W → St W
  | 0, _, s => s
  | n + 1, i, s =>
    match G.cell i with
    | .var => s.mark i false
    | .num _ => s
    | .op _ os => os.foldl (fun s j => resetF G n j s) (s.mark i false)
    | .lin _ _ _ vs _ => vs.foldl (fun s j => resetF G n j s) (s.mark i false)
    | .handle e => resetF G n e (s.mark i false)

/-- Evaluates the nodes of a list one after the other. -/
def thread (ev : ℕ → St W → MP W × St W) : List ℕ → St W → List (MP W) × St W
  | [], s => ([], s)
  | i :: l, s =>
    let a := ev i s
    let b := thread ev l a.2
    (a.1 :: b.1, b.2)

/-- Largest precision. -/
def maxPrec (d : ℕ) (l : List (MP W)) : ℕ := l.foldr (fun a m => max a.2 m) d

/-- Stores a newly computed value. -/
def keep (i : ℕ) (x : MP W) (s : St W) : MP W × St W := (x, (s.put i x).mark i true)

/-- `Node::EvalInPlace<mpfr_complex>` (node.cpp 70-80) with recursion depth `n`: numbers at the default
precision, number.cpp 75-135; operators at the largest precision of the operands; `LinearProduct`
linear_product.hpp 515-545, starting from a one of default precision; `Handle` function.cpp 71-82. A
variable's value is the stored value itself, variable.cpp 188-197. -/
def evalF (G : Graph W) : ℕ → ℕ → St W → MP W × St W
  | 0, i, s => (s.val i, s)
  | n + 1, i, s =>
    match G.cell i with
    | .var => (s.val i, s)
    | .num c => if s.flag i then (s.val i, s) else keep i (c s.dflt, s.dflt) s
    | .op f os =>
      if s.flag i then (s.val i, s)
      else
        let r := thread (evalF G n) os s
        let q := maxPrec 0 r.1
        keep i (f q (r.1.map Prod.fst), q) r.2
    | .lin f _ _ vs h =>
      if s.flag i then (s.val i, s)
      else
        let r := thread (evalF G n) (vs ++ [h]) s
        let l := r.2.coefs i ++ r.1
        let q := maxPrec s.dflt l
        keep i (f q (l.map Prod.fst), q) r.2
    | .handle e =>
      if s.flag i then (s.val i, s)
      else
        let r := evalF G n e s
        keep i r.1 r.2

/-- The three operations on a node. Operands have smaller numbers, so depth `i + 1` is enough. -/
def precision (G : Graph W) (R : ℕ → W → W) (p i : ℕ) (s : St W) : St W := precF G R p (i + 1) i s
def reset (G : Graph W) (i : ℕ) (s : St W) : St W := resetF G (i + 1) i s
def eval (G : Graph W) (i : ℕ) (s : St W) : MP W × St W := evalF G (i + 1) i s

/-- The node is a variable. -/
def Cell.isVar : Cell W → Bool
  | .var => true
  | _ => false

/-- `System::SetVariables` with values of precision `p` (system.hpp 960-1000). -/
def setVars (G : Graph W) (p : ℕ) (x : ℕ → W) (s : St W) : St W :=
  { s with val := fun i => if (G.cell i).isVar then (x i, p) else s.val i }

/-- One use of a system: `roots` are its functions, `p` the precision, `x` the values of the variables
by node. -/
structure Use (W : Type) where
  p : ℕ
  roots : List ℕ
  x : ℕ → W

/-- `DefaultPrecision(p); sys.precision(p); sys.Eval(x)` with `EvalMethod::FunctionTree`: `precision` of
all functions (system.cpp 238-245; the variables get new values anyway), `SetVariables`, reset and
evaluation of all functions (system.hpp 167-186). Returns the values. -/
def use (G : Graph W) (R : ℕ → W → W) (s : St W) (u : Use W) : List (MP W) × St W :=
  let s := { s with dflt := u.p }
  let s := u.roots.foldl (fun s i => precision G R u.p i s) s
  let s := setVars G u.p u.x s
  let s := u.roots.foldl (fun s i => reset G i s) s
  thread (eval G) u.roots s

/-- The state after a sequence of uses, possibly of several systems. -/
def run (G : Graph W) (R : ℕ → W → W) (s : St W) (us : List (Use W)) : St W :=
  us.foldl (fun s u => (use G R s u).2) s

/-- Newly made nodes at default precision `d`: nothing evaluated; coefficients of linear products made
at that precision (linear_product.hpp 97-113). -/
def fresh (G : Graph W) (zero : W) (d : ℕ) : St W where
  dflt := d
  val := fun _ => (zero, d)
  flag := fun _ => false
  coefs := fun i => match G.cell i with
    | .lin _ _ coef _ _ => coef.map fun c => (c d, d)
    | _ => []
  bad := false

/-! ### Straight line programs

Constants are found through their nodes. `nums` are the number nodes in the program, in functions and
derivatives. -/

/-- A system evaluated by a straight line program: the nodes, and (if it was differentiated) the
precision of the program and the constants in its memory. -/
structure Sys (W : Type) where
  st : St W
  slp : Option (ℕ × (ℕ → MP W))

/-- `mem[loc] = n->Eval<mpfr_complex>()` for all number nodes, straight_line_program.cpp 77-83. -/
def loadNums (G : Graph W) : List ℕ → St W → (ℕ → MP W) → St W × (ℕ → MP W)
  | [], s, m => (s, m)
  | i :: l, s, m =>
    let a := eval G i s
    loadNums G l a.2 fun j => if j = i then a.1 else m j

/-- Rounds or pads all of the memory. -/
def roundMem (R : ℕ → W → W) (p : ℕ) (m : ℕ → MP W) : ℕ → MP W := fun j => (R p (m j).1, p)

/-- `DefaultPrecision(d)`, `sys.precision(p)`, `sys.Differentiate()`. -/
inductive Op
  | dflt (d : ℕ)
  | precision (p : ℕ)
  | differentiate

/-- Effects. `System::precision` system.cpp 238-320 with `EvalMethod::SLP`: functions, then the program
if the system was differentiated (the nodes of the derivatives are not visited);
`StraightLineProgram::precision` straight_line_program.cpp 68-91; `Differentiate` system.cpp 322-356,
`SLPCompiler::Compile` straight_line_program.cpp 715-866 with `CopyNumbersIntoMemory` 319-326. -/
def step (G : Graph W) (R : ℕ → W → W) (zero : W) (roots nums : List ℕ) (s : Sys W) : Op → Sys W
  | .dflt d => { s with st := { s.st with dflt := d } }
  | .precision p =>
    let st := roots.foldl (fun s i => precision G R p i s) s.st
    match s.slp with
    | none => ⟨st, none⟩
    | some (q, m) =>
      if p = q then ⟨st, some (q, m)⟩
      else
        let r := loadNums G nums st m
        ⟨r.1, some (p, roundMem R p r.2)⟩
  | .differentiate =>
    let p := s.st.dflt
    let r := loadNums G nums s.st fun _ => (zero, p)
    ⟨r.1, some (p, roundMem R p r.2)⟩

/-! ### Assuming uniform precision -/

/-- Calls concerning the flag `assume_uniform_precision_` and the precision. -/
inductive FlagOp
  | please
  | dont
  | assume (b : Bool)
  | precision (p : ℕ)

/-- `assume_uniform_precision_` (initially false, system.hpp 1782), `precision_`, and how often the
precision was really passed on to the parts of the system. -/
structure Flagged where
  assuming : Bool := false
  prec : ℕ
  passedOn : ℕ := 0

/-- `AssumeUniformPrecision(bool val)`, system.hpp 1519-1522: `val` is not used. -/
def assumeUniform (_val : Bool) (s : Flagged) : Flagged := { s with assuming := false }

/-- `PleaseAssumeUniformPrecision`, `DontAssumeUniformPrecision`, system.hpp 1509-1517;
`System::precision`, system.cpp 238-241, 319. -/
def FlagOp.run (s : Flagged) : FlagOp → Flagged
  | .please => assumeUniform true s
  | .dont => assumeUniform false s
  | .assume b => assumeUniform b s
  | .precision p =>
    if s.assuming && p == s.prec then s else { s with prec := p, passedOn := s.passedOn + 1 }

/-! ### Specification -/

/-- The flag a user has asked for: by the last call concerning it, false at first. -/
def asked (ops : List FlagOp) : Bool :=
  ops.foldl (fun b o => match o with
    | .please => true
    | .dont => false
    | .assume b => b
    | .precision _ => b) false

/-- The value of a node when everything, constants included, is computed with `p` digits from the
values `x` of the variables. -/
def value (G : Graph W) (p : ℕ) (x : ℕ → W) (i : ℕ) : W :=
  match _h : G.cell i with
  | .var => x i
  | .num c => c p
  | .op f os => f p (os.attach.map fun j => value G p x j.1)
  | .lin f _ coef vs h =>
      f p (coef.map (fun c => c p) ++ (vs ++ [h]).attach.map fun j => value G p x j.1)
  | .handle e => value G p x e
termination_by i
decreasing_by
  · exact G.acyclic i j.1 (by rw [_h]; exact j.2)
  · exact G.acyclic i j.1 (by rw [_h]; exact j.2)
  · exact G.acyclic i e (by rw [_h]; simp [Cell.kids])

/-- `j` is `i` or below it. -/
inductive Below (G : Graph W) : ℕ → ℕ → Prop
  | refl (i) : Below G i i
  | step {i j k} (h : j ∈ (G.cell i).kids) (hk : Below G j k) : Below G i k

/-- `j` belongs to the trees of `roots`. -/
def Under (G : Graph W) (roots : List ℕ) (j : ℕ) : Prop := ∃ i ∈ roots, Below G i j

end B2.Tree.Prec
