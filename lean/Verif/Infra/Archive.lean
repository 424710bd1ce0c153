/-
Model of writing a system to an archive and reading it back, which is how `Clone` copies a system:
`Clone`, /repo/core/src/system/system.cpp lines 1381-1446; `System::serialize`,
/repo/core/include/bertini2/system/system.hpp lines 1797-1866; the `serialize` functions of the node classes.

Simplifications.  A function `serialize` is used in both directions; it is modelled by the list of fields it writes
(`fields`) and the program that reads them (`reader`).  The archive is a sequence of tokens; a pointer is written as a
number of an object that occurred before, or as the class and the contents of a new object (Boost object tracking, switched
on for all nodes, function_tree.hpp lines 110-151).  Numbers are written with enough digits to be read back exactly
(mpfr_extensions.hpp lines 146-167, mpfr_complex.hpp lines 150-171), so they are tokens of their own.  Class versions and names of the
archive format are left out.  The objects read are new; they are numbered in the order in which they are made.
-/
import Mathlib.Data.Rat.Defs
import Mathlib.Data.List.Nodup

namespace B2.Infra.Arch

/-- Address of a node in memory. -/
abbrev Addr := ℕ

/-- `std::shared_ptr<Node>`; `none` is null. -/
abbrev Ptr := Option Addr

/-- The unary operators without further data: arithmetic.hpp and trig.hpp, all with the `serialize` of `UnaryOperator`. -/
inductive Un
  | neg | sqrt | exp | log | sin | arcsin | cos | arccos | tan | arctan
  deriving DecidableEq

/-- A complex number. -/
abbrev Num := ℚ × ℚ

/-- The node classes and their data members, except stored values of evaluations (node.hpp: `current_value_` is not written). -/
inductive Obj
  | var (name : String)
  | int (z : ℤ)
  | float (v : Num) (prec : ℕ)
  | rat (re im : ℚ)
  | special (pi : Bool) (name : String)
  | sum (ops : List Ptr) (signs : List Bool)
  | mult (ops : List Ptr) (mults : List Bool)
  | pow (base expo : Ptr)
  | ipow (operand : Ptr) (k : ℤ)
  | un (f : Un) (operand : Ptr)
  | fn (name : String) (entry : Ptr)
  | jac (name : String) (entry : Ptr)
  | diff (name : String) (v : Ptr)
  | lin (vars : List Ptr) (hom : Ptr) (rows : List (List Num))
  deriving DecidableEq

/-- The classes. -/
inductive Cls
  | var | int | float | rat | pi | e | sum | mult | pow | ipow | un (f : Un) | fn | jac | diff | lin
  deriving DecidableEq

/-- Tokens of the archive. -/
inductive Tok
  | nat (n : ℕ)
  | int (z : ℤ)
  | bool (b : Bool)
  | str (s : String)
  | num (v : Num)
  | rat (q : ℚ)
  | null
  | ref (k : ℕ)
  | cls (c : Cls)
  deriving DecidableEq

/-- What `ar & x` is called with: a plain value or a pointer. -/
inductive Fld
  | tok (t : Tok)
  | ptr (p : Ptr)
  deriving DecidableEq

/-- A vector: its length, then its elements. -/
def wList {α : Type} (w : α → List Fld) (l : List α) : List Fld := .tok (.nat l.length) :: l.flatMap w

def wNat (n : ℕ) : List Fld := [.tok (.nat n)]
def wInt (n : ℤ) : List Fld := [.tok (.int n)]
def wBool (b : Bool) : List Fld := [.tok (.bool b)]
def wStr (s : String) : List Fld := [.tok (.str s)]
def wNum (v : Num) : List Fld := [.tok (.num v)]
def wRat (q : ℚ) : List Fld := [.tok (.rat q)]
def wPtr (p : Ptr) : List Fld := [.ptr p]

/-- The class of an object. -/
def cls : Obj → Cls
  | .var _ => .var
  | .int _ => .int
  | .float _ _ => .float
  | .rat _ _ => .rat
  | .special true _ => .pi
  | .special false _ => .e
  | .sum _ _ => .sum
  | .mult _ _ => .mult
  | .pow _ _ => .pow
  | .ipow _ _ => .ipow
  | .un f _ => .un f
  | .fn _ _ => .fn
  | .jac _ _ => .jac
  | .diff _ _ => .diff
  | .lin _ _ _ => .lin

/-- What the `serialize` functions write, base classes first: `NamedSymbol` symbol.hpp 122-126; `Variable` variable.hpp
160-163; `Integer`, `Float`, `Rational` number.hpp 229-233, 305-309, 414-419; `Pi`, `E` special_number.hpp 98-102, 148-152;
`UnaryOperator`, `NaryOperator` operator.hpp 151-155, 215-219; `SumOperator`, `MultOperator`, `PowerOperator`,
`IntegerPowerOperator` arithmetic.hpp 243-247, 509-513, 659-664, 801-805; `Handle`, `Function` function.hpp 183-187,
263-266; `Jacobian` jacobian.hpp 120-123.  `Differential` has `save` and `load` but the macro connecting them to `serialize`
is commented out (differential.hpp lines 149-164), so the `serialize` of `NamedSymbol` is used.  `LinearProduct` writes
nothing (linear_product.hpp lines 729-732). -/
def fields : Obj → List Fld
  | .var name => wStr name
  | .int z => wInt z
  | .float v prec => wNat prec ++ wNum v
  | .rat re im => wRat re ++ wRat im
  | .special _ name => wStr name
  | .sum ops signs => wList wPtr ops ++ wList wBool signs
  | .mult ops mults => wList wPtr ops ++ wList wBool mults
  | .pow base expo => wPtr base ++ wPtr expo
  | .ipow operand k => wPtr operand ++ wInt k
  | .un _ operand => wPtr operand
  | .fn name entry => wStr name ++ wPtr entry
  | .jac name entry => wStr name ++ wPtr entry
  | .diff name _ => wStr name
  | .lin _ _ _ => []

/-- Reading programs. -/
inductive Rd (α : Type)
  | done (a : α)
  | fail
  | tok (k : Tok → Rd α)
  | ptr (k : Ptr → Rd α)

/-- Sequence. -/
def Rd.bind {α β : Type} : Rd α → (α → Rd β) → Rd β
  | .done a, f => f a
  | .fail, _ => .fail
  | .tok k, f => .tok fun t => (k t).bind f
  | .ptr k, f => .ptr fun p => (k p).bind f

def rNat : Rd ℕ := .tok fun | .nat n => .done n | _ => .fail
def rInt : Rd ℤ := .tok fun | .int n => .done n | _ => .fail
def rBool : Rd Bool := .tok fun | .bool b => .done b | _ => .fail
def rStr : Rd String := .tok fun | .str s => .done s | _ => .fail
def rNum : Rd Num := .tok fun | .num v => .done v | _ => .fail
def rRat : Rd ℚ := .tok fun | .rat q => .done q | _ => .fail
def rPtr : Rd Ptr := .ptr .done

/-- `n` elements. -/
def rMany {α : Type} (r : Rd α) : ℕ → Rd (List α)
  | 0 => .done []
  | n + 1 => r.bind fun a => (rMany r n).bind fun l => .done (a :: l)

/-- A vector. -/
def rList {α : Type} (r : Rd α) : Rd (List α) := rNat.bind (rMany r)

/-- Reading the contents of a new object of the class, see `fields`; members that are not in the archive keep the values of
the default constructor (`Differential() = default`, differential.hpp line 143; `LinearProduct() = default`,
linear_product.hpp line 598, which leaves the numbers of factors and variables uninitialised). -/
def reader : Cls → Rd Obj
  | .var => rStr.bind fun s => .done (.var s)
  | .int => rInt.bind fun z => .done (.int z)
  | .float => rNat.bind fun p => rNum.bind fun v => .done (.float v p)
  | .rat => rRat.bind fun a => rRat.bind fun b => .done (.rat a b)
  | .pi => rStr.bind fun s => .done (.special true s)
  | .e => rStr.bind fun s => .done (.special false s)
  | .sum => (rList rPtr).bind fun l => (rList rBool).bind fun b => .done (.sum l b)
  | .mult => (rList rPtr).bind fun l => (rList rBool).bind fun b => .done (.mult l b)
  | .pow => rPtr.bind fun a => rPtr.bind fun b => .done (.pow a b)
  | .ipow => rPtr.bind fun a => rInt.bind fun k => .done (.ipow a k)
  | .un f => rPtr.bind fun a => .done (.un f a)
  | .fn => rStr.bind fun s => rPtr.bind fun a => .done (.fn s a)
  | .jac => rStr.bind fun s => rPtr.bind fun a => .done (.jac s a)
  | .diff => rStr.bind fun s => .done (.diff s none)
  | .lin => .done (.lin [] none [])

/-! ### Object tracking -/

/-- Write fields one after the other; `sp` writes a pointer. -/
def saveFlds (sp : Ptr → List Addr → Option (List Tok × List Addr)) : List Fld → List Addr → Option (List Tok × List Addr)
  | [], seen => some ([], seen)
  | .tok t :: fs, seen => (saveFlds sp fs seen).map fun r => (t :: r.1, r.2)
  | .ptr p :: fs, seen =>
    match sp p seen with
    | none => none
    | some (ts, seen') => (saveFlds sp fs seen').map fun r => (ts ++ r.1, r.2)

/-- Write a pointer into the memory `H`; `seen` are the objects already written, in the order of their numbers.  The first
argument bounds the depth. -/
def savePtr (H : Addr → Obj) : ℕ → Ptr → List Addr → Option (List Tok × List Addr)
  | 0, _, _ => none
  | _ + 1, none, seen => some ([.null], seen)
  | n + 1, some a, seen =>
    if a ∈ seen then some ([.ref (seen.idxOf a)], seen)
    else (saveFlds (savePtr H n) (fields (H a)) (seen ++ [a])).map fun r => (.cls (cls (H a)) :: r.1, r.2)

/-- Run a reading program on the archive; `lp` reads a pointer.  The list holds the objects read so far. -/
def runRd {α : Type} (lp : List Tok → List Obj → Option (Ptr × List Tok × List Obj)) :
    Rd α → List Tok → List Obj → Option (α × List Tok × List Obj)
  | .done a, ts, st => some (a, ts, st)
  | .fail, _, _ => none
  | .tok _, [], _ => none
  | .tok k, t :: ts, st => runRd lp (k t) ts st
  | .ptr k, ts, st =>
    match lp ts st with
    | none => none
    | some (p, ts', st') => runRd lp (k p) ts' st'

/-- Read a pointer: null, an object read before, or a new object, which gets the next number before its contents are read. -/
def loadPtr : ℕ → List Tok → List Obj → Option (Ptr × List Tok × List Obj)
  | 0, _, _ => none
  | _ + 1, .null :: ts, st => some (none, ts, st)
  | _ + 1, .ref k :: ts, st => if k < st.length then some (some k, ts, st) else none
  | n + 1, .cls c :: ts, st =>
    match runRd (loadPtr n) (reader c) ts (st ++ [.var ""]) with
    | none => none
    | some (o, ts', st') => some (some st.length, ts', st'.set st.length o)
  | _ + 1, _, _ => none

/-! ### Systems -/

/-- `Patch`, patch.hpp lines 507-540. -/
structure PatchData where
  prec : ℕ
  hi : List (List Num)
  mp : List (List Num)
  dbl : List (List Num)
  sizes : List ℕ
  deriving DecidableEq

/-- `StraightLineProgram`, straight_line_program.hpp lines 601-637. -/
structure SlpData where
  prec : ℕ
  hasPath : Bool
  nFns : ℕ
  nVars : ℕ
  nJac : ℕ
  nTime : ℕ
  outFns : ℕ
  outJac : ℕ
  outTime : ℕ
  inVars : ℕ
  inTime : ℕ
  memD : List Num
  memMp : List Num
  integers : List ℤ
  instr : List ℕ
  nums : List (Ptr × ℕ)
  evaluated : Bool
  deriving DecidableEq

/-- The data members of `System`, system.hpp lines 1743-1790, except `current_variable_values_`, which is overwritten by
every evaluation at a point and is not written.  Enumerations are numbers. -/
structure Sys where
  ungrouped : List Ptr
  groups : List (List Ptr)
  homGroups : List (List Ptr)
  homVars : List Ptr
  havePath : Bool
  path : Ptr
  implicitPars : List Ptr
  explicitPars : List Ptr
  constSubs : List Ptr
  subs : List Ptr
  fns : List Ptr
  patch : PatchData
  isPatched : Bool
  uniform : Bool
  evalMethod : ℕ
  derivMethod : ℕ
  autoSimplify : Bool
  prec : ℕ
  isDiff : Bool
  jac : List Ptr
  spaceDerivs : List Ptr
  timeDerivs : List Ptr
  slp : SlpData
  timeOrder : List ℕ
  haveOrdering : Bool
  ordering : List Ptr
  deriving DecidableEq

/-- `Patch::serialize`, patch.hpp lines 525-534. -/
def wPatch (p : PatchData) : List Fld :=
  wNat p.prec ++ (wList (wList wNum) p.hi ++ (wList (wList wNum) p.mp ++ (wList (wList wNum) p.dbl ++ wList wNat p.sizes)))

def rPatch : Rd PatchData :=
  rNat.bind fun a => (rList (rList rNum)).bind fun b => (rList (rList rNum)).bind fun c =>
    (rList (rList rNum)).bind fun d => (rList rNat).bind fun e => .done ⟨a, b, c, d, e⟩

/-- An element of `true_values_of_numbers_`. -/
def wPair (x : Ptr × ℕ) : List Fld := wPtr x.1 ++ wNat x.2

def rPair : Rd (Ptr × ℕ) := rPtr.bind fun a => rNat.bind fun b => .done (a, b)

/-- `StraightLineProgram::serialize`, straight_line_program.hpp lines 217-221, 237-240, 257-262, 618-636. -/
def wSlp (s : SlpData) : List Fld :=
  wNat s.prec ++ (wBool s.hasPath ++ (wNat s.nFns ++ (wNat s.nVars ++ (wNat s.nJac ++ (wNat s.nTime ++
    (wNat s.outFns ++ (wNat s.outJac ++ (wNat s.outTime ++ (wNat s.inVars ++ (wNat s.inTime ++
      (wList wNum s.memD ++ (wList wNum s.memMp ++ (wList wInt s.integers ++ (wList wNat s.instr ++
        (wList wPair s.nums ++ wBool s.evaluated)))))))))))))))

def rSlp : Rd SlpData :=
  rNat.bind fun a => rBool.bind fun b => rNat.bind fun c => rNat.bind fun d => rNat.bind fun e => rNat.bind fun f =>
    rNat.bind fun g => rNat.bind fun h => rNat.bind fun i => rNat.bind fun j => rNat.bind fun k =>
      (rList rNum).bind fun l => (rList rNum).bind fun m => (rList rInt).bind fun n => (rList rNat).bind fun o =>
        (rList rPair).bind fun p => rBool.bind fun q => .done ⟨a, b, c, d, e, f, g, h, i, j, k, l, m, n, o, p, q⟩

/-- `System::serialize`, system.hpp lines 1797-1866, writing. -/
def wSys (s : Sys) : List Fld :=
  wList wPtr s.ungrouped ++ (wList (wList wPtr) s.groups ++ (wList (wList wPtr) s.homGroups ++ (wList wPtr s.homVars ++
    (wBool s.havePath ++ (wPtr s.path ++ (wList wPtr s.implicitPars ++ (wList wPtr s.explicitPars ++
      (wList wPtr s.constSubs ++ (wList wPtr s.subs ++ (wList wPtr s.fns ++ (wPatch s.patch ++ (wBool s.isPatched ++
        (wBool s.uniform ++ (wNat s.evalMethod ++ (wNat s.derivMethod ++ (wBool s.autoSimplify ++ (wNat s.prec ++
          (wBool s.isDiff ++ (wList wPtr s.jac ++ (wList wPtr s.spaceDerivs ++ (wList wPtr s.timeDerivs ++
            (wSlp s.slp ++ (wList wNat s.timeOrder ++ (wBool s.haveOrdering ++ wList wPtr s.ordering))))))))))))))))))))))))

/-- `System::serialize`, reading. -/
def rSys : Rd Sys :=
  (rList rPtr).bind fun ungrouped => (rList (rList rPtr)).bind fun groups => (rList (rList rPtr)).bind fun homGroups =>
  (rList rPtr).bind fun homVars => rBool.bind fun havePath => rPtr.bind fun path => (rList rPtr).bind fun implicitPars =>
  (rList rPtr).bind fun explicitPars => (rList rPtr).bind fun constSubs => (rList rPtr).bind fun subs =>
  (rList rPtr).bind fun fns => rPatch.bind fun patch => rBool.bind fun isPatched => rBool.bind fun uniform =>
  rNat.bind fun evalMethod => rNat.bind fun derivMethod => rBool.bind fun autoSimplify => rNat.bind fun prec =>
  rBool.bind fun isDiff => (rList rPtr).bind fun jac => (rList rPtr).bind fun spaceDerivs =>
  (rList rPtr).bind fun timeDerivs => rSlp.bind fun slp => (rList rNat).bind fun timeOrder =>
  rBool.bind fun haveOrdering => (rList rPtr).bind fun ordering =>
  .done { ungrouped, groups, homGroups, homVars, havePath, path, implicitPars, explicitPars, constSubs, subs, fns, patch,
          isPatched, uniform, evalMethod, derivMethod, autoSimplify, prec, isDiff, jac, spaceDerivs, timeDerivs, slp,
          timeOrder, haveOrdering, ordering }

/-- Write `x` to a new archive and read it back: the copy and the objects it consists of.  The number bounds the depth of
the expressions. -/
def archive {X : Type} (w : X → List Fld) (r : Rd X) (H : Addr → Obj) (n : ℕ) (x : X) : Option (X × List Obj) :=
  match saveFlds (savePtr H n) (w x) [] with
  | none => none
  | some (ts, _) =>
    match runRd (loadPtr n) r ts [] with
    | none => none
    | some (x', _, st) => some (x', st)

/-- `Clone`, system.cpp lines 1431-1446, of a system in the memory `H`. -/
def clone (H : Addr → Obj) (n : ℕ) (s : Sys) : Option (Sys × List Obj) := archive wSys rSys H n s

end B2.Infra.Arch
