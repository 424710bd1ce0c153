import Verif.Tree.Syntax

/-!
# `Differentiate(v)`

Models `Node::Differentiate(v)` for a non-null variable `v`.
-/

namespace B2

/-- `std::dynamic_pointer_cast<Number>(n)` succeeds
(`symbols/number.hpp`, `symbols/special_number.hpp`: all of these derive from `Number`). -/
def Node.isNumber : Node → Bool
  | .int _ | .float _ _ | .rat _ _ | .special _ => true
  | _ => false

/-- `converted->Eval<dbl>()==dbl(0.0)` for a `Number` node (`arithmetic.cpp:203`).
Exact test; a nonzero rational that underflows to `0.0` in double is not modelled. -/
def Node.numIsZero : Node → Bool
  | .int z => z == 0
  | .float re im => re == 0 && im == 0
  | .rat re im => re == 0 && im == 0
  | _ => false

/-- `std::dynamic_pointer_cast<Float>(n)` succeeds and the value is `0`
(`arithmetic.cpp:727-730`). -/
def Node.isFloatZero : Node → Bool
  | .float re im => re == 0 && im == 0
  | _ => false

/-- `std::dynamic_pointer_cast<Float>(n)` succeeds and the value is `1`
(`arithmetic.cpp:743-745`). -/
def Node.isFloatOne : Node → Bool
  | .float re im => re == 1 && im == 0
  | _ => false

/-- The extra operand of the quotient rule, `arithmetic.cpp:750-751`:
`term_ii->AddOperand(pow(operands_[ii],2),false)` when the factor is divided by. -/
def quotientTail (m : Bool) (n : Node) : Ops :=
  if m then .nil else .cons false (.ipow n 2) .nil

/-- A sum node if any operand was collected, otherwise `Zero()`, i.e. `Integer 0`
(`arithmetic.cpp:193`, `718`, `special_number.cpp:112-115`). -/
def sumOrZero : Ops → Node
  | .nil => .int 0
  | ops => .sum ops

mutual
/-- `Differentiate(v)`:
numbers `symbols/number.cpp` (Integer 0); `symbols/variable.cpp:94-100`;
sum `arithmetic.cpp:190-215`; negate `474-477`; product `716-761`; power `954-962`;
integer power `1146-1163`; sqrt `1211-1217`; exp `1294-1297`; log `1369-1372`;
trigonometric functions `trig.cpp:63-66,108-111,154-157,200-203,246-249,292-295`;
`Handle::Differentiate` in `roots/function.cpp` (derivative of the entry node).
The `operator*` and `operator/` calls in `exp` and the trigonometric cases build a
two-operand `MultOperator` (`arithmetic.hpp:1302-1378`; the integer-power merge cannot
apply since one side is never an integer power). -/
def diff (v : Var) : Node → Node
  | .int _ | .float _ _ | .rat _ _ | .special _ => .int 0
  | .var w => if v = w then .int 1 else .int 0
  | .sum ops => sumOrZero (diffSum v ops)
  | .mult ops => sumOrZero (diffMult v .nil ops)
  | .neg n => .neg (diff v n)
  | .pow b e => .mult (.cons true (diff v b) (.cons true e
      (.cons true (.pow b (.sum (.cons true e (.cons false (.int 1) .nil)))) .nil)))
  | .ipow n k =>
      if k = 0 then .int 0
      else if k = 1 then diff v n
      else if k = 2 then .mult (.cons true (.int 2) (.cons true n (.cons true (diff v n) .nil)))
      else .mult (.cons true (.int k) (.cons true (.ipow n (k - 1)) (.cons true (diff v n) .nil)))
  | .sqrt n => .mult (.cons true (.pow n (.rat (-1 / 2) 0)) (.cons true (diff v n)
      (.cons true (.rat (1 / 2) 0) .nil)))
  | .exp n => .mult (.cons true (.exp n) (.cons true (diff v n) .nil))
  | .log n => .mult (.cons false n (.cons true (diff v n) .nil))
  | .sin n => .mult (.cons true (.cos n) (.cons true (diff v n) .nil))
  | .cos n => .mult (.cons true (.neg (.sin n)) (.cons true (diff v n) .nil))
  | .tan n => .mult (.cons true (diff v n) (.cons false (.ipow (.cos n) 2) .nil))
  | .asin n => .mult (.cons true (diff v n) (.cons false
      (.sqrt (.sum (.cons true (.int 1) (.cons false (.ipow n 2) .nil)))) .nil))
  | .acos n => .mult (.cons true (.neg (diff v n)) (.cons false
      (.sqrt (.sum (.cons true (.int 1) (.cons false (.ipow n 2) .nil)))) .nil))
  | .atan n => .mult (.cons true (diff v n) (.cons false
      (.sum (.cons true (.int 1) (.cons true (.ipow n 2) .nil))) .nil))
  | .fn n => diff v n
/-- The loop of `SumOperator::Differentiate`, `arithmetic.cpp:194-212`: operands that are
numbers are skipped, derivatives that are numbers equal to zero are skipped. -/
def diffSum (v : Var) : Ops → Ops
  | .nil => .nil
  | .cons s n r =>
      if n.isNumber then diffSum v r
      else if (diff v n).isNumber && (diff v n).numIsZero then diffSum v r
      else .cons s (diff v n) (diffSum v r)
/-- The loop of `MultOperator::Differentiate`, `arithmetic.cpp:722-758`. `pre` holds the
operands before the current one (`jj < ii`), `r` the ones after it (`jj > ii`).
A `Float` derivative equal to `1` makes the loop `continue` without adding its term
(lines 743-745). -/
def diffMult (v : Var) (pre : Ops) : Ops → Ops
  | .nil => .nil
  | .cons m n r =>
      let rest := diffMult v (pre.append (.cons m n .nil)) r
      if (diff v n).isFloatZero then rest
      else if (diff v n).isFloatOne then rest
      else .cons m (.mult (.cons true (diff v n) ((pre.append r).append (quotientTail m n)))) rest
end

end B2
