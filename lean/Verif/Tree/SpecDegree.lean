import Verif.Tree.Degree
import Verif.Tree.Spec

/-!
# Specification vocabulary for degrees: which exponents are trusted
-/

namespace B2

mutual
/-- At every general power `b^e` in the tree: the exponent has at `env` the value it had (at
`cur`) when the degree was asked for, and if that value passes the near-integer test of the
code then it is exactly an integer. Numeric exponents that are integers or clearly
non-integers satisfy this at every `env`. -/
def FrozenExponents (cur env : Env) : Node → Prop
  | .int _ | .float _ _ | .rat _ _ | .special _ | .var _ => True
  | .sum ops | .mult ops => FrozenExponentsOps cur env ops
  | .pow b e => FrozenExponents cur env b ∧ FrozenExponents cur env e ∧
      eval env e = eval cur e ∧ (NearInt (eval cur e) → ∃ k : ℤ, eval cur e = k)
  | .neg n | .ipow n _ | .sqrt n | .exp n | .log n | .sin n | .cos n | .tan n
  | .asin n | .acos n | .atan n | .fn n => FrozenExponents cur env n
/-- The same for all operands. -/
def FrozenExponentsOps (cur env : Env) : Ops → Prop
  | .nil => True
  | .cons _ n r => FrozenExponents cur env n ∧ FrozenExponentsOps cur env r
end

mutual
/-- At every negation, integer power and general power the group degree of the operand (base)
is the sum of its per-variable degrees: the assumption under which the group-degree rule of
these operators is right. Always true for groups of one variable and for operands that are
monomials. -/
def ExactUnary (cur : Env) (vars : List Var) : Node → Prop
  | .int _ | .float _ _ | .rat _ _ | .special _ | .var _ => True
  | .sum ops | .mult ops => ExactUnaryOps cur vars ops
  | .pow n _ | .neg n | .ipow n _ => ExactUnary cur vars n ∧
      degG cur vars n = (vars.map fun v => degV cur v n).sum
  | .sqrt n | .exp n | .log n | .sin n | .cos n | .tan n
  | .asin n | .acos n | .atan n | .fn n => ExactUnary cur vars n
/-- The same for all operands. -/
def ExactUnaryOps (cur : Env) (vars : List Var) : Ops → Prop
  | .nil => True
  | .cons _ n r => ExactUnary cur vars n ∧ ExactUnaryOps cur vars r
end

end B2
