import Verif.Tree.DiffProof

/-!
# C01: `Differentiate(v)` is the true partial derivative
-/

namespace B2

open Complex

/-- C01, full statement: at every point where all elementary operations of the expression
are defined and differentiable, evaluating the tree returned by `Differentiate(v)` gives the
partial derivative with respect to `v` of the function the tree computes. -/
def C01_full : Prop :=
  ∀ (n : Node) (v : Var) (env : Env), Smooth env n → IsPartialDeriv n v env (eval env (diff v n))

/-- The code violates C01 for a general power whose exponent contains the variable:
`2^x` differentiated by `x` evaluates to `0` (`arithmetic.cpp:954-962` only applies the power
rule, treating the exponent as a constant). -/
theorem C01_differentiate_refuted : ¬ C01_full := by
  intro h
  have h1 := h (.pow (.int 2) (.var 0)) 0 (fun _ => 0) (by
    refine ⟨trivial, trivial, Or.inl ?_⟩
    simp [eval])
  have e0 : eval (fun _ => 0) (diff 0 (.pow (.int 2) (.var 0))) = 0 := by
    simp [diff, eval, evalMult]
  rw [e0] at h1
  have h2 : HasDerivAt (fun t : ℂ => (2 : ℂ) ^ t) ((2 : ℂ) ^ (0 : ℂ) * Complex.log 2 * 1) 0 :=
    (hasDerivAt_id (0 : ℂ)).const_cpow (Or.inl (by norm_num))
  have h3 : HasDerivAt (fun t : ℂ => (2 : ℂ) ^ t) 0 0 := by
    have := h1
    simp only [IsPartialDeriv, eval, Function.update_self] at this
    simpa using this
  have h4 := h2.unique h3
  have h5 : Complex.log 2 = ((Real.log 2 : ℝ) : ℂ) := by
    rw [Complex.ofReal_log (by norm_num)]; norm_num
  have h6 : Real.log 2 ≠ 0 := by
    have := Real.log_pos (by norm_num : (1 : ℝ) < 2)
    exact this.ne'
  rw [h5] at h4
  have h7 : ((Real.log 2 : ℝ) : ℂ) = 0 := by simpa using h4
  exact h6 (by exact_mod_cast h7)

/-- C01 for every tree in which `v` does not occur in the exponent of a general power
(integer powers are not restricted). Missing: general powers with a variable exponent, where
the claim is false (`C01_differentiate_refuted`). -/
theorem C01_differentiate_partial (n : Node) (v : Var) (env : Env)
    (hs : Smooth env n) (he : ExpFree v n) :
    IsPartialDeriv n v env (eval env (diff v n)) :=
  diff_correct v env n hs he

/-- What the code computes for a general power, whatever the exponent: the power-rule part
of the derivative only. -/
theorem C01_power_rule_only (b e : Node) (v : Var) (env : Env) :
    eval env (diff v (.pow b e)) =
      eval env (diff v b) * eval env e * eval env b ^ (eval env e - 1) := by
  simp [diff, eval, evalMult, evalSum, sub_eq_add_neg, mul_assoc]

/-- Non-vacuity: `sin(x)/y + (x*y)^3`, differentiated by `x` at `x = 0`, `y = 2`. -/
example : IsPartialDeriv
    (.sum (.cons true (.mult (.cons true (.sin (.var 0)) (.cons false (.var 1) .nil)))
      (.cons true (.ipow (.mult (.cons true (.var 0) (.cons true (.var 1) .nil))) 3) .nil)))
    0 (fun v => if v = 1 then 2 else 0) (1 / 2) := by
  have := C01_differentiate_partial
    (.sum (.cons true (.mult (.cons true (.sin (.var 0)) (.cons false (.var 1) .nil)))
      (.cons true (.ipow (.mult (.cons true (.var 0) (.cons true (.var 1) .nil))) 3) .nil)))
    0 (fun v => if v = 1 then 2 else 0)
    (by simp [Smooth, SmoothSum, SmoothMult, eval]) (by simp [ExpFree, ExpFreeOps])
  convert this using 1
  simp [diff, diffSum, diffMult, sumOrZero, Node.isNumber, Node.isFloatZero, Node.isFloatOne,
    quotientTail, Ops.append, eval, evalSum, evalMult]

end B2
