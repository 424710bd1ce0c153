import Verif.Tree.Diff

/-! Helper lemmas for the correctness of `diff`. -/

namespace B2

open Complex

@[simp] theorem Ops.append_nil (a : Ops) : a.append .nil = a := by
  induction a using Ops.rec (motive_1 := fun _ => True) <;> simp_all [Ops.append]

@[simp] theorem Ops.nil_append (a : Ops) : Ops.append .nil a = a := rfl

@[simp] theorem Ops.cons_append (f : Bool) (n : Node) (a b : Ops) :
    (Ops.cons f n a).append b = .cons f n (a.append b) := rfl

theorem evalMult_append (env : Env) (a b : Ops) :
    evalMult env (a.append b) = evalMult env a * evalMult env b := by
  induction a using Ops.rec (motive_1 := fun _ => True) with
  | nil => simp [evalMult]
  | cons f n r _ ih => simp [evalMult, ih, mul_assoc]
  | _ => trivial

theorem evalSum_append (env : Env) (a b : Ops) :
    evalSum env (a.append b) = evalSum env a + evalSum env b := by
  induction a using Ops.rec (motive_1 := fun _ => True) with
  | nil => simp [evalSum]
  | cons f n r _ ih => simp [evalSum, ih, add_assoc]
  | _ => trivial

theorem eval_sumOrZero (env : Env) (ops : Ops) : eval env (sumOrZero ops) = evalSum env ops := by
  cases ops <;> simp [sumOrZero, eval, evalSum]

theorem evalMult_quotientTail (env : Env) (m : Bool) (n : Node) :
    evalMult env (quotientTail m n) = if m then 1 else (eval env n ^ 2)⁻¹ := by
  cases m <;> simp [quotientTail, evalMult, eval]

theorem sumOrZero_ne_float (ops : Ops) (a b : ℚ) : sumOrZero ops ≠ .float a b := by
  cases ops <;> simp [sumOrZero]

/-- The derivative of a node is never a `Float` node. -/
theorem diff_ne_float (v : Var) (n : Node) (a b : ℚ) : diff v n ≠ .float a b := by
  induction n using Node.rec (motive_2 := fun _ => True) with
  | nil => trivial
  | cons => trivial
  | var w => unfold diff; split <;> simp
  | sum ops => simpa [diff] using sumOrZero_ne_float _ a b
  | mult ops => simpa [diff] using sumOrZero_ne_float _ a b
  | ipow n k ih => unfold diff; split_ifs <;> simp_all
  | fn n ih => simpa [diff] using ih
  | _ => simp [diff]

theorem diff_isFloatOne (v : Var) (n : Node) : (diff v n).isFloatOne = false := by
  have h := diff_ne_float v n
  cases hd : diff v n <;> simp_all [Node.isFloatOne]

theorem diff_isFloatZero (v : Var) (n : Node) : (diff v n).isFloatZero = false := by
  have h := diff_ne_float v n
  cases hd : diff v n <;> simp_all [Node.isFloatZero]

theorem eval_numIsZero (env : Env) (n : Node) (h : n.numIsZero = true) : eval env n = 0 := by
  cases n <;> simp_all [Node.numIsZero, eval]

theorem diff_isNumber_eval (env : Env) (v : Var) (n : Node) (h : n.isNumber = true) :
    eval env (diff v n) = 0 := by
  cases n <;> simp_all [Node.isNumber, eval, diff]

/-- A tree that does not mention `v` does not depend on `v`. -/
theorem eval_update_of_not_mem (env : Env) (v : Var) (t : ℂ) (n : Node) (h : v ∉ n.vars) :
    eval (Function.update env v t) n = eval env n := by
  induction n using Node.rec (motive_2 := fun ops => v ∉ ops.vars →
      evalSum (Function.update env v t) ops = evalSum env ops ∧
      evalMult (Function.update env v t) ops = evalMult env ops) with
  | nil => simp [evalSum, evalMult]
  | cons f n r ih1 ih2 h =>
    simp only [Ops.vars, List.mem_append, not_or] at h
    simp [evalSum, evalMult, ih1 h.1, ih2 h.2]
  | int => simp [eval]
  | float => simp [eval]
  | rat => simp [eval]
  | special s => cases s <;> simp [eval]
  | var w =>
    simp only [Node.vars, List.mem_singleton] at h
    simp [eval, Function.update_of_ne (Ne.symm h)]
  | sum ops ih => simp only [Node.vars] at h; simp [eval, (ih h).1]
  | mult ops ih => simp only [Node.vars] at h; simp [eval, (ih h).2]
  | pow b e ih1 ih2 =>
    simp only [Node.vars, List.mem_append, not_or] at h
    simp [eval, ih1 h.1, ih2 h.2]
  | _ => simp_all [eval, Node.vars]

/-- `i z + sqrt(1 - z^2)` lies in the right half plane when `1 - z^2` avoids the cut. -/
theorem carcsin_arg_re_pos (z : ℂ) (h : 1 - z ^ 2 ∈ slitPlane) :
    0 < (I * z + (1 - z ^ 2) ^ (1 / 2 : ℂ)).re := by
  set a := (1 - z ^ 2) ^ (1 / 2 : ℂ) with ha
  have hne : 1 - z ^ 2 ≠ 0 := slitPlane_ne_zero h
  have hsq : a ^ 2 = 1 - z ^ 2 := by
    rw [ha, ← cpow_nat_mul]; norm_num
  have hare : 0 < a.re := by
    have : a = exp (log (1 - z ^ 2) / 2) := by
      rw [ha, cpow_def_of_ne_zero hne]; congr 1; ring
    rw [this, exp_re]
    apply mul_pos (Real.exp_pos _)
    have h1 : (log (1 - z ^ 2) / 2).im = arg (1 - z ^ 2) / 2 := by
      have : (log (1 - z ^ 2) / 2).im = (log (1 - z ^ 2)).im / 2 := by
        simp
      rw [this, log_im]
    rw [h1]
    apply Real.cos_pos_of_mem_Ioo
    have h2 := neg_pi_lt_arg (1 - z ^ 2)
    have h3 : arg (1 - z ^ 2) < Real.pi :=
      lt_of_le_of_ne (arg_le_pi _) (mem_slitPlane_iff_arg.mp h).1
    constructor <;> linarith
  set w := I * z + a
  have hw : w * (a - I * z) = 1 := by
    have : w * (a - I * z) = a ^ 2 - (I * z) ^ 2 := by simp only [w]; ring
    rw [this, hsq, mul_pow, I_sq]; ring
  have hw0 : w ≠ 0 := fun h0 => by rw [h0, zero_mul] at hw; exact zero_ne_one hw
  have hinv : a - I * z = w⁻¹ := by
    field_simp; rw [mul_comm]; exact hw
  have hre : w.re + (w⁻¹).re = 2 * a.re := by
    rw [← hinv]; simp only [w, add_re, sub_re]; ring
  rw [inv_re] at hre
  have hn : 0 < normSq w := normSq_pos.mpr hw0
  have : w.re * (1 + 1 / normSq w) = 2 * a.re := by
    rw [← hre]; ring
  by_contra hcon
  push Not at hcon
  have : w.re * (1 + 1 / normSq w) ≤ 0 :=
    mul_nonpos_of_nonpos_of_nonneg hcon (by positivity)
  linarith

theorem hasDerivAt_carcsin (z : ℂ) (h : 1 - z ^ 2 ∈ slitPlane) :
    HasDerivAt carcsin (1 / (1 - z ^ 2) ^ (1 / 2 : ℂ)) z := by
  have hpos := carcsin_arg_re_pos z h
  have hne : 1 - z ^ 2 ≠ 0 := slitPlane_ne_zero h
  set a := (1 - z ^ 2) ^ (1 / 2 : ℂ) with ha
  have ha0 : a ≠ 0 := by
    rw [ha]; simp [cpow_eq_zero_iff, hne]
  have hw : I * z + a ∈ slitPlane := Or.inl hpos
  have hw0 := slitPlane_ne_zero hw
  have h1 : HasDerivAt (fun z : ℂ => 1 - z ^ 2) (-(2 * z)) z := by
    simpa using ((hasDerivAt_pow 2 z).const_sub 1)
  have h2 : HasDerivAt (fun z : ℂ => (1 - z ^ 2) ^ (1 / 2 : ℂ))
      ((1 / 2 : ℂ) * (1 - z ^ 2) ^ ((1 / 2 : ℂ) - 1) * (-(2 * z))) z := h1.cpow_const h
  have h3 : HasDerivAt (fun z : ℂ => I * z + (1 - z ^ 2) ^ (1 / 2 : ℂ))
      (I * 1 + (1 / 2 : ℂ) * (1 - z ^ 2) ^ ((1 / 2 : ℂ) - 1) * (-(2 * z))) z :=
    ((hasDerivAt_id z).const_mul I).add h2
  have h4 := (h3.clog hw).const_mul (-I)
  have hpow : (1 - z ^ 2) ^ ((1 / 2 : ℂ) - 1) = 1 / a := by
    have : a * (1 - z ^ 2) ^ ((1 / 2 : ℂ) - 1) = 1 := by
      rw [ha, ← cpow_add _ _ hne]; norm_num
    exact eq_one_div_of_mul_eq_one_right this
  refine h4.congr_deriv ?_
  rw [hpow, ← ha]
  field_simp
  ring_nf
  simp only [I_sq]
  ring

theorem hasDerivAt_arctan (z : ℂ) (h1 : 1 - z * I ≠ 0) (h2 : (1 + z * I) / (1 - z * I) ∈ slitPlane) :
    HasDerivAt arctan (1 / (1 + z ^ 2)) z := by
  have h3 : 1 + z * I ≠ 0 := fun h0 => by
    rw [h0, zero_div] at h2; exact slitPlane_ne_zero h2 rfl
  have hd1 : HasDerivAt (fun z : ℂ => 1 + z * I) I z := by
    simpa using ((hasDerivAt_id z).mul_const I).const_add 1
  have hd2 : HasDerivAt (fun z : ℂ => 1 - z * I) (-I) z := by
    simpa using ((hasDerivAt_id z).mul_const I).const_sub 1
  have hd3 : HasDerivAt (fun z : ℂ => (1 + z * I) / (1 - z * I))
      ((I * (1 - z * I) - (1 + z * I) * (-I)) / (1 - z * I) ^ 2) z := hd1.div hd2 h1
  have h4 := (hd3.clog h2).const_mul (-I / 2)
  have hz : (1 + z * I) * (1 - z * I) = 1 + z ^ 2 := by
    ring_nf; simp
  refine h4.congr_deriv ?_
  rw [← hz]
  have : I * (1 - z * I) - (1 + z * I) * (-I) = 2 * I := by ring
  rw [this]
  field_simp
  simp only [I_sq, mul_comm I z]
  rw [neg_div, neg_neg, mul_comm]

end B2
