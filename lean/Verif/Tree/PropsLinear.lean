import Verif.Tree.Linear
import Verif.Tree.Spec
import Mathlib.Analysis.Calculus.Deriv.Mul
import Mathlib.Analysis.Calculus.Deriv.Add
import Mathlib.Algebra.BigOperators.Fin
import Mathlib.Algebra.BigOperators.Intervals

/-!
# C14: products of linear forms
-/

namespace B2

open Finset

/-- Specification: the `i`-th linear form, `Σ_j c_ij x_j + c_i h`. -/
noncomputable def LinProd.form (p : LinProd) (env : Env) (i : ℕ) : ℂ :=
  ∑ j : Fin p.vars.length, p.coeff i j * env (p.vars[j]) +
    p.coeff i p.vars.length * p.hom.eval env

/-- What the constructors guarantee: the variables of the group are distinct, the homogenizing
variable is not among them; for an already homogeneous group the constant column is zero and so
is the homogenizing part (`linear_product.hpp:123-134`). -/
structure LinProd.WF (p : LinProd) : Prop where
  nodup : p.vars.Nodup
  homFresh : ∀ h, p.hom = .var h → h ∉ p.vars
  homVars : p.isHomVars = true → p.hom = .const 0 ∧ ∀ i, p.coeff i p.vars.length = 0

theorem foldl_sum_range (f : ℕ → ℂ) (n : ℕ) :
    (List.range n).foldl (fun s j => s + f j) 0 = ∑ j ∈ range n, f j := by
  induction n with
  | zero => simp
  | succ n ih => rw [List.range_succ, List.foldl_append, ih, Finset.sum_range_succ]; rfl

theorem foldl_prod_range (f : ℕ → ℂ) (n : ℕ) :
    (List.range n).foldl (fun s j => s * f j) 1 = ∏ j ∈ range n, f j := by
  induction n with
  | zero => simp
  | succ n ih => rw [List.range_succ, List.foldl_append, ih, Finset.prod_range_succ]; rfl

theorem LinProd.inner_eq (p : LinProd) (env : Env) (i : ℕ) :
    (List.range (p.vars.length + 1)).foldl
      (fun s jj => s + p.coeff i jj * p.tempVar env jj) 0 = p.form env i := by
  rw [foldl_sum_range (fun jj => p.coeff i jj * p.tempVar env jj), Finset.sum_range_succ,
    LinProd.form, Finset.sum_range]
  congr 1
  · refine Finset.sum_congr rfl fun j _ => ?_
    have : p.vars[(j : ℕ)]? = some p.vars[j] := by simp
    rw [LinProd.tempVar, this]
  · have : p.vars[p.vars.length]? = none := by simp
    rw [LinProd.tempVar, this]

/-- C14, value: a linear product evaluates to the product of its linear forms. -/
theorem C14_value (p : LinProd) (env : Env) :
    p.eval env = ∏ i : Fin p.numFactors, p.form env i := by
  rw [LinProd.eval]
  simp only [LinProd.inner_eq]
  rw [foldl_prod_range (fun i => p.form env i), Finset.prod_range]

/-- Non-vacuity: `(2x + 3y + 5)(7x + 11y + 13)` at `x = 1, y = 2`. -/
example : (LinProd.mk [0, 1] (.const 1) 2
      (fun i j => if i = 0 then [2, 3, 5].getD j 0 else [7, 11, 13].getD j 0) false).eval
      (fun v => if v = 0 then 1 else 2) = 13 * 42 := by
  simp [C14_value, LinProd.form, Fin.prod_univ_succ, Fin.sum_univ_succ, HomPart.eval]
  norm_num

theorem getLinears_form (p : LinProd) (hp : p.WF) (env : Env) (idx : List ℕ) (i : ℕ) :
    (p.getLinears idx).form env i = p.form env (idx.getD i 0) := by
  simp only [LinProd.form, LinProd.getLinears]
  by_cases h : p.isHomVars = true
  · simp [h, (hp.homVars h).1, (hp.homVars h).2]
    rfl
  · simp [h]
    rfl

theorem getLinears_eval (p : LinProd) (hp : p.WF) (env : Env) (idx : List ℕ) :
    (p.getLinears idx).eval env = (idx.map (p.form env)).prod := by
  rw [C14_value]
  simp only [getLinears_form p hp]
  rw [← List.prod_ofFn]
  congr 1
  apply List.ext_getElem
  · simp [LinProd.getLinears]
  · intro n h1 h2
    simp only [List.length_map] at h2
    simp [List.getD_eq_getElem?_getD, h2]

/-- The terms of the derivative, uniformly. -/
theorem evalDeriv_eq (p : LinProd) (hp : p.WF) (env : Env) (d : Option Var)
    (terms : List DerivTerm) (ht : p.differentiate = some terms) :
    evalDeriv terms env d = ∑ i ∈ range p.numFactors,
      diffLinearEval (p.getLinears [i]) d * ∏ k ∈ (range p.numFactors).erase i, p.form env k := by
  unfold LinProd.differentiate at ht
  split_ifs at ht with h0
  obtain ⟨m, hm⟩ : ∃ m, p.numFactors = m + 1 := ⟨p.numFactors - 1, by omega⟩
  have hfilter : ∀ i, (((List.range p.numFactors).filter (i ≠ ·)).map (p.form env)).prod =
      ∏ k ∈ (range p.numFactors).erase i, p.form env k := by
    intro i
    rw [← List.prod_toFinset _ (List.nodup_range.filter _)]
    refine Finset.prod_congr ?_ fun _ _ => rfl
    ext k
    simp only [List.mem_toFinset, List.mem_filter, List.mem_range, Finset.mem_erase,
      Finset.mem_range, decide_eq_true_eq]
    tauto
  have hdrop : (List.range p.numFactors).drop 1 = (List.range p.numFactors).filter (0 ≠ ·) := by
    rw [hm, List.range_succ_eq_map]
    simp only [List.drop_succ_cons, List.drop_zero]
    rw [List.filter_cons_of_neg (by simp), List.filter_eq_self.mpr]
    intro a ha
    obtain ⟨b, -, rfl⟩ := List.mem_map.mp ha
    simp
  have hdrop2 : (List.range p.numFactors).drop 1 = (List.range m).map Nat.succ := by
    rw [hm, List.range_succ_eq_map]; simp
  obtain rfl := Option.some.inj ht
  have hfirst : othersEval env (if 0 < ((List.range p.numFactors).drop 1).length then
        some (p.getLinears ((List.range p.numFactors).drop 1)) else none) =
      ∏ k ∈ (range p.numFactors).erase 0, p.form env k := by
    split_ifs with h1
    · rw [othersEval, getLinears_eval p hp, hdrop, hfilter]
    · rw [← hfilter 0, ← hdrop]
      have : (List.range p.numFactors).drop 1 = [] := by
        apply List.length_eq_zero_iff.mp; omega
      rw [this]; simp [othersEval]
  simp only [evalDeriv, List.map_cons, List.sum_cons, List.map_map, Function.comp_def]
  rw [hfirst, hdrop2, List.map_map]
  rw [hm, Finset.sum_range_succ', add_comm]
  congr 1
  rw [← List.sum_toFinset _ List.nodup_range, List.toFinset_range]
  refine Finset.sum_congr rfl fun i _ => ?_
  simp only [Function.comp_def, othersEval]
  rw [getLinears_eval p hp, ← hm, hfilter]

theorem form_hasDerivAt (p : LinProd) (hp : p.WF) (env : Env) (v : Var)
    (hv : p.hom ≠ .var v) (i : ℕ) :
    HasDerivAt (fun t => p.form (Function.update env v t) i)
      (diffLinearEval (p.getLinears [i]) (some v)) (env v) := by
  have hhom : ∀ t, p.hom.eval (Function.update env v t) = p.hom.eval env := by
    intro t
    cases hh : p.hom with
    | const c => rfl
    | var h =>
      have : h ≠ v := by rintro rfl; exact hv hh
      simp [HomPart.eval, this]
  have hval : diffLinearEval (p.getLinears [i]) (some v) =
      ∑ j : Fin p.vars.length, p.coeff i j * (if p.vars[j] = v then 1 else 0) := by
    have hhv : ¬ (p.getLinears [i]).hom = .var v := by
      simp only [LinProd.getLinears]
      split_ifs
      · simp
      · exact hv
    have h1 : diffLinearEval (p.getLinears [i]) (some v) =
        if p.vars.idxOf v < p.vars.length then p.coeff i (p.vars.idxOf v) else 0 := by
      simp only [diffLinearEval, hhv, if_false]
      rfl
    rw [h1]
    split_ifs with hlt
    · rw [Finset.sum_eq_single ⟨p.vars.idxOf v, hlt⟩]
      · simp
      · intro j _ hj
        rw [if_neg, mul_zero]
        intro hc
        apply hj
        apply Fin.ext
        have h2 := List.Nodup.idxOf_getElem hp.nodup j j.2
        simp only [Fin.getElem_fin] at hc
        rw [hc] at h2
        exact h2.symm
      · simp
    · symm
      apply Finset.sum_eq_zero
      intro j _
      rw [if_neg, mul_zero]
      intro hc
      apply hlt
      rw [List.idxOf_lt_length_iff, ← hc]
      simp
  rw [hval]
  simp only [LinProd.form, hhom]
  refine HasDerivAt.add_const _ (HasDerivAt.fun_sum fun j _ => ?_)
  by_cases hj : p.vars[j] = v
  · rw [if_pos hj]
    simp only [hj, Function.update_self]
    exact (hasDerivAt_id _).const_mul _
  · rw [if_neg hj]
    simp only [Function.update_of_ne hj, mul_zero]
    exact hasDerivAt_const _ _

/-- C14, full statement: the value is the product of the forms, and the derivative, evaluated for
the variable `v`, is the partial derivative of the value, for *every* variable. -/
def C14_full : Prop :=
  ∀ (p : LinProd) (env : Env) (v : Var), p.WF → 0 < p.numFactors →
    p.eval env = ∏ i : Fin p.numFactors, p.form env i ∧
    ∃ terms, p.differentiate = some terms ∧
      HasDerivAt (fun t => p.eval (Function.update env v t))
        (evalDeriv terms env (some v)) (env v)

/-- C14, the part that holds: correct for every variable except the homogenizing one. Missing from
`C14_full`: differentiation by the homogenizing variable. -/
theorem C14_derivative_partial (p : LinProd) (hp : p.WF) (env : Env) (v : Var)
    (hn : 0 < p.numFactors) (hv : p.hom ≠ .var v) :
    ∃ terms, p.differentiate = some terms ∧
      HasDerivAt (fun t => p.eval (Function.update env v t))
        (evalDeriv terms env (some v)) (env v) := by
  obtain ⟨terms, ht⟩ : ∃ terms, p.differentiate = some terms := by
    unfold LinProd.differentiate
    rw [if_neg (by omega)]
    exact ⟨_, rfl⟩
  refine ⟨terms, ht, ?_⟩
  rw [evalDeriv_eq p hp env _ terms ht]
  have h := HasDerivAt.fun_finsetProd (u := range p.numFactors)
    (f := fun i t => p.form (Function.update env v t) i)
    fun i _ => form_hasDerivAt p hp env v hv i
  have he : ∀ t, p.eval (Function.update env v t) =
      ∏ i ∈ range p.numFactors, p.form (Function.update env v t) i := by
    intro t; rw [C14_value, Finset.prod_range]
  simp only [he]
  refine h.congr_deriv (Finset.sum_congr rfl fun i _ => ?_)
  simp only [Function.update_eq_self, smul_eq_mul, mul_comm]

/-- The code violates C14: the derivative of `2x + 3h` by `h` is reported as 2. -/
theorem C14_derivative_refuted : ¬ C14_full := by
  intro H
  let p : LinProd := ⟨[0], .var 1, 1, fun _ j => if j = 0 then 2 else 3, false⟩
  have hp : p.WF := ⟨by simp [p], by simp [p], by simp [p]⟩
  obtain ⟨-, terms, ht, hd⟩ := H p (fun _ => 0) 1 hp (by simp [p])
  rw [evalDeriv_eq p hp _ _ terms ht] at hd
  have h1 : HasDerivAt (fun t : ℂ => p.eval (Function.update (fun _ => 0) 1 t)) 3 0 := by
    have : ∀ t : ℂ, p.eval (Function.update (fun _ => 0) 1 t) = 3 * t := by
      intro t
      simp [C14_value, p, LinProd.form, HomPart.eval]
    simp only [this]
    simpa using (hasDerivAt_id (0 : ℂ)).const_mul 3
  have h2 := hd.unique h1
  simp [p, diffLinearEval, LinProd.getLinears] at h2

/-- What the code computes instead: differentiating by the homogenizing variable gives the derivative by the
last variable of the group. -/
theorem C14_hom_derivative (p : LinProd) (hp : p.WF) (env : Env) (h v : Var) (hh : p.hom = .var h)
    (hv : p.vars.getLast? = some v) (terms : List DerivTerm) (ht : p.differentiate = some terms) :
    evalDeriv terms env (some h) = evalDeriv terms env (some v) ∧
      HasDerivAt (fun t => p.eval (Function.update env v t)) (evalDeriv terms env (some h)) (env v) := by
  have hnot : h ∉ p.vars := hp.homFresh h hh
  have hf : p.isHomVars = false := by
    by_contra hc
    have := (hp.homVars (by simpa using hc)).1
    rw [hh] at this
    simp at this
  obtain ⟨l, hl⟩ := List.getLast?_eq_some_iff.mp hv
  have hidx : p.vars.idxOf v = p.vars.length - 1 := by
    have hnd := hp.nodup
    rw [hl] at hnd ⊢
    have : v ∉ l := fun hm => (List.nodup_append.mp hnd).2.2 v hm v (by simp) rfl
    rw [List.idxOf_append_of_notMem this]
    simp
  have hlen : 0 < p.vars.length := by rw [hl]; simp
  have e : evalDeriv terms env (some h) = evalDeriv terms env (some v) := by
    rw [evalDeriv_eq p hp env _ terms ht, evalDeriv_eq p hp env _ terms ht]
    refine Finset.sum_congr rfl fun i _ => ?_
    congr 1
    simp only [diffLinearEval, LinProd.getLinears, hf, Bool.false_eq_true, if_false]
    rw [if_neg (by rw [List.idxOf_lt_length_iff]; exact hnot), if_pos hh,
      if_pos (by rw [hidx]; omega), hidx]
  refine ⟨e, ?_⟩
  have hne : p.hom ≠ .var v := by
    rw [hh]
    intro hc
    simp only [HomPart.var.injEq] at hc
    subst hc
    exact hnot (by rw [hl]; simp)
  have hn : 0 < p.numFactors := by
    by_contra hc
    unfold LinProd.differentiate at ht
    rw [if_pos (by omega)] at ht
    cases ht
  obtain ⟨terms', ht', hd⟩ := C14_derivative_partial p hp env v hn hne
  rw [ht] at ht'
  cases ht'
  rw [e]
  exact hd

/-- **C14 (selection).** `GetLinears` gives a linear product again, whose value is the product of the selected
forms; for a projective group it has no constant part either. -/
theorem C14_select (p : LinProd) (hp : p.WF) (idx : List ℕ) :
    (p.getLinears idx).WF ∧ ∀ env, (p.getLinears idx).eval env = (idx.map (p.form env)).prod := by
  refine ⟨⟨hp.nodup, ?_, ?_⟩, fun env => getLinears_eval p hp env idx⟩
  · intro h hh
    simp only [LinProd.getLinears] at hh
    split_ifs at hh
    exact hp.homFresh h hh
  · intro hv
    have hv' : p.isHomVars = true := hv
    refine ⟨by simp [LinProd.getLinears, hv'], ?_⟩
    intro i
    exact (hp.homVars hv').2 _

/-- The derivative of a linear product evaluated *without* a variable of differentiation, as the
`Derivatives` method of a system does, is 0 whatever the product. -/
theorem C14_plain_eval_zero (p : LinProd) (hp : p.WF) (env : Env) (terms : List DerivTerm)
    (ht : p.differentiate = some terms) : evalDeriv terms env none = 0 := by
  rw [evalDeriv_eq p hp env _ terms ht]
  simp [diffLinearEval]

/-! ### Homogenization of linear products -/

/-- Homogenizing a (not yet homogenized) linear product with its own group: setting the new
variable to 1 recovers the value, and the result is homogeneous of degree the number of factors
in the group and the new variable. -/
theorem C14_homogenize (p : LinProd) (hp : p.WF) (hc : p.hom = .const 1)
    (vars : List Var) (h : Var) (hh : h ∉ p.vars)
    (hv : ∀ v, v ∈ p.vars ↔ v ∈ vars ∧ v ≠ h) (hnv : vars.Nodup) :
    ∃ q, p.homogenize false vars h = some (q, true) ∧ q.WF ∧
      (∀ env : Env, env h = 1 → q.eval env = p.eval env) ∧
      (∀ (c : ℂ) (env : Env), q.eval (scale c (h :: p.vars) env) =
        c ^ p.numFactors * q.eval env) := by
  refine ⟨{ p with hom := .var h }, ?_, ⟨hp.nodup, ?_, ?_⟩, ?_, ?_⟩
  · have hsub1 : ∀ v ∈ vars.filter (· ≠ h), v ∈ p.vars := by
      intro v hvm; rw [hv]; simpa using hvm
    have hsub2 : ∀ v ∈ p.vars, v ∈ vars.filter (· ≠ h) := by
      intro v hvm; rw [hv] at hvm; simpa using hvm
    have hlen : (vars.filter (· ≠ h)).length = p.vars.length := by
      have h1 := (List.subperm_of_subset (hnv.filter _) hsub1).length_le
      have h2 := (List.subperm_of_subset hp.nodup hsub2).length_le
      omega
    have hnl : ¬ (vars.filter (· ≠ h)).length < p.vars.length := by omega
    simp only [LinProd.homogenize, Bool.false_eq_true, if_false, hnl]
    have hall : (vars.filter (· ≠ h)).all (· ∈ p.vars) = true := by
      rw [List.all_eq_true]
      intro v hvm
      simpa using hsub1 v hvm
    rw [hall]
    rfl
  · intro h' he
    simp only [HomPart.var.injEq] at he
    exact he ▸ hh
  · intro hiv
    have := (hp.homVars hiv).1
    rw [hc] at this
    simp at this
  · intro env h1
    rw [C14_value, C14_value]
    refine Finset.prod_congr rfl fun i _ => ?_
    simp [LinProd.form, hc, HomPart.eval, h1]
  · intro c env
    rw [C14_value, C14_value]
    simp only
    rw [← Fin.prod_const, ← Finset.prod_mul_distrib]
    refine Finset.prod_congr rfl fun i _ => ?_
    simp only [LinProd.form, HomPart.eval, scale, List.mem_cons, true_or, if_true]
    rw [mul_add, Finset.mul_sum]
    congr 1
    · refine Finset.sum_congr rfl fun j _ => ?_
      have : p.vars[j] = h ∨ p.vars[j] ∈ p.vars := Or.inr (by simp)
      rw [if_pos this]; ring
    · ring

/-- Non-vacuity: `2x + 3y + 5` homogenized with `[x, y]` and `h`. -/
example : (LinProd.mk [0, 1] (.const 1) 1 (fun _ j => [2, 3, 5].getD j 0) false).homogenize
    false [0, 1] 2 =
    some (LinProd.mk [0, 1] (.var 2) 1 (fun _ j => [2, 3, 5].getD j 0) false, true) := by
  simp [LinProd.homogenize]

end B2
