import Verif.Tree.PropsLinear
import Mathlib.Algebra.MvPolynomial.Degrees
import Mathlib.Algebra.Polynomial.BigOperators
import Mathlib.Algebra.Polynomial.Degree.Lemmas

/-!
# C82: degree and homogeneity of a product of linear forms
-/

namespace B2

open Finset

/-- Specification: with the variables outside `vars` frozen at `env`, the value is a polynomial of
total degree at most `d` in the variables of `vars`. -/
def LinProd.PolyOfDegreeLE (p : LinProd) (vars : List Var) (env : Env) (d : ℕ) : Prop :=
  ∃ q : MvPolynomial Var ℂ, q.vars ⊆ vars.toFinset ∧ q.totalDegree ≤ d ∧
    ∀ env', AgreeOff vars env env' → p.eval env' = MvPolynomial.eval env' q

/-- The values of `is_homogenized_` that occur: false as long as the homogenizing part is the
constant 1, true for an already homogeneous group and after a homogenization
(`linear_product.hpp:64-135`, `linear_product.cpp:215-219`). -/
def LinProd.FlagOK (p : LinProd) (homogenized : Bool) : Prop :=
  homogenized = false ∧ p.hom = .const 1 ∨
  homogenized = true ∧ (p.isHomVars = true ∨ ∃ h, p.hom = .var h)

/-- C82, full statement: the degree in a group bounds the joint degree in the group, and a
positive answer of `IsHomogeneous` means that the value is homogeneous of that degree. -/
def C82_full : Prop :=
  ∀ (p : LinProd) (env : Env) (vars : List Var), p.WF → p.vars ≠ [] →
    p.PolyOfDegreeLE vars env (p.degG vars) ∧
    ∀ homogenized : Bool, p.FlagOK homogenized →
      p.isHomG homogenized vars = true →
      ∀ c : ℂ, p.eval (scale c vars env) = c ^ p.degG vars * p.eval env

/-- The polynomial of one linear form, variables outside the group frozen. -/
noncomputable def formPoly (p : LinProd) (vars : List Var) (env : Env) (i : ℕ) :
    MvPolynomial Var ℂ :=
  ∑ j : Fin p.vars.length, (MvPolynomial.C (p.coeff i j) *
      (if p.vars[j] ∈ vars then MvPolynomial.X p.vars[j] else MvPolynomial.C (env p.vars[j]))) +
    MvPolynomial.C (p.coeff i p.vars.length * p.hom.eval env)

theorem formPoly_vars (p : LinProd) (vars : List Var) (env : Env) (i : ℕ) :
    (formPoly p vars env i).vars ⊆ vars.toFinset := by
  unfold formPoly
  refine (MvPolynomial.vars_add_subset _ _).trans (union_subset ?_ (by rw [MvPolynomial.vars_C]; simp))
  refine (MvPolynomial.vars_sum_subset _ _).trans ?_
  intro w hw
  rw [mem_biUnion] at hw
  obtain ⟨j, -, hw⟩ := hw
  have := MvPolynomial.vars_mul _ _ hw
  rw [mem_union] at this
  rcases this with h | h
  · simp at h
  · split_ifs at h with hj
    · rw [MvPolynomial.vars_X, mem_singleton] at h
      simpa [h] using hj
    · simp at h

theorem formPoly_degree (p : LinProd) (vars : List Var) (env : Env) (i : ℕ) :
    (formPoly p vars env i).totalDegree ≤ if vars.any (· ∈ p.vars) then 1 else 0 := by
  unfold formPoly
  refine (MvPolynomial.totalDegree_add _ _).trans (max_le ?_ (by rw [MvPolynomial.totalDegree_C]; simp))
  refine MvPolynomial.totalDegree_finsetSum_le fun j _ => ?_
  refine (MvPolynomial.totalDegree_mul _ _).trans ?_
  rw [MvPolynomial.totalDegree_C, zero_add]
  by_cases hj : p.vars[j] ∈ vars
  · have : vars.any (· ∈ p.vars) = true := by
      rw [List.any_eq_true]; exact ⟨_, hj, by simp⟩
    rw [if_pos hj, this]
    simp [MvPolynomial.totalDegree_X]
  · rw [if_neg hj]; simp

theorem formPoly_eval (p : LinProd) (vars : List Var) (env env' : Env) (i : ℕ)
    (ha : AgreeOff vars env env') (hh : ∀ h ∈ vars, p.hom ≠ .var h) :
    p.form env' i = MvPolynomial.eval env' (formPoly p vars env i) := by
  unfold LinProd.form formPoly
  rw [map_add, map_sum, MvPolynomial.eval_C]
  congr 1
  · refine sum_congr rfl fun j _ => ?_
    rw [map_mul, MvPolynomial.eval_C]
    by_cases hj : p.vars[j] ∈ vars
    · rw [if_pos hj, MvPolynomial.eval_X]
    · rw [if_neg hj, MvPolynomial.eval_C, ha _ hj]
  · congr 1
    cases hp : p.hom with
    | const c => rfl
    | var h => exact ha h fun hm => hh h hm hp

/-- C82, degree: the degree in a group bounds the joint degree of the value, for every group
that does not contain the homogenizing variable. Missing from `C82_full`: groups with it. -/
theorem C82_degree_partial (p : LinProd) (env : Env) (vars : List Var)
    (hh : ∀ h ∈ vars, p.hom ≠ .var h) : p.PolyOfDegreeLE vars env (p.degG vars) := by
  refine ⟨∏ i : Fin p.numFactors, formPoly p vars env i, ?_, ?_, ?_⟩
  · refine (MvPolynomial.vars_prod _).trans ?_
    rw [biUnion_subset]
    exact fun i _ => formPoly_vars p vars env i
  · refine (MvPolynomial.totalDegree_finsetProd _ _).trans ?_
    have h : ∑ i : Fin p.numFactors, (formPoly p vars env i).totalDegree ≤
        ∑ _i : Fin p.numFactors, if vars.any (· ∈ p.vars) then 1 else 0 :=
      Finset.sum_le_sum fun i _ => formPoly_degree p vars env i
    refine h.trans ?_
    rw [LinProd.degG]
    split_ifs <;> simp
  · intro env' ha
    rw [C14_value, map_prod]
    exact prod_congr rfl fun i _ => formPoly_eval p vars env env' i ha hh

/-- C82, degree in one variable, exactly: if the variable really occurs in every factor (or is not
a variable of the product), `Degree(v)` is the degree of the value in `v`. -/
theorem C82_degree_exact (p : LinProd) (hp : p.WF) (env : Env) (v : Var) (hv : p.hom ≠ .var v)
    (hc : ∀ i < p.numFactors, ∀ j (hj : j < p.vars.length), p.vars[j] = v → p.coeff i j ≠ 0) :
    ∃ q : Polynomial ℂ, q.natDegree = p.degV v ∧
      ∀ t, p.eval (Function.update env v t) = q.eval t := by
  by_cases hm : v ∈ p.vars
  · obtain ⟨k, hk, hkv⟩ := List.getElem_of_mem hm
    let b : ℕ → ℂ := fun i => p.form (Function.update env v 0) i
    refine ⟨∏ i ∈ range p.numFactors,
      (Polynomial.C (p.coeff i k) * Polynomial.X + Polynomial.C (b i)), ?_, fun t => ?_⟩
    · rw [Polynomial.natDegree_prod]
      · rw [LinProd.degV, if_pos hm]
        rw [sum_congr rfl fun i hi => Polynomial.natDegree_linear
          (hc i (mem_range.mp hi) k hk hkv)]
        simp
      · intro i hi h0
        have := Polynomial.natDegree_linear (b := b i) (hc i (mem_range.mp hi) k hk hkv)
        rw [h0] at this
        simp at this
    · rw [C14_value, Polynomial.eval_prod, Finset.prod_range]
      refine prod_congr rfl fun i _ => ?_
      simp only [Polynomial.eval_add, Polynomial.eval_mul, Polynomial.eval_C, Polynomial.eval_X]
      have hhom : p.hom.eval (Function.update env v t) = p.hom.eval (Function.update env v 0) := by
        cases hq : p.hom with
        | const c => rfl
        | var h =>
          have : h ≠ v := by rintro rfl; exact hv hq
          simp [HomPart.eval, Function.update_of_ne this]
      have hsum : ∀ s : ℂ, ∑ j : Fin p.vars.length,
          p.coeff i j * Function.update env v s p.vars[j] =
          p.coeff i k * s + ∑ j ∈ univ.erase (⟨k, hk⟩ : Fin p.vars.length),
            p.coeff i j * env p.vars[j] := by
        intro s
        rw [← Finset.add_sum_erase univ _ (mem_univ (⟨k, hk⟩ : Fin p.vars.length))]
        congr 1
        · have : p.vars[(⟨k, hk⟩ : Fin p.vars.length)] = v := hkv
          rw [this, Function.update_self]
        · refine sum_congr rfl fun j hj => ?_
          have : p.vars[j] ≠ v := by
            intro h
            have h2 : p.vars[(j : ℕ)] = p.vars[k] := by rw [hkv]; exact h
            have := (hp.nodup.getElem_inj_iff).mp h2
            exact (mem_erase.mp hj).1 (Fin.ext this)
          rw [Function.update_of_ne this]
      simp only [b, LinProd.form, hsum, hhom]
      ring
  · refine ⟨Polynomial.C (p.eval env), ?_, fun t => ?_⟩
    · rw [LinProd.degV, if_neg hm]; simp
    · rw [Polynomial.eval_C, C14_value, C14_value]
      refine prod_congr rfl fun i _ => ?_
      unfold LinProd.form
      congr 1
      · refine sum_congr rfl fun j _ => ?_
        rw [Function.update_of_ne]
        rintro h
        exact hm (h ▸ by simp)
      · congr 1
        cases hq : p.hom with
        | const c => rfl
        | var h =>
          have : h ≠ v := by rintro rfl; exact hv hq
          simp [HomPart.eval, Function.update_of_ne this]

/-- `MultiDegree` lists the degrees, and the group degree is the largest of them. -/
theorem C82_multidegree (p : LinProd) (vars : List Var) :
    p.multiDeg vars = vars.map p.degV ∧ p.degG vars = (vars.map p.degV).foldr max 0 := by
  refine ⟨rfl, ?_⟩
  have h : ∀ l : List Var, (l.map p.degV).foldr max 0 =
      if l.any (· ∈ p.vars) then p.numFactors else 0 := by
    intro l
    induction l with
    | nil => simp
    | cons a l ih =>
      rw [List.map_cons, List.foldr_cons, ih, LinProd.degV, List.any_cons]
      by_cases ha : a ∈ p.vars <;> by_cases hl : l.any (· ∈ p.vars) = true <;> simp [ha, hl]
  rw [h]; rfl

/-- C82, homogeneity: if `IsHomogeneous(vars)` answers true, scaling the variables of the group
multiplies the value by the power of the factor given by the group degree. -/
theorem C82_homogeneous (p : LinProd) (hp : p.WF) (hne : p.vars ≠ []) (env : Env)
    (vars : List Var) (homogenized : Bool) (hh : p.FlagOK homogenized)
    (hi : p.isHomG homogenized vars = true) (c : ℂ) :
    p.eval (scale c vars env) = c ^ p.degG vars * p.eval env := by
  obtain ⟨w, hw⟩ := List.exists_mem_of_ne_nil _ hne
  -- either nothing of the product is in the group, or everything is
  have key : (∀ v ∈ p.vars, v ∉ vars) ∧ (∀ h, p.hom = .var h → h ∉ vars) ∨
      (∀ v ∈ p.vars, v ∈ vars) ∧ (∀ h, p.hom = .var h → h ∈ vars) ∧ homogenized = true := by
    have hhv : p.isHomVars = true → ∀ h, p.hom ≠ .var h := by
      intro h1 h h2; rw [(hp.homVars h1).1] at h2; cases h2
    unfold LinProd.isHomG at hi
    by_cases hall : p.vars.all (· ∈ vars) = true
    · have hany : p.vars.any (· ∈ vars) = true := by
        rw [List.any_eq_true]; exact ⟨w, hw, List.all_eq_true.mp hall w hw⟩
      right
      cases hhom : homogenized with
      | false => simp [hall, hhom] at hi
      | true =>
        refine ⟨fun v hv => by simpa using List.all_eq_true.mp hall v hv, fun h hq => ?_, rfl⟩
        have hiv : p.isHomVars = false := by
          by_contra hb; exact hhv (by simpa using hb) h hq
        simp only [hall, hany, hhom, hq, hiv] at hi
        by_contra hc'
        simp [hc'] at hi
    · by_cases hany : p.vars.any (· ∈ vars) = true
      · exfalso
        simp only [Bool.not_eq_true] at hall
        simp only [hall, hany] at hi
        cases homogenized <;> cases hiv : p.isHomVars <;> simp [hiv] at hi
      · left
        simp only [Bool.not_eq_true] at hall hany
        refine ⟨fun v hv hm => ?_, fun h hq hm => ?_⟩
        · have := List.any_eq_false.mp hany v hv
          simp [hm] at this
        · have hiv : p.isHomVars = false := by
            by_contra hb; exact hhv (by simpa using hb) h hq
          have hhom : homogenized = true := by
            rcases hh with ⟨-, hx⟩ | ⟨hx, -⟩
            · rw [hq] at hx; cases hx
            · exact hx
          simp [hall, hany, hhom, hq, hiv, hm] at hi
  rw [C14_value, C14_value]
  rcases key with ⟨h1, h2⟩ | ⟨h1, h2, h3⟩
  · have hd : p.degG vars = 0 := by
      rw [LinProd.degG, if_neg]
      rw [List.any_eq_true]
      rintro ⟨v, hv, hm⟩
      exact h1 v (by simpa using hm) hv
    rw [hd, pow_zero, one_mul]
    refine prod_congr rfl fun i _ => ?_
    unfold LinProd.form
    congr 1
    · refine sum_congr rfl fun j _ => ?_
      rw [scale, if_neg (h1 _ (by simp))]
    · congr 1
      cases hq : p.hom with
      | const c => rfl
      | var h => simp [HomPart.eval, scale, h2 h hq]
  · have hd : p.degG vars = p.numFactors := by
      rw [LinProd.degG, if_pos]
      rw [List.any_eq_true]
      exact ⟨w, h1 w hw, by simpa using hw⟩
    rw [hd, ← Fin.prod_const, ← Finset.prod_mul_distrib]
    refine prod_congr rfl fun i _ => ?_
    unfold LinProd.form
    rw [mul_add, Finset.mul_sum]
    congr 1
    · refine sum_congr rfl fun j _ => ?_
      rw [scale, if_pos (h1 _ (by simp))]; ring
    · cases hq : p.hom with
      | const k =>
        have hz : p.coeff i p.vars.length * ((k : ℤ) : ℂ) = 0 := by
          rcases hh with ⟨hx, -⟩ | ⟨-, hx | ⟨h, hx⟩⟩
          · rw [h3] at hx; cases hx
          · rw [(hp.homVars hx).2, zero_mul]
          · rw [hq] at hx; cases hx
        simp only [HomPart.eval]
        rw [hz, mul_zero]
      | var h => simp only [HomPart.eval, scale, h2 h hq, if_true]; ring

/-- The code violates C82: after homogenizing, `Degree` reports 0 for the homogenizing variable
(`linear_product.cpp:102-134` look only at `variables_`) although the value `2x + 3h` depends
on it. -/
theorem C82_degree_refuted : ¬ C82_full := by
  intro H
  let p : LinProd := ⟨[0], .var 1, 1, fun _ j => if j = 0 then 2 else 3, false⟩
  have hp : p.WF := ⟨by simp [p], by simp [p], by simp [p]⟩
  obtain ⟨⟨q, -, hq, he⟩, -⟩ := H p (fun _ => 0) [1] hp (by simp [p])
  have hd : p.degG [1] = 0 := by simp [p, LinProd.degG]
  rw [hd] at hq
  have hqc := MvPolynomial.totalDegree_eq_zero_iff_eq_C.mp (Nat.le_zero.mp hq)
  have h0 := he (fun _ => 0) (fun _ _ => rfl)
  have h1 := he (Function.update (fun _ => 0) 1 1) (fun w hw => by
    rw [Function.update_of_ne (by simpa using hw)])
  rw [hqc, MvPolynomial.eval_C, C14_value] at h0 h1
  rw [← h0] at h1
  simp [p, LinProd.form, HomPart.eval] at h1

/-- Homogenizing with respect to a group that shares no variable with the product changes nothing;
with respect to a group that shares some but not all variables it is refused; an already
homogenized product is left alone. -/
theorem C82_homogenize_other (p : LinProd) (hne : p.vars ≠ []) (homogenized : Bool)
    (vars : List Var) (h : Var) :
    p.homogenize true vars h = some (p, true) ∧
    ((∀ v ∈ p.vars, v ∈ vars → v = h) → p.homogenize homogenized vars h = some (p, homogenized)) ∧
    (∀ v ∈ p.vars, v ∈ vars → v ≠ h →
      (∃ w, (w ∈ p.vars ∧ w ∉ vars) ∨ (w ∈ vars ∧ w ≠ h ∧ w ∉ p.vars)) →
      p.vars.Nodup → vars.Nodup → p.homogenize false vars h = none) := by
  obtain ⟨w0, hw0⟩ := List.exists_mem_of_ne_nil _ hne
  refine ⟨by simp [LinProd.homogenize], fun hd => ?_, fun v hv hvv hvh hex hn1 hn2 => ?_⟩
  · cases homogenized with
    | true => simp [LinProd.homogenize]
    | false =>
      unfold LinProd.homogenize
      by_cases hl : (vars.filter (· ≠ h)).length < p.vars.length
      · have hs : p.vars.all (· ∈ vars.filter (· ≠ h)) = false := by
          rw [List.all_eq_false]
          refine ⟨w0, hw0, ?_⟩
          simp only [ne_eq, decide_not, List.mem_filter, Bool.not_eq_true', decide_eq_false_iff_not,
            decide_eq_true_eq, not_and, not_not]
          exact hd w0 hw0
        have ha : p.vars.any (· ∈ vars.filter (· ≠ h)) = false := by
          rw [List.any_eq_false]
          intro x hx
          simp only [ne_eq, decide_not, List.mem_filter, Bool.not_eq_true', decide_eq_false_iff_not,
            decide_eq_true_eq, not_and, not_not]
          exact hd x hx
        simp only [Bool.false_eq_true, if_false, hl, if_true, hs, ha]
        simp
      · have hpos : 0 < (vars.filter (· ≠ h)).length := by
          have := List.length_pos_of_mem hw0
          omega
        obtain ⟨x0, hx0⟩ := List.exists_mem_of_length_pos hpos
        have hall : ∀ x ∈ vars.filter (· ≠ h), x ∉ p.vars := by
          intro x hx hxp
          simp only [ne_eq, decide_not, List.mem_filter, Bool.not_eq_true',
            decide_eq_false_iff_not] at hx
          exact hx.2 (hd x hxp hx.1)
        have hs : (vars.filter (· ≠ h)).all (· ∈ p.vars) = false := by
          rw [List.all_eq_false]
          exact ⟨x0, hx0, by simpa using hall x0 hx0⟩
        have ha : (vars.filter (· ≠ h)).any (· ∈ p.vars) = false := by
          rw [List.any_eq_false]
          intro x hx
          simpa using hall x hx
        simp only [Bool.false_eq_true, if_false, hl, hs, ha]
        simp
  · have hvf : v ∈ vars.filter (· ≠ h) := by simp [hvv, hvh]
    have hpf : ∀ x ∈ vars.filter (· ≠ h), x ∈ vars ∧ x ≠ h := by intro x hx; simpa using hx
    unfold LinProd.homogenize
    by_cases hl : (vars.filter (· ≠ h)).length < p.vars.length
    · have hs : p.vars.all (· ∈ vars.filter (· ≠ h)) = false := by
        by_contra hc
        have hc' := List.all_eq_true.mp (by simpa only [Bool.not_eq_false] using hc)
        have := (List.subperm_of_subset hn1 (fun x hx => by simpa using hc' x hx :
          p.vars ⊆ vars.filter (· ≠ h))).length_le
        omega
      have ha : p.vars.any (· ∈ vars.filter (· ≠ h)) = true := by
        rw [List.any_eq_true]; exact ⟨v, hv, by simpa using hpf v hvf⟩
      simp only [Bool.false_eq_true, if_false, hl, if_true, hs, ha]
      simp
    · have hs : (vars.filter (· ≠ h)).all (· ∈ p.vars) = false := by
        by_contra hc
        have hc' := List.all_eq_true.mp (by simpa only [Bool.not_eq_false] using hc)
        have hsub : vars.filter (· ≠ h) ⊆ p.vars := fun x hx => by simpa using hc' x hx
        have hsp := List.subperm_of_subset (hn2.filter _) hsub
        have hperm := hsp.perm_of_length_le (by omega)
        obtain ⟨w, ⟨h1, h2⟩ | ⟨h1, h2, h3⟩⟩ := hex
        · exact h2 (hpf w (hperm.mem_iff.mpr h1)).1
        · exact h3 (hperm.mem_iff.mp (by simp [h1, h2]))
      have ha : (vars.filter (· ≠ h)).any (· ∈ p.vars) = true := by
        rw [List.any_eq_true]; exact ⟨v, hvf, by simpa using hv⟩
      simp only [Bool.false_eq_true, if_false, hl, hs, ha]
      simp

/-- Non-vacuity: `(2x + 3y + 5)(7x + 11y + 13)`, homogenized with `h = 2`: degree 2 in `[x, y]`,
homogeneous in `[x, y, h]`, degree 0 in `z = 3`. -/
example : let p : LinProd := ⟨[0, 1], .var 2, 2,
      fun i j => if i = 0 then [2, 3, 5].getD j 0 else [7, 11, 13].getD j 0, false⟩
    p.WF ∧ p.FlagOK true ∧ p.degG [0, 1] = 2 ∧ p.degG [3, 1] = 2 ∧ p.degV 3 = 0 ∧
      p.isHomG true [0, 1, 2] = true ∧ p.isHomG true [0, 1] = false ∧
      p.isHomG true [3] = true := by
  refine ⟨⟨by simp, by simp, by simp⟩, by simp [LinProd.FlagOK], ?_⟩
  simp [LinProd.degG, LinProd.degV, LinProd.isHomG]

end B2
