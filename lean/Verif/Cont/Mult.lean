import Verif.Cont.Limits
import Mathlib.LinearAlgebra.Lagrange
import Mathlib.Algebra.Polynomial.BigOperators

/-!
# Multiplicities of the ends of the paths, in one variable

Pure mathematics: a binary form with as many zeros on a patch as its degree is the product of the linear forms
that vanish there. In the limit the target, in one variable, is the product over the paths, so the number of paths
to a solution is its multiplicity as a root.
-/

namespace B2.Cont

open MvPolynomial Filter Topology Matrix

section
variable {n : ℕ}

/-- A homogeneous polynomial along a line. -/
noncomputable def along (c b : Fin (n + 1) → ℂ) (p : MvPolynomial (Fin (n + 1)) ℂ) : Polynomial ℂ :=
  aeval (fun j => Polynomial.C (c j) + Polynomial.C (b j) * Polynomial.X) p

theorem eval_along (c b : Fin (n + 1) → ℂ) (p : MvPolynomial (Fin (n + 1)) ℂ) (τ : ℂ) :
    (along c b p).eval τ = eval (c + τ • b) p := by
  unfold along
  rw [← Polynomial.coe_aeval_eq_eval, ← AlgHom.comp_apply, comp_aeval, aeval_eq_eval]
  congr 2
  funext j
  simp only [map_add, map_mul, Polynomial.aeval_C, Polynomial.aeval_X, Pi.add_apply, Pi.smul_apply, smul_eq_mul,
    Algebra.algebraMap_self, RingHom.id_apply]
  ring

theorem along_top (c b : Fin (n + 1) → ℂ) {p : MvPolynomial (Fin (n + 1)) ℂ} {d : ℕ} (hp : p.IsHomogeneous d) :
    (along c b p).natDegree ≤ d ∧ (along c b p).coeff d = eval b p := by
  have hl : ∀ j, (Polynomial.C (c j) + Polynomial.C (b j) * Polynomial.X).natDegree ≤ 1 := fun j => by
    rw [add_comm]; exact Polynomial.natDegree_linear_le
  have hc : ∀ j, (Polynomial.C (c j) + Polynomial.C (b j) * Polynomial.X).coeff 1 = b j := fun j => by
    simp [Polynomial.coeff_C]
  have hm : ∀ m ∈ p.support, (∏ j, (Polynomial.C (c j) + Polynomial.C (b j) * Polynomial.X) ^ m j).natDegree ≤ d ∧
      (∏ j, (Polynomial.C (c j) + Polynomial.C (b j) * Polynomial.X) ^ m j).coeff d = ∏ j, b j ^ m j := by
    intro m hm
    have hd : ∑ j, m j = d := by
      have := hp (mem_support_iff.1 hm)
      rw [← this, Finsupp.weight_apply, Finsupp.sum_fintype] <;> simp
    have hk : ∀ S : Finset (Fin (n + 1)),
        (∏ j ∈ S, (Polynomial.C (c j) + Polynomial.C (b j) * Polynomial.X) ^ m j).natDegree ≤ ∑ j ∈ S, m j ∧
        (∏ j ∈ S, (Polynomial.C (c j) + Polynomial.C (b j) * Polynomial.X) ^ m j).coeff (∑ j ∈ S, m j) = ∏ j ∈ S, b j ^ m j := by
      intro S
      classical
      induction S using Finset.induction_on with
      | empty => simp
      | insert a S ha ih =>
        rw [Finset.prod_insert ha, Finset.sum_insert ha, Finset.prod_insert ha]
        have h1 : ((Polynomial.C (c a) + Polynomial.C (b a) * Polynomial.X) ^ m a).natDegree ≤ m a := by
          simpa using Polynomial.natDegree_pow_le_of_le (m a) (hl a)
        refine ⟨Polynomial.natDegree_mul_le_of_le h1 ih.1, ?_⟩
        rw [Polynomial.coeff_mul_add_eq_of_natDegree_le h1 ih.1, ih.2]
        congr 1
        have := Polynomial.coeff_pow_of_natDegree_le (m := m a) (hl a)
        rw [mul_one] at this
        rw [this, hc]
    have := hk Finset.univ
    rwa [hd] at this
  have hsum : along c b p = ∑ m ∈ p.support, Polynomial.C (coeff m p) *
      ∏ j, (Polynomial.C (c j) + Polynomial.C (b j) * Polynomial.X) ^ m j := by
    unfold along
    rw [aeval_def, eval₂_eq']
    rfl
  rw [hsum]
  constructor
  · refine Polynomial.natDegree_sum_le_of_forall_le _ _ fun m h => ?_
    exact (Polynomial.natDegree_C_mul_le _ _).trans (hm m h).1
  · rw [Polynomial.finset_sum_coeff, eval_eq']
    refine Finset.sum_congr rfl fun m h => ?_
    rw [Polynomial.coeff_C_mul, (hm m h).2]

end

/-- The linear form that vanishes at `y`. -/
def cross (y x : Fin 2 → ℂ) : ℂ := y 0 * x 1 - y 1 * x 0

/-- A binary form with as many zeros on the patch as its degree. -/
theorem form_factor {v : Fin 2 → ℂ} {q : MvPolynomial (Fin 2) ℂ} {d : ℕ} (hq : q.IsHomogeneous d) (hd : 0 < d)
    {y : Fin d → Fin 2 → ℂ} (hz : ∀ i, eval (y i) q = 0) (hv : ∀ i, v ⬝ᵥ y i = 1) (hinj : Function.Injective y)
    (x : Fin 2 → ℂ) : eval x q = eval ![-v 1, v 0] q * ∏ i, cross (y i) x := by
  set b : Fin 2 → ℂ := ![-v 1, v 0] with hb
  have hdot : ∀ u : Fin 2 → ℂ, v ⬝ᵥ u = v 0 * u 0 + v 1 * u 1 := fun u => by simp [dotProduct, Fin.sum_univ_succ]
  set c := y ⟨0, hd⟩ with hc
  have hvc : v 0 * c 0 + v 1 * c 1 = 1 := by rw [← hdot]; exact hv _
  have hpar : ∀ u : Fin 2 → ℂ, v ⬝ᵥ u = 1 → u = c + cross c u • b := by
    intro u hu
    rw [hdot] at hu
    funext j
    fin_cases j
    · simp only [hb, cross]
      simp
      linear_combination (-(u 0)) * hvc + (c 0) * hu
    · simp only [hb, cross]
      simp
      linear_combination (-(u 1)) * hvc + (c 1) * hu
  have hcb : ∀ i, cross (y i) b = 1 := by
    intro i
    have := hv i
    rw [hdot] at this
    simp [cross, hb]
    linear_combination this
  -- on the patch
  have hpatch : ∀ u : Fin 2 → ℂ, v ⬝ᵥ u = 1 → eval u q = eval b q * ∏ i, cross (y i) u := by
    intro u hu
    let R : Polynomial ℂ := Polynomial.C (eval b q) * ∏ i, (Polynomial.C (cross (y i) c) + Polynomial.C 1 * Polynomial.X)
    have hR : ∀ τ, R.eval τ = eval b q * ∏ i, cross (y i) (c + τ • b) := by
      intro τ
      simp only [R, Polynomial.eval_mul, Polynomial.eval_C, Polynomial.eval_prod, Polynomial.eval_add, Polynomial.eval_X, one_mul]
      congr 1
      refine Finset.prod_congr rfl fun i _ => ?_
      have := hcb i
      simp only [cross, Pi.add_apply, Pi.smul_apply, smul_eq_mul] at this ⊢
      linear_combination (-τ) * this
    have hRd : (∏ i : Fin d, (Polynomial.C (cross (y i) c) + Polynomial.C 1 * Polynomial.X)).natDegree ≤ d ∧
        (∏ i : Fin d, (Polynomial.C (cross (y i) c) + Polynomial.C 1 * Polynomial.X)).coeff d = 1 := by
      have hmon : (∏ i : Fin d, (Polynomial.C (cross (y i) c) + Polynomial.C 1 * Polynomial.X)).Monic := by
        refine Polynomial.monic_prod_of_monic _ _ fun i _ => ?_
        rw [add_comm, Polynomial.C_1, one_mul]
        exact Polynomial.monic_X_add_C _
      have hdeg : (∏ i : Fin d, (Polynomial.C (cross (y i) c) + Polynomial.C 1 * Polynomial.X)).natDegree = d := by
        rw [Polynomial.natDegree_prod_of_monic]
        · simp [add_comm (Polynomial.C _)]
        · intro i _
          rw [add_comm, Polynomial.C_1, one_mul]
          exact Polynomial.monic_X_add_C _
      exact ⟨hdeg.le, by have := hmon.coeff_natDegree; rwa [hdeg] at this⟩
    obtain ⟨h1, h2⟩ := along_top c b hq
    have hlt : (along c b q - R).degree < d := by
      rw [Polynomial.degree_lt_iff_coeff_zero]
      intro k hk
      rcases eq_or_lt_of_le hk with rfl | hk
      · rw [Polynomial.coeff_sub, h2, Polynomial.coeff_C_mul, hRd.2, mul_one, sub_self]
      · rw [Polynomial.coeff_sub, Polynomial.coeff_eq_zero_of_natDegree_lt (h1.trans_lt hk), Polynomial.coeff_C_mul,
          Polynomial.coeff_eq_zero_of_natDegree_lt (hRd.1.trans_lt hk), mul_zero, sub_zero]
    have hinj' : Function.Injective fun i => cross c (y i) := by
      intro i j h
      apply hinj
      rw [hpar (y i) (hv i), hpar (y j) (hv j)]
      simp only at h
      rw [h]
    have heq : along c b q = R := by
      refine Polynomial.eq_of_degree_sub_lt_of_eval_index_eq Finset.univ (v := fun i : Fin d => cross c (y i))
        hinj'.injOn (by simpa using hlt) fun i _ => ?_
      rw [eval_along, hR, ← hpar (y i) (hv i), hz i]
      symm
      rw [mul_eq_zero]
      right
      exact Finset.prod_eq_zero (Finset.mem_univ i) (by simp [cross]; ring)
    rw [hpar u hu, ← eval_along, heq, hR]
  have hcs : ∀ (i) (μ : ℂ) (u : Fin 2 → ℂ), cross (y i) (μ • u) = μ * cross (y i) u := by
    intro i μ u
    simp [cross]
    ring
  by_cases h0 : v ⬝ᵥ x = 0
  · have hx : x = cross c x • b := by
      rw [hdot] at h0
      funext j
      fin_cases j
      · simp only [hb, cross]
        simp
        linear_combination (-(x 0)) * hvc + (c 0) * h0
      · simp only [hb, cross]
        simp
        linear_combination (-(x 1)) * hvc + (c 1) * h0
    rw [hx, eval_smul_homogeneous hq]
    simp only [hcs, hcb, mul_one, Finset.prod_const, Finset.card_univ, Fintype.card_fin]
    ring
  · have hx : x = (v ⬝ᵥ x) • ((v ⬝ᵥ x)⁻¹ • x) := by rw [smul_smul, mul_inv_cancel₀ h0, one_smul]
    rw [hx, eval_smul_homogeneous hq, hpatch _ (by rw [dotProduct_smul, smul_eq_mul, inv_mul_cancel₀ h0])]
    simp only [hcs, Finset.prod_mul_distrib, Finset.prod_const, Finset.card_univ, Fintype.card_fin]
    ring

/-- In the limit. -/
theorem limit_factor {F G : Fin 1 → MvPolynomial (Fin 2) ℂ} {v : Fin 2 → ℂ} {γ : ℂ} {d : ℕ}
    (hF : ∀ i, (F i).IsHomogeneous d) (hG : ∀ i, (G i).IsHomogeneous d) (hd : 0 < d)
    {y : Fin d → ℝ → Fin 2 → ℂ} {l : Fin d → Fin 2 → ℂ}
    (hz : ∀ s : ℝ, s ∈ Set.Ioc (0 : ℝ) 1 → ∀ i, line F G v γ (y i s, (s : ℂ)) = 0)
    (hinj : ∀ s : ℝ, s ∈ Set.Ioc (0 : ℝ) 1 → Function.Injective fun i => y i s)
    (hlim : ∀ i, Tendsto (y i) (𝓝[>] 0) (𝓝 (l i))) (x : Fin 2 → ℂ) :
    eval x (F 0) = eval ![-v 1, v 0] (F 0) * ∏ i, cross (l i) x := by
  have hs : ∀ s : ℝ, s ∈ Set.Ioc (0 : ℝ) 1 → (1 - (s : ℂ)) * eval x (F 0) + γ * s * eval x (G 0) =
      ((1 - (s : ℂ)) * eval ![-v 1, v 0] (F 0) + γ * s * eval ![-v 1, v 0] (G 0)) * ∏ i, cross (y i s) x := by
    intro s hs
    have := form_factor (v := v) (q := C (1 - (s : ℂ)) * F 0 + C (γ * s) * G 0) (d := d) (y := fun i => y i s)
      (IsHomogeneous.add (by simpa using (isHomogeneous_C _ (1 - (s : ℂ))).mul (hF 0))
        (by simpa using (isHomogeneous_C _ (γ * (s : ℂ))).mul (hG 0))) hd
      (fun i => by simpa using (line_zero.1 (hz s hs i)).1 0) (fun i => (line_zero.1 (hz s hs i)).2) (hinj s hs) x
    simpa using this
  have hof : Tendsto (fun s : ℝ => (s : ℂ)) (𝓝[>] 0) (𝓝 0) := by
    have : Tendsto (fun s : ℝ => (s : ℂ)) (𝓝 0) (𝓝 ((0 : ℝ) : ℂ)) := Complex.continuous_ofReal.continuousAt
    rw [Complex.ofReal_zero] at this
    exact this.mono_left nhdsWithin_le_nhds
  have hL : ∀ a b : ℂ, Tendsto (fun s : ℝ => (1 - (s : ℂ)) * a + γ * s * b) (𝓝[>] 0) (𝓝 a) := by
    intro a b
    have := ((tendsto_const_nhds (x := (1 : ℂ))).sub hof).mul_const a |>.add (((tendsto_const_nhds (x := γ)).mul hof).mul_const b)
    simpa using this
  have hP : Tendsto (fun s : ℝ => ∏ i, cross (y i s) x) (𝓝[>] 0) (𝓝 (∏ i, cross (l i) x)) := by
    refine tendsto_finset_prod _ fun i _ => ?_
    unfold cross
    have h0 := (tendsto_pi_nhds.1 (hlim i)) 0
    have h1 := (tendsto_pi_nhds.1 (hlim i)) 1
    exact (h0.mul_const _).sub (h1.mul_const _)
  have h1 := (hL (eval ![-v 1, v 0] (F 0)) (eval ![-v 1, v 0] (G 0))).mul hP
  refine tendsto_nhds_unique (hL (eval x (F 0)) (eval x (G 0))) (h1.congr' ?_)
  filter_upwards [Ioc_mem_nhdsGT (show (0 : ℝ) < 1 from one_pos)] with s hs'
  exact (hs s hs').symm

/-- The number of paths to a solution is its multiplicity as a root. -/
theorem paths_rootMultiplicity {F G : Fin 1 → MvPolynomial (Fin 2) ℂ} {v : Fin 2 → ℂ} {γ : ℂ} {d : ℕ}
    (hF : ∀ i, (F i).IsHomogeneous d) (hG : ∀ i, (G i).IsHomogeneous d) (hd : 0 < d)
    (h : ∀ x, eval x (F 0) = 0 → v ⬝ᵥ x = 0 → x = 0)
    {y : Fin d → ℝ → Fin 2 → ℂ} {l : Fin d → Fin 2 → ℂ}
    (hz : ∀ s : ℝ, s ∈ Set.Ioc (0 : ℝ) 1 → ∀ i, line F G v γ (y i s, (s : ℂ)) = 0)
    (hinj : ∀ s : ℝ, s ∈ Set.Ioc (0 : ℝ) 1 → Function.Injective fun i => y i s)
    (hlim : ∀ i, Tendsto (y i) (𝓝[>] 0) (𝓝 (l i))) {p : Polynomial ℂ}
    (hp : ∀ t, p.eval t = eval ![1, t] (F 0)) (a : ℂ) :
    (Finset.univ.filter fun i => l i 0 ≠ 0 ∧ l i 1 / l i 0 = a).card = p.rootMultiplicity a := by
  have hfac := limit_factor hF hG hd hz hinj hlim
  have hvl : ∀ i, v ⬝ᵥ l i = 1 := by
    intro i
    have hc : Tendsto (fun s => v ⬝ᵥ y i s) (𝓝[>] 0) (𝓝 (v ⬝ᵥ l i)) :=
      ((continuous_const.dotProduct continuous_id).tendsto _).comp (hlim i)
    refine tendsto_nhds_unique hc (tendsto_const_nhds.congr' ?_)
    filter_upwards [Ioc_mem_nhdsGT (show (0 : ℝ) < 1 from one_pos)] with s hs'
    exact (line_zero.1 (hz s hs' i)).2.symm
  have hl0 : ∀ i, l i ≠ 0 := by
    intro i hc
    have := hvl i
    rw [hc] at this
    simp at this
  set L := eval ![-v 1, v 0] (F 0) with hL
  have hL0 : L ≠ 0 := by
    intro hc
    have hb := h ![-v 1, v 0] hc (by simp [dotProduct, Fin.sum_univ_succ]; ring)
    have h0 : v 0 = 0 := by have := congrFun hb 1; simpa using this
    have h1 : v 1 = 0 := by have := congrFun hb 0; simpa using this
    have := hvl ⟨0, hd⟩
    simp [dotProduct, Fin.sum_univ_succ, h0, h1] at this
  have hp' : p = Polynomial.C L * ∏ i, (Polynomial.C (l i 0) * Polynomial.X - Polynomial.C (l i 1)) := by
    apply Polynomial.funext
    intro t
    rw [hp, hfac]
    simp [Polynomial.eval_prod, cross]
  have hlin : ∀ i, Polynomial.C (l i 0) * Polynomial.X - Polynomial.C (l i 1) ≠ 0 := by
    intro i hc
    apply hl0 i
    have c1 := congrArg (fun q => Polynomial.coeff q 1) hc
    have c0 := congrArg (fun q => Polynomial.coeff q 0) hc
    simp [Polynomial.coeff_C] at c0 c1
    funext j
    fin_cases j
    · exact c1
    · exact c0
  have hprod : ∏ i, (Polynomial.C (l i 0) * Polynomial.X - Polynomial.C (l i 1)) ≠ 0 :=
    Finset.prod_ne_zero_iff.2 fun i _ => hlin i
  rw [hp', ← Polynomial.count_roots, Polynomial.roots_C_mul _ hL0, Polynomial.roots_prod _ _ hprod, Multiset.count_bind,
    Finset.card_filter]
  show _ = (Finset.univ.val.map _).sum
  rw [← Finset.sum_eq_multiset_sum]
  refine Finset.sum_congr rfl fun i _ => ?_
  by_cases h0 : l i 0 = 0
  · rw [if_neg (fun hc => hc.1 h0), h0]
    simp
  · rw [Polynomial.count_roots]
    have e : Polynomial.C (l i 0) * Polynomial.X - Polynomial.C (l i 1) =
        Polynomial.C (l i 0) * (Polynomial.X - Polynomial.C (l i 1 / l i 0)) := by
      rw [mul_sub, ← Polynomial.C_mul, mul_div_cancel₀ _ h0]
    rw [e, ← Polynomial.count_roots, Polynomial.roots_C_mul _ h0, Polynomial.roots_X_sub_C, Multiset.count_singleton]
    by_cases ha : l i 1 / l i 0 = a
    · rw [if_pos ⟨h0, ha⟩, if_pos ha.symm]
    · rw [if_neg (fun hc => ha hc.2), if_neg (fun hc => ha hc.symm)]

end B2.Cont
