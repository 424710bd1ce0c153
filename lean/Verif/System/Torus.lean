import Mathlib.Algebra.MvPolynomial.PDeriv
import Mathlib.Algebra.MvPolynomial.Degrees
import Mathlib.Analysis.Complex.Basic
import Mathlib.RingTheory.RootsOfUnity.Complex
import Mathlib.Analysis.Calculus.Deriv.Pow
import Mathlib.Analysis.Calculus.Deriv.Mul
import Mathlib.Analysis.Calculus.Deriv.Add

/-!
# Polynomials at points whose coordinates have modulus one

Bounds of values and derivatives by coefficients, and of coefficients by values.
-/

namespace B2.Sys

open MvPolynomial

variable {σ : Type}

/-- The sum of the absolute values of the coefficients. -/
noncomputable def coefSum (p : MvPolynomial σ ℂ) : ℝ := ∑ m ∈ p.support, ‖p.coeff m‖

theorem coefSum_nonneg (p : MvPolynomial σ ℂ) : 0 ≤ coefSum p := Finset.sum_nonneg fun _ _ => norm_nonneg _

theorem coeff_le_coefSum (p : MvPolynomial σ ℂ) (m : σ →₀ ℕ) : ‖p.coeff m‖ ≤ coefSum p := by
  by_cases h : m ∈ p.support
  · exact Finset.single_le_sum (f := fun m => ‖p.coeff m‖) (fun _ _ => norm_nonneg _) h
  · rw [notMem_support_iff.1 h, norm_zero]; exact coefSum_nonneg p

theorem norm_prod_le {x : σ → ℂ} (hx : ∀ i, ‖x i‖ ≤ 1) (m : σ →₀ ℕ) : ‖m.prod fun i k => x i ^ k‖ ≤ 1 := by
  rw [Finsupp.prod, norm_prod]
  exact Finset.prod_le_one (fun _ _ => norm_nonneg _) fun i _ => by
    rw [norm_pow]; exact pow_le_one₀ (norm_nonneg _) (hx i)

theorem norm_eval_le {x : σ → ℂ} (hx : ∀ i, ‖x i‖ ≤ 1) (p : MvPolynomial σ ℂ) : ‖eval x p‖ ≤ coefSum p := by
  rw [eval_eq]
  refine (norm_sum_le _ _).trans (Finset.sum_le_sum fun m _ => ?_)
  rw [norm_mul]
  exact mul_le_of_le_one_right (norm_nonneg _) (norm_prod_le hx m)

/-- `x_j ∂p/∂x_j` multiplies each term by its exponent of `x_j`. -/
theorem eval_X_pderiv (x : σ → ℂ) (j : σ) (p : MvPolynomial σ ℂ) :
    x j * eval x (pderiv j p) = ∑ m ∈ p.support, p.coeff m * (m j : ℂ) * ∏ i ∈ m.support, x i ^ m i := by
  classical
  conv_lhs => rw [p.as_sum, map_sum, map_sum, Finset.mul_sum]
  refine Finset.sum_congr rfl fun m _ => ?_
  rw [pderiv_monomial, eval_monomial]
  by_cases hj : m j = 0
  · simp [hj]
  · have h1 : m = (m - Finsupp.single j 1) + Finsupp.single j 1 := by
      ext i
      by_cases hi : i = j
      · subst hi; simp; omega
      · simp [Finsupp.single_apply, Ne.symm hi]
    have h2 : (m.prod fun i k => x i ^ k) = ((m - Finsupp.single j 1).prod fun i k => x i ^ k) * x j := by
      conv_lhs => rw [h1]
      rw [Finsupp.prod_add_index' (by simp) (by intro a b c; exact pow_add _ _ _), Finsupp.prod_single_index (by simp), pow_one]
    show _ = _ * (m.prod fun i k => x i ^ k)
    rw [h2]; ring

theorem norm_X_pderiv_le {x : σ → ℂ} (hx : ∀ i, ‖x i‖ ≤ 1) (p : MvPolynomial σ ℂ) (s : Finset σ) {D : ℕ}
    (hD : p.totalDegree ≤ D) : ∑ j ∈ s, ‖x j * eval x (pderiv j p)‖ ≤ D * coefSum p := by
  classical
  have h1 : ∀ j ∈ s, ‖x j * eval x (pderiv j p)‖ ≤ ∑ m ∈ p.support, ‖p.coeff m‖ * (m j : ℝ) := by
    intro j _
    rw [eval_X_pderiv]
    refine (norm_sum_le _ _).trans (Finset.sum_le_sum fun m _ => ?_)
    rw [norm_mul, norm_mul, Complex.norm_natCast]
    exact mul_le_of_le_one_right (mul_nonneg (norm_nonneg _) (Nat.cast_nonneg _)) (norm_prod_le hx m)
  refine (Finset.sum_le_sum h1).trans ?_
  rw [Finset.sum_comm, coefSum, Finset.mul_sum]
  refine Finset.sum_le_sum fun m hm => ?_
  rw [← Finset.mul_sum, mul_comm]
  refine mul_le_mul_of_nonneg_right ?_ (norm_nonneg _)
  have h2 : ∑ j ∈ s, m j ≤ m.sum fun _ e => e := by
    rw [Finsupp.sum]
    calc ∑ j ∈ s, m j = ∑ j ∈ s.filter (· ∈ m.support), m j := by
          rw [Finset.sum_filter]
          refine Finset.sum_congr rfl fun j _ => ?_
          split_ifs with h
          · rfl
          · exact Finsupp.notMem_support_iff.1 h
      _ ≤ ∑ j ∈ m.support, m j := Finset.sum_le_sum_of_subset fun j hj => (Finset.mem_filter.1 hj).2
  exact_mod_cast (h2.trans (le_totalDegree hm)).trans hD

theorem norm_pderiv_le {x : σ → ℂ} (hx : ∀ i, ‖x i‖ = 1) (p : MvPolynomial σ ℂ) (j : σ) {D : ℕ}
    (hD : p.totalDegree ≤ D) : ‖eval x (pderiv j p)‖ ≤ D * coefSum p := by
  have h := norm_X_pderiv_le (fun i => (hx i).le) p {j} hD
  rwa [Finset.sum_singleton, norm_mul, hx j, one_mul] at h

theorem coefSum_pderiv_le (p : MvPolynomial σ ℂ) (j : σ) {D : ℕ} (hD : p.totalDegree ≤ D) :
    coefSum (pderiv j p) ≤ D * coefSum p := by
  classical
  have key : ∀ m, ‖(pderiv j p).coeff m‖ = ‖p.coeff (m + Finsupp.single j 1)‖ * ((m j : ℝ) + 1) := by
    intro m
    have : (pderiv j p).coeff m = p.coeff (m + Finsupp.single j 1) * ((m j : ℂ) + 1) := by
      conv_lhs => rw [p.as_sum, map_sum, coeff_sum]
      simp only [pderiv_monomial, coeff_monomial]
      by_cases hm : m + Finsupp.single j 1 ∈ p.support
      · rw [Finset.sum_eq_single_of_mem _ hm]
        · simp
        · intro b hb hne
          split_ifs with h
          · by_cases hbj : b j = 0
            · simp [hbj]
            · exfalso; apply hne
              rw [← h]
              ext i
              by_cases hi : i = j
              · subst hi; simp; omega
              · simp [Finsupp.single_apply, Ne.symm hi]
          · rfl
      · rw [notMem_support_iff.1 hm, zero_mul]
        refine Finset.sum_eq_zero fun b hb => ?_
        split_ifs with h
        · by_cases hbj : b j = 0
          · simp [hbj]
          · exfalso; apply hm
            have : m + Finsupp.single j 1 = b := by
              rw [← h]
              ext i
              by_cases hi : i = j
              · subst hi; simp; omega
              · simp [Finsupp.single_apply, Ne.symm hi]
            rwa [this]
        · rfl
    rw [this, norm_mul]
    congr 1
    rw [show ((m j : ℂ) + 1) = ((m j + 1 : ℕ) : ℂ) by push_cast; rfl, Complex.norm_natCast]; push_cast; rfl
  unfold coefSum
  have h1 : ∀ m ∈ (pderiv j p).support, m + Finsupp.single j 1 ∈ p.support := by
    intro m hm
    rw [mem_support_iff] at hm ⊢
    intro h
    apply hm
    rw [← norm_eq_zero, key, h]; simp
  calc ∑ m ∈ (pderiv j p).support, ‖(pderiv j p).coeff m‖
      = ∑ m ∈ (pderiv j p).support, ‖p.coeff (m + Finsupp.single j 1)‖ * ((m j : ℝ) + 1) :=
        Finset.sum_congr rfl fun m _ => key m
    _ ≤ ∑ m ∈ (pderiv j p).support, ‖p.coeff (m + Finsupp.single j 1)‖ * D := by
        refine Finset.sum_le_sum fun m hm => mul_le_mul_of_nonneg_left ?_ (norm_nonneg _)
        have h2 := le_totalDegree (h1 m hm)
        have h5 : (m + Finsupp.single j 1 : σ →₀ ℕ) j = m j + 1 := by simp
        have h3 : (m + Finsupp.single j 1 : σ →₀ ℕ) j ≤ (m + Finsupp.single j 1 : σ →₀ ℕ).sum fun _ e => e :=
          Finset.single_le_sum (f := fun i => (m + Finsupp.single j 1 : σ →₀ ℕ) i) (fun _ _ => Nat.zero_le _)
            (Finsupp.mem_support_iff.2 (by rw [h5]; omega))
        have h4 : m j + 1 ≤ D := by
          omega
        exact_mod_cast h4
    _ = D * ∑ m ∈ (pderiv j p).support, ‖p.coeff (m + Finsupp.single j 1)‖ := by
        rw [← Finset.sum_mul, mul_comm]
    _ ≤ D * ∑ m ∈ p.support, ‖p.coeff m‖ := by
        refine mul_le_mul_of_nonneg_left ?_ (Nat.cast_nonneg _)
        rw [← Finset.sum_image (f := fun m => ‖p.coeff m‖) (g := fun m => m + Finsupp.single j 1)
          (fun a _ b _ h => add_right_cancel h)]
        refine Finset.sum_le_sum_of_subset_of_nonneg ?_ fun _ _ _ => norm_nonneg _
        intro m hm
        obtain ⟨a, ha, rfl⟩ := Finset.mem_image.1 hm
        exact h1 a ha

theorem totalDegree_pderiv_le (p : MvPolynomial σ ℂ) (j : σ) {D : ℕ} (hD : p.totalDegree ≤ D) :
    (pderiv j p).totalDegree ≤ D - 1 := by
  classical
  rw [p.as_sum, map_sum]
  refine (totalDegree_finset_sum _ _).trans (Finset.sup_le fun m hm => ?_)
  rw [pderiv_monomial]
  by_cases hj : m j = 0
  · simp [hj]
  · refine (totalDegree_monomial_le _ _).trans ?_
    have h1 : (Finsupp.single j 1 : σ →₀ ℕ) ≤ m := by rw [Finsupp.single_le_iff]; omega
    have h2 : m.degree = (Finsupp.single j 1 : σ →₀ ℕ).degree + (m - Finsupp.single j 1).degree := by
      rw [← map_add, add_tsub_cancel_of_le h1]
    rw [Finsupp.degree_single] at h2
    have h3 : m.degree ≤ p.totalDegree := le_totalDegree hm
    show (m - Finsupp.single j 1).degree ≤ D - 1
    omega

/-- Sum of the powers of a root of unity other than one. -/
theorem sum_pow_root {ω : ℂ} {N : ℕ} (h : ω ^ N = 1) (h1 : ω ≠ 1) : ∑ k : Fin N, ω ^ (k : ℕ) = 0 := by
  rw [Fin.sum_univ_eq_sum_range (fun k => ω ^ k)]
  have := mul_geom_sum ω N
  rw [h, sub_self] at this
  exact (mul_eq_zero.1 this).resolve_left (sub_ne_zero.2 h1)

/-- Every coefficient is bounded by the absolute value at some point of the torus. -/
theorem exists_torus (p : MvPolynomial σ ℂ) (m : σ →₀ ℕ) : ∃ u : σ → ℂ, (∀ i, ‖u i‖ = 1) ∧ ‖p.coeff m‖ ≤ ‖eval u p‖ := by
  classical
  by_cases hm : m ∈ p.support
  swap
  · exact ⟨fun _ => 1, fun _ => norm_one, by rw [notMem_support_iff.1 hm, norm_zero]; exact norm_nonneg _⟩
  set N := p.totalDegree + 1 with hN
  set ζ := Complex.exp (2 * Real.pi * Complex.I / N) with hζ
  have hprim : IsPrimitiveRoot ζ N := Complex.isPrimitiveRoot_exp N (by omega)
  have hζn : ‖ζ‖ = 1 := hprim.norm'_eq_one (by omega)
  have hζ0 : ζ ≠ 0 := by intro h; rw [h] at hζn; simp at hζn
  set s := p.vars with hs
  have hsub : ∀ m' ∈ p.support, m'.support ⊆ s := fun m' h' i hi => mem_vars i |>.2 ⟨m', h', hi⟩
  have hlt : ∀ m' ∈ p.support, ∀ i, m' i < N := by
    intro m' h' i
    by_cases hi : i ∈ m'.support
    · have h3 : m' i ≤ m'.sum fun _ e => e := Finset.single_le_sum (f := fun i => m' i) (fun _ _ => Nat.zero_le _) hi
      have := le_totalDegree h'
      omega
    · rw [Finsupp.notMem_support_iff.1 hi]; omega
  let u : (s → Fin N) → σ → ℂ := fun a i => if h : i ∈ s then ζ ^ ((a ⟨i, h⟩ : Fin N) : ℕ) else 1
  have hu : ∀ a i, ‖u a i‖ = 1 := by
    intro a i
    show ‖(if h : i ∈ s then ζ ^ ((a ⟨i, h⟩ : Fin N) : ℕ) else 1)‖ = 1
    split_ifs
    · rw [norm_pow, hζn, one_pow]
    · exact norm_one
  have hprod : ∀ a, ∀ m' ∈ p.support, ∏ i ∈ m'.support, u a i ^ m' i = ∏ i : s, (ζ ^ m' i) ^ ((a i : Fin N) : ℕ) := by
    intro a m' h'
    rw [Finset.prod_subset (hsub m' h') (fun i _ hi => by rw [Finsupp.notMem_support_iff.1 hi, pow_zero])]
    rw [← Finset.prod_coe_sort s]
    refine Finset.prod_congr rfl fun i _ => ?_
    show (if h : (i : σ) ∈ s then ζ ^ ((a ⟨i, h⟩ : Fin N) : ℕ) else 1) ^ m' i = _
    rw [dif_pos i.2, ← pow_mul, ← pow_mul, mul_comm]
  have havg : ∑ a : s → Fin N, eval (u a) p * ∏ i : s, ((ζ ^ m i)⁻¹) ^ ((a i : Fin N) : ℕ) =
      (N : ℂ) ^ s.card * p.coeff m := by
    calc _ = ∑ a : s → Fin N, ∑ m' ∈ p.support, p.coeff m' * ∏ i : s, (ζ ^ m' i * (ζ ^ m i)⁻¹) ^ ((a i : Fin N) : ℕ) := by
          refine Finset.sum_congr rfl fun a _ => ?_
          rw [eval_eq, Finset.sum_mul]
          refine Finset.sum_congr rfl fun m' h' => ?_
          rw [hprod a m' h', mul_assoc, ← Finset.prod_mul_distrib]
          congr 1
          exact Finset.prod_congr rfl fun i _ => (mul_pow _ _ _).symm
      _ = ∑ m' ∈ p.support, p.coeff m' * ∏ i : s, ∑ k : Fin N, (ζ ^ m' i * (ζ ^ m i)⁻¹) ^ (k : ℕ) := by
          rw [Finset.sum_comm]
          refine Finset.sum_congr rfl fun m' _ => ?_
          rw [← Finset.mul_sum, Finset.prod_univ_sum, Fintype.piFinset_univ]
      _ = p.coeff m * ∏ i : s, ∑ k : Fin N, (ζ ^ m i * (ζ ^ m i)⁻¹) ^ (k : ℕ) := by
          refine Finset.sum_eq_single_of_mem m hm fun m' h' hne => ?_
          obtain ⟨i, hi⟩ := Finsupp.ne_iff.1 hne
          have his : i ∈ s := by
            by_contra hc
            have h1 := Finsupp.notMem_support_iff.1 fun h => hc (hsub m' h' h)
            have h2 := Finsupp.notMem_support_iff.1 fun h => hc (hsub m hm h)
            exact hi (h1.trans h2.symm)
          rw [Finset.prod_eq_zero (Finset.mem_univ (⟨i, his⟩ : s)), mul_zero]
          refine sum_pow_root ?_ ?_
          · rw [mul_pow, inv_pow, pow_right_comm, hprim.pow_eq_one, pow_right_comm, hprim.pow_eq_one]
            simp
          · intro h
            apply hi
            have h2 : ζ ^ m' i = ζ ^ m i := by
              rwa [mul_inv_eq_one₀ (pow_ne_zero _ hζ0)] at h
            exact hprim.pow_inj (hlt m' h' i) (hlt m hm i) h2
      _ = _ := by
          rw [mul_comm]
          congr 1
          rw [Finset.prod_congr rfl (g := fun _ => (N : ℂ))]
          · simp
          · intro i _
            rw [mul_inv_cancel₀ (pow_ne_zero _ hζ0)]
            simp
  by_contra hc
  push Not at hc
  have hN0 : (0 : ℝ) < N := by rw [hN]; positivity
  have hlt2 : ‖∑ a : s → Fin N, eval (u a) p * ∏ i : s, ((ζ ^ m i)⁻¹) ^ ((a i : Fin N) : ℕ)‖ <
      ∑ _a : s → Fin N, ‖p.coeff m‖ := by
    refine (norm_sum_le _ _).trans_lt (Finset.sum_lt_sum_of_nonempty ?_ fun a _ => ?_)
    · exact ⟨fun _ => ⟨0, by omega⟩, Finset.mem_univ _⟩
    · rw [norm_mul, norm_prod, Finset.prod_eq_one fun i _ => by rw [norm_pow, norm_inv, norm_pow, hζn]; simp, mul_one]
      exact hc (u a) (hu a)
  rw [havg, norm_mul, norm_pow, Complex.norm_natCast] at hlt2
  simp at hlt2

/-- The derivative of the evaluation in one variable. -/
theorem hasDerivAt_eval [DecidableEq σ] (p : MvPolynomial σ ℂ) (x : σ → ℂ) (j : σ) :
    HasDerivAt (fun t => eval (Function.update x j t) p) (eval x (pderiv j p)) (x j) := by
  induction p using MvPolynomial.induction_on with
  | C a => simpa using hasDerivAt_const (x j) a
  | add p q hp hq => simp only [map_add]; exact hp.add hq
  | mul_X p i hp =>
    have hX : HasDerivAt (fun t => Function.update x j t i) (if i = j then 1 else 0) (x j) := by
      by_cases hi : i = j
      · subst hi; simp only [Function.update_self, if_true]; exact hasDerivAt_id (x i)
      · simpa [hi, Function.update_of_ne hi] using hasDerivAt_const (x j) (x i)
    have h := hp.mul hX
    have he : (fun t => eval (Function.update x j t) (p * X i)) =
        (fun t => eval (Function.update x j t) p) * fun t => Function.update x j t i := by
      funext t; simp
    rw [he]
    refine h.congr_deriv ?_
    rw [Function.update_eq_self]
    by_cases hi : i = j
    · subst hi; simp [Derivation.leibniz]; ring
    · simp [Derivation.leibniz, pderiv_X, Pi.single_apply, hi, Ne.symm hi]; ring

end B2.Sys
