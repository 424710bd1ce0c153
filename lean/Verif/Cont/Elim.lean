import Mathlib.RingTheory.Nullstellensatz
import Mathlib.RingTheory.MvPolynomial.Homogeneous
import Mathlib.Analysis.Complex.Polynomial.Basic
import Mathlib.LinearAlgebra.Matrix.NonsingularInverse
import Mathlib.LinearAlgebra.Matrix.ToLinearEquiv
import Mathlib.Algebra.Order.Antidiag.Finsupp

/-!
# Families of homogeneous polynomials with a parameter

Mathematics used for the straight-line homotopy: when homogeneous polynomials whose coefficients depend
polynomially on a parameter `u` have no common zero but `0` at `u = 0`, then they have one for finitely many
`u` only.
-/

namespace B2.Cont

open MvPolynomial

variable {σ : Type} [Fintype σ] [DecidableEq σ]

/-- Value at the point `x` when the parameter is `u`. -/
noncomputable def ev (u : ℂ) (x : σ → ℂ) : MvPolynomial σ (Polynomial ℂ) →+* ℂ :=
  eval₂Hom (Polynomial.evalRingHom u) x

theorem ev_eq (u : ℂ) (x : σ → ℂ) (p : MvPolynomial σ (Polynomial ℂ)) :
    ev u x p = eval x (map (Polynomial.evalRingHom u) p) := by
  simp [ev, eval_map]

omit [DecidableEq σ] in
theorem ev_component {u : ℂ} {x : σ → ℂ} {d : ℕ} {P : MvPolynomial σ (Polynomial ℂ)}
    (hP : P.IsHomogeneous d) (h0 : ev u x P = 0) (q : MvPolynomial σ (Polynomial ℂ)) (M : ℕ) :
    ev u x (homogeneousComponent M (q * P)) = 0 := by
  conv_lhs => rw [← sum_homogeneousComponent q, Finset.sum_mul, map_sum, map_sum]
  refine Finset.sum_eq_zero fun k _ => ?_
  have h : (homogeneousComponent k q * P).IsHomogeneous (k + d) :=
    (homogeneousComponent_isHomogeneous k q).mul hP
  rw [homogeneousComponent_of_mem h]
  split_ifs
  · rw [map_mul, h0, mul_zero]
  · rw [map_zero]

/-- The exponents of degree `M`. -/
def Exps (σ : Type) [Fintype σ] [DecidableEq σ] (M : ℕ) : Finset (σ →₀ ℕ) :=
  Finset.finsuppAntidiag Finset.univ M

theorem mem_exps {M : ℕ} {e : σ →₀ ℕ} : e ∈ Exps σ M ↔ e.degree = M := by
  simp [Exps, Finset.mem_finsuppAntidiag, Finsupp.degree_eq_sum]

/-- The value of a homogeneous component. -/
theorem ev_homogeneous (u : ℂ) (x : σ → ℂ) (M : ℕ) (p : MvPolynomial σ (Polynomial ℂ)) :
    ev u x (homogeneousComponent M p) =
      ∑ e ∈ Exps σ M, (p.coeff e).eval u * ∏ i, x i ^ e i := by
  rw [homogeneousComponent_apply, map_sum]
  have h1 : ∀ e : σ →₀ ℕ, ev u x (monomial e (p.coeff e)) = (p.coeff e).eval u * ∏ i, x i ^ e i := by
    intro e
    simp [ev, eval₂_monomial, Finsupp.prod_fintype]
  simp only [h1]
  refine Finset.sum_subset_zero_on_sdiff ?_ ?_ fun _ _ => rfl
  · intro e he
    exact mem_exps.2 (Finset.mem_filter.1 he).2
  · intro e he
    rw [Finset.mem_sdiff, mem_exps, Finset.mem_filter] at he
    have : p.coeff e = 0 := by
      by_contra hc
      exact he.2 ⟨mem_support_iff.2 hc, he.1⟩
    simp [this]

/-- **Elimination.** -/
theorem finite_bad {ι : Type} [Fintype ι] (P : ι → MvPolynomial σ (Polynomial ℂ)) (d : ι → ℕ)
    (hP : ∀ j, (P j).IsHomogeneous (d j)) (h0 : ∀ x : σ → ℂ, (∀ j, ev 0 x (P j) = 0) → x = 0) :
    {u : ℂ | ∃ x : σ → ℂ, x ≠ 0 ∧ ∀ j, ev u x (P j) = 0}.Finite := by
  classical
  rcases isEmpty_or_nonempty σ with hσ | hσ
  · refine Set.finite_empty.subset ?_
    rintro u ⟨x, hx, -⟩
    exact hx (Subsingleton.elim _ _)
  let P0 : ι → MvPolynomial σ ℂ := fun j => map (Polynomial.evalRingHom 0) (P j)
  let I : Ideal (MvPolynomial σ ℂ) := Ideal.span (Set.range P0)
  -- every variable has a power in the ideal
  have hpow : ∀ i : σ, ∃ N : ℕ, (X i : MvPolynomial σ ℂ) ^ N ∈ I := by
    intro i
    have h1 : (X i : MvPolynomial σ ℂ) ∈ vanishingIdeal ℂ (zeroLocus ℂ I) := by
      rw [mem_vanishingIdeal_iff]
      intro x hx
      have : x = 0 := by
        apply h0
        intro j
        rw [mem_zeroLocus_iff] at hx
        have := hx (P0 j) (Ideal.subset_span ⟨j, rfl⟩)
        rw [ev_eq]
        simpa [P0, aeval_eq_eval] using this
      simp [this]
    rw [vanishingIdeal_zeroLocus_eq_radical] at h1
    exact h1
  choose N hN using hpow
  set M := ∑ i, N i with hM
  have hmon : ∀ e ∈ Exps σ M, monomial e (1 : ℂ) ∈ I := by
    intro e he
    rw [mem_exps, Finsupp.degree_eq_sum] at he
    obtain ⟨i, hi⟩ : ∃ i, N i ≤ e i := by
      by_contra hc
      push Not at hc
      have : ∑ i, e i < ∑ i, N i := Finset.sum_lt_sum_of_nonempty Finset.univ_nonempty fun i _ => hc i
      omega
    have : monomial e (1 : ℂ) = monomial (e - Finsupp.single i (N i)) 1 * X i ^ N i := by
      rw [X_pow_eq_monomial, monomial_mul, one_mul, tsub_add_cancel_of_le]
      simpa using hi
    rw [this]
    exact Ideal.mul_mem_left _ _ (hN i)
  have hq : ∀ e : Exps σ M, ∃ q : ι → MvPolynomial σ ℂ, ∑ j, q j * P0 j = monomial e.1 1 := by
    intro e
    have := hmon e.1 e.2
    rw [show I = Submodule.span _ (Set.range P0) from rfl, Submodule.mem_span_range_iff_exists_fun] at this
    obtain ⟨c, hc⟩ := this
    exact ⟨c, by simpa using hc⟩
  choose q hq using hq
  let R : Exps σ M → MvPolynomial σ (Polynomial ℂ) := fun e => ∑ j, map Polynomial.C (q e j) * P j
  let A : Matrix (Exps σ M) (Exps σ M) (Polynomial ℂ) := Matrix.of fun e e' => (R e).coeff e'.1
  have hAe : ∀ u e e', (Polynomial.evalRingHom u).mapMatrix A e e' = ((R e).coeff e'.1).eval u :=
    fun _ _ _ => rfl
  have hA0 : A.det.eval 0 = 1 := by
    have hmat : (Polynomial.evalRingHom (0 : ℂ)).mapMatrix A = 1 := by
      ext e e'
      have h1 : (Polynomial.evalRingHom (0 : ℂ)) ((R e).coeff e'.1) =
          (map (Polynomial.evalRingHom 0) (R e)).coeff e'.1 := by rw [coeff_map]
      have h2 : map (Polynomial.evalRingHom 0) (R e) = monomial e.1 (1 : ℂ) := by
        rw [← hq e]
        simp only [R, map_sum, map_mul, P0]
        refine Finset.sum_congr rfl fun j _ => ?_
        congr 1
        rw [map_map]
        convert map_id (q e j)
        ext z
        simp
      rw [hAe, ← Polynomial.coe_evalRingHom, h1, h2, coeff_monomial, Matrix.one_apply]
      by_cases h : e = e'
      · rw [if_pos h, if_pos (congrArg Subtype.val h)]
      · rw [if_neg h, if_neg (fun hc => h (Subtype.ext hc))]
    rw [← Polynomial.coe_evalRingHom, RingHom.map_det, hmat, Matrix.det_one]
  have hdet : A.det ≠ 0 := by
    intro hc
    rw [hc] at hA0
    simp at hA0
  refine (A.det.roots.toFinset.finite_toSet).subset ?_
  rintro u ⟨x, hx, hz⟩
  rw [Finset.mem_coe, Multiset.mem_toFinset, Polynomial.mem_roots hdet, Polynomial.IsRoot.def]
  by_contra hc
  apply hx
  have hu : ((Polynomial.evalRingHom u).mapMatrix A).det ≠ 0 := by
    rw [← RingHom.map_det]; exact hc
  have hv : ((Polynomial.evalRingHom u).mapMatrix A).mulVec (fun e => ∏ i, x i ^ e.1 i) = 0 := by
    funext e
    have h1 : ev u x (homogeneousComponent M (R e)) = 0 := by
      simp only [R, map_sum]
      exact Finset.sum_eq_zero fun j _ => ev_component (hP j) (hz j) _ _
    rw [ev_homogeneous, ← Finset.sum_coe_sort] at h1
    simpa only [Matrix.mulVec, dotProduct, hAe, Pi.zero_apply] using h1
  have := Matrix.eq_zero_of_mulVec_eq_zero hu hv
  funext i
  have h2 := congrFun this ⟨Finsupp.single i M, mem_exps.2 (by simp)⟩
  simp only [Pi.zero_apply] at h2
  rw [Finset.prod_eq_single i] at h2
  · simp only [Finsupp.single_eq_same] at h2
    exact eq_zero_of_pow_eq_zero h2
  · intro j _ hj
    simp [Finsupp.single_eq_of_ne hj]
  · simp

end B2.Cont
