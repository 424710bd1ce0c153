import Verif.Cont.TotalDeg
import Mathlib.RingTheory.RootsOfUnity.Complex

/-!
# The system of Griewank and Osborn

`29/16 x^3 - 2xy`, `y - x^2`: the only zero is the origin; changed by a constant in the first function it has three
nonsingular zeros near the origin; the homogenization has one more zero, at infinity.
-/

namespace B2.Cont

open Set Filter Topology 
open MvPolynomial hiding eval

/-- The functions. -/
noncomputable def goFun (y : Fin 2 → ℂ) : Fin 2 → ℂ := ![29 / 16 * y 0 ^ 3 - 2 * y 0 * y 1, y 1 - y 0 ^ 2]

/-- Changed by `ε` in the first function. -/
noncomputable def goEps (ε : ℂ) (y : Fin 2 → ℂ) : Fin 2 → ℂ :=
  ![29 / 16 * y 0 ^ 3 - 2 * y 0 * y 1 + ε, y 1 - y 0 ^ 2]

theorem goEps_zero {ε : ℂ} {y : Fin 2 → ℂ} : goEps ε y = 0 ↔ y 1 = y 0 ^ 2 ∧ y 0 ^ 3 = 16 / 3 * ε := by
  constructor
  · intro h
    have h0 : 29 / 16 * y 0 ^ 3 - 2 * y 0 * y 1 + ε = 0 := congrFun h 0
    have h1 : y 1 - y 0 ^ 2 = 0 := congrFun h 1
    refine ⟨by linear_combination h1, ?_⟩
    linear_combination (-16 / 3) * h0 - 32 / 3 * y 0 * h1
  · rintro ⟨h1, h2⟩
    funext j
    fin_cases j
    · show 29 / 16 * y 0 ^ 3 - 2 * y 0 * y 1 + ε = 0
      rw [h1]
      linear_combination (-3 / 16) * h2
    · show y 1 - y 0 ^ 2 = 0
      rw [h1, sub_self]

theorem goFun_zero {y : Fin 2 → ℂ} : goFun y = 0 ↔ y = 0 := by
  have h : goFun y = goEps 0 y := by simp [goFun, goEps]
  rw [h, goEps_zero]
  constructor
  · rintro ⟨h1, h2⟩
    have h0 : y 0 = 0 := by
      rw [mul_zero] at h2
      exact pow_eq_zero_iff three_ne_zero |>.1 h2
    funext j
    fin_cases j
    · exact h0
    · show y 1 = 0
      rw [h1, h0]
      ring
  · rintro rfl
    simp

theorem goEps_nonsingular {ε : ℂ} (hε : ε ≠ 0) {y : Fin 2 → ℂ} (hy : goEps ε y = 0) : IsUnit (fderiv ℂ (goEps ε) y) := by
  obtain ⟨h1, h2⟩ := goEps_zero.1 hy
  have h0 : y 0 ≠ 0 := by
    intro h
    rw [h] at h2
    apply hε
    linear_combination (-3 / 16) * h2
  have p0 : HasFDerivAt (fun y : Fin 2 → ℂ => y 0) (ContinuousLinearMap.proj (R := ℂ) (φ := fun _ : Fin 2 => ℂ) 0) y :=
    hasFDerivAt_apply 0 y
  have p1 : HasFDerivAt (fun y : Fin 2 → ℂ => y 1) (ContinuousLinearMap.proj (R := ℂ) (φ := fun _ : Fin 2 => ℂ) 1) y :=
    hasFDerivAt_apply 1 y
  have hd0 := (((p0.pow 3).const_mul (29 / 16)).sub ((p0.const_mul 2).mul p1)).add_const ε
  have hd1 := p1.sub (p0.pow 2)
  obtain ⟨D, hD⟩ : ∃ D : (Fin 2 → ℂ) →L[ℂ] (Fin 2 → ℂ), HasFDerivAt (goEps ε) D y ∧ ∀ v,
      D v = ![(87 / 16 * y 0 ^ 2 - 2 * y 1) * v 0 - 2 * y 0 * v 1, v 1 - 2 * y 0 * v 0] := by
    refine ⟨ContinuousLinearMap.pi
      ![((29 / 16 : ℂ) • (3 • y 0 ^ (3 - 1)) • ContinuousLinearMap.proj (R := ℂ) (φ := fun _ : Fin 2 => ℂ) 0 -
          ((2 * y 0) • ContinuousLinearMap.proj (R := ℂ) (φ := fun _ : Fin 2 => ℂ) 1 +
            y 1 • (2 : ℂ) • ContinuousLinearMap.proj (R := ℂ) (φ := fun _ : Fin 2 => ℂ) 0)),
        ContinuousLinearMap.proj (R := ℂ) (φ := fun _ : Fin 2 => ℂ) 1 -
          (2 • y 0 ^ (2 - 1)) • ContinuousLinearMap.proj (R := ℂ) (φ := fun _ : Fin 2 => ℂ) 0],
      hasFDerivAt_pi.2 fun j => ?_, fun v => ?_⟩
    · fin_cases j
      · exact hd0
      · exact hd1
    · funext j
      fin_cases j
      · simp
        ring
      · simp
  rw [hD.1.fderiv, ContinuousLinearMap.isUnit_iff_bijective]
  have hinj : Function.Injective D := by
    rw [injective_iff_map_eq_zero]
    intro v hv
    rw [hD.2] at hv
    have e0 : (87 / 16 * y 0 ^ 2 - 2 * y 1) * v 0 - 2 * y 0 * v 1 = 0 := congrFun hv 0
    have e1 : v 1 - 2 * y 0 * v 0 = 0 := congrFun hv 1
    have e2 : y 0 ^ 2 * v 0 = 0 := by
      rw [h1] at e0
      linear_combination (-16 / 9) * e0 - 32 / 9 * y 0 * e1
    have e3 : v 0 = 0 := (mul_eq_zero.1 e2).resolve_left (pow_ne_zero _ h0)
    funext j
    fin_cases j
    · exact e3
    · show v 1 = 0
      rw [e3] at e1
      linear_combination e1
  exact ⟨hinj, (LinearMap.injective_iff_surjective (f := (D : (Fin 2 → ℂ) →ₗ[ℂ] (Fin 2 → ℂ)))).1 hinj⟩

/-- A nonzero number has `n` roots of order `n`. -/
theorem card_roots {n : ℕ} (hn : 0 < n) {c : ℂ} (hc : c ≠ 0) : {u : ℂ | u ^ n = c}.ncard = n := by
  have hprim := Complex.isPrimitiveRoot_exp n hn.ne'
  have h1 := hprim.card_nthRoots c
  rw [if_pos (IsAlgClosed.exists_pow_nat_eq c hn)] at h1
  have h2 := hprim.nthRoots_nodup hc
  have : {u : ℂ | u ^ n = c} = ((Polynomial.nthRoots n c).toFinset : Set ℂ) := by
    ext u
    simp [Polynomial.mem_nthRoots hn]
  rw [this, Set.ncard_coe_finset, Multiset.toFinset_card_of_nodup h2, h1]

theorem cube_roots {c : ℂ} (hc : c ≠ 0) : {u : ℂ | u ^ 3 = c}.ncard = 3 := card_roots (by norm_num) hc

theorem square_roots {c : ℂ} (hc : c ≠ 0) : {u : ℂ | u ^ 2 = c}.ncard = 2 := card_roots (by norm_num) hc

/-- Near the origin the changed system has three zeros. -/
theorem goEps_count {ρ : ℝ} (hρ : 0 < ρ) : ∀ᶠ ε in 𝓝[≠] (0 : ℂ),
    {b | b ∈ Metric.ball (0 : Fin 2 → ℂ) ρ ∧ goEps ε b = 0}.ncard = 3 := by
  set m := min ρ 1 with hm
  have hm0 : 0 < m := lt_min hρ one_pos
  have hsmall : ∀ᶠ ε in 𝓝 (0 : ℂ), 16 / 3 * ‖ε‖ < m ^ 3 := by
    have : Tendsto (fun ε : ℂ => 16 / 3 * ‖ε‖) (𝓝 0) (𝓝 0) := by
      have := (tendsto_norm_zero (E := ℂ)).const_mul (16 / 3)
      rwa [mul_zero] at this
    exact this.eventually_lt_const (by positivity)
  filter_upwards [mem_nhdsWithin_of_mem_nhds hsmall, self_mem_nhdsWithin] with ε hε hne
  have hset : {b | b ∈ Metric.ball (0 : Fin 2 → ℂ) ρ ∧ goEps ε b = 0} =
      (fun u : ℂ => (![u, u ^ 2] : Fin 2 → ℂ)) '' {u : ℂ | u ^ 3 = 16 / 3 * ε} := by
    ext b
    simp only [mem_setOf_eq, mem_image, goEps_zero]
    constructor
    · rintro ⟨-, h1, h2⟩
      refine ⟨b 0, h2, ?_⟩
      funext j
      fin_cases j
      · rfl
      · exact h1.symm
    · rintro ⟨u, hu, rfl⟩
      have hu3 : ‖u‖ ^ 3 < m ^ 3 := by
        rw [← norm_pow, hu, norm_mul]
        simpa using hε
      have hu1 : ‖u‖ < m := lt_of_pow_lt_pow_left₀ 3 hm0.le hu3
      have hur : ‖u‖ < ρ := hu1.trans_le (min_le_left _ _)
      have hu1' : ‖u‖ < 1 := hu1.trans_le (min_le_right _ _)
      refine ⟨?_, rfl, hu⟩
      rw [mem_ball_zero_iff, pi_norm_lt_iff hρ]
      intro j
      fin_cases j
      · exact hur
      · show ‖u ^ 2‖ < ρ
        rw [norm_pow, sq]
        nlinarith [norm_nonneg u]
  rw [hset, Set.ncard_image_of_injective _ (fun u v huv => by simpa using congrFun huv 0)]
  exact cube_roots (by
    have : ε ≠ 0 := hne
    simpa using this)

/-- The homogenization. -/
noncomputable def goHom : Fin 2 → MvPolynomial (Fin 3) ℂ :=
  ![C (29 / 16) * X 1 ^ 3 - C 2 * X 1 * X 2 * X 0, X 2 * X 0 - X 1 ^ 2]

theorem goHom_homogeneous (j : Fin 2) : (goHom j).IsHomogeneous ([3, 2].getD j 0) := by
  fin_cases j
  · show (C (29 / 16) * X 1 ^ 3 - C 2 * X 1 * X 2 * X 0 : MvPolynomial (Fin 3) ℂ).IsHomogeneous 3
    refine MvPolynomial.IsHomogeneous.sub ?_ ?_
    · have := (isHomogeneous_C (Fin 3) (29 / 16 : ℂ)).mul (isHomogeneous_X_pow (R := ℂ) (1 : Fin 3) 3)
      simpa using this
    · have := (((isHomogeneous_C (Fin 3) (2 : ℂ)).mul (isHomogeneous_X ℂ (1 : Fin 3))).mul
        (isHomogeneous_X ℂ (2 : Fin 3))).mul (isHomogeneous_X ℂ (0 : Fin 3))
      simpa using this
  · show (X 2 * X 0 - X 1 ^ 2 : MvPolynomial (Fin 3) ℂ).IsHomogeneous 2
    refine MvPolynomial.IsHomogeneous.sub ?_ ?_
    · exact (isHomogeneous_X ℂ (2 : Fin 3)).mul (isHomogeneous_X ℂ (0 : Fin 3))
    · exact isHomogeneous_X_pow _ _

theorem goHom_eval (x : Fin 3 → ℂ) (j : Fin 2) : MvPolynomial.eval x (goHom j) =
    (![29 / 16 * x 1 ^ 3 - 2 * x 1 * x 2 * x 0, x 2 * x 0 - x 1 ^ 2] : Fin 2 → ℂ) j := by
  fin_cases j <;> simp [goHom]

theorem affine_goHom : affine goHom = goFun := by
  funext y j
  simp only [affine]
  rw [goHom_eval]
  have h2 : (Fin.cons 1 y : Fin 3 → ℂ) 2 = y 1 := rfl
  rw [h2]
  fin_cases j
  · simp [goFun]
  · simp [goFun]

/-- Its zeros are the multiples of `(1,0,0)` and `(0,0,1)`. -/
theorem goHom_zero {x : Fin 3 → ℂ} (h : ∀ j, MvPolynomial.eval x (goHom j) = 0) : x 1 = 0 ∧ (x 0 = 0 ∨ x 2 = 0) := by
  have h0 : 29 / 16 * x 1 ^ 3 - 2 * x 1 * x 2 * x 0 = 0 := by
    have := h 0
    rwa [goHom_eval] at this
  have h1 : x 2 * x 0 - x 1 ^ 2 = 0 := by
    have := h 1
    rwa [goHom_eval] at this
  have h2 : x 1 ^ 3 = 0 := by linear_combination (-16 / 3) * h0 - 32 / 3 * x 1 * h1
  have h3 : x 1 = 0 := pow_eq_zero_iff three_ne_zero |>.1 h2
  rw [h3] at h1
  refine ⟨h3, ?_⟩
  have : x 2 * x 0 = 0 := by linear_combination h1
  exact (mul_eq_zero.1 this).symm

end B2.Cont
