import Verif.Cont.Lift
import Mathlib.Analysis.Complex.CauchyIntegral
import Mathlib.Analysis.Calculus.InverseFunctionTheorem.FDeriv

/-!
# Paths with a nonsingular end are power series in time
-/

namespace B2.Cont

open B2.Predict B2.Track Set Topology Filter

variable {V : Type} [NormedAddCommGroup V] [NormedSpace ℂ V]

/-- The solution of `J k = - ∂H/∂t`. -/
noncomputable def tangent (H : V × ℂ → V) (q : V × ℂ) : V := - Ring.inverse (jacV H q) (jacT H q)

/-- The derivative of `(x,s) ↦ (H(x,s), s)` at a point with invertible Jacobian is invertible, and the last column of
the inverse is the tangent. -/
theorem graph_equiv {H : V × ℂ → V} {r : V × ℂ} (hJ : IsUnit (jacV H r)) :
    ∃ e : (V × ℂ) ≃L[ℂ] (V × ℂ), (e : (V × ℂ) →L[ℂ] (V × ℂ)) = (fderiv ℂ H r).prod (ContinuousLinearMap.snd ℂ V ℂ) ∧
      e.symm (0, 1) = (tangent H r, 1) := by
  have hval : ∀ d : V × ℂ, fderiv ℂ H r d = jacV H r d.1 + fderiv ℂ H r (0, d.2) := by
    intro d
    rw [jacV]
    simp only [ContinuousLinearMap.comp_apply, ContinuousLinearMap.inl_apply]
    rw [← map_add]
    simp
  have hi1 : ∀ z, Ring.inverse (jacV H r) (jacV H r z) = z := fun z =>
    congrArg (fun f : V →L[ℂ] V => f z) (Ring.inverse_mul_cancel _ hJ)
  have hi2 : ∀ z, jacV H r (Ring.inverse (jacV H r) z) = z := fun z =>
    congrArg (fun f : V →L[ℂ] V => f z) (Ring.mul_inverse_cancel _ hJ)
  let e : (V × ℂ) ≃L[ℂ] (V × ℂ) := ContinuousLinearEquiv.equivOfInverse
    ((fderiv ℂ H r).prod (ContinuousLinearMap.snd ℂ V ℂ))
    (((Ring.inverse (jacV H r)).comp (ContinuousLinearMap.fst ℂ V ℂ -
      ((fderiv ℂ H r).comp (ContinuousLinearMap.inr ℂ V ℂ)).comp (ContinuousLinearMap.snd ℂ V ℂ))).prod
      (ContinuousLinearMap.snd ℂ V ℂ))
    (by
      intro d
      refine Prod.ext ?_ rfl
      simp only [ContinuousLinearMap.prod_apply, ContinuousLinearMap.comp_apply,
        ContinuousLinearMap.sub_apply, ContinuousLinearMap.coe_fst', ContinuousLinearMap.coe_snd',
        ContinuousLinearMap.inr_apply]
      rw [hval d, add_sub_cancel_right, hi1])
    (by
      intro d
      refine Prod.ext ?_ rfl
      simp only [ContinuousLinearMap.prod_apply, ContinuousLinearMap.comp_apply,
        ContinuousLinearMap.sub_apply, ContinuousLinearMap.coe_fst', ContinuousLinearMap.coe_snd',
        ContinuousLinearMap.inr_apply]
      rw [hval]
      simp only
      rw [hi2, sub_add_cancel])
  refine ⟨e, rfl, ?_⟩
  show (Ring.inverse (jacV H r) ((0 : V) - fderiv ℂ H r (0, 1)), (1 : ℂ)) = _
  rw [zero_sub, map_neg]
  rfl

/-- Through a nonsingular zero `r` there is an analytic branch of zeros over a neighbourhood of the time of `r`, and a continuous
family of zeros at `r` (over the real or the complex numbers) is on this branch. -/
theorem branch [CompleteSpace V] {H : V × ℂ → V} (ha : ∀ q, AnalyticAt ℂ H q) {x : V} {s : ℂ} (hz : H (x, s) = 0)
    (hJ : IsUnit (jacV H (x, s))) : ∃ φ : ℂ → V, AnalyticAt ℂ φ s ∧ φ s = x ∧ HasDerivAt φ (tangent H (x, s)) s ∧
      ∀ {X : Type} (l : Filter X) (y : X → V) (h : X → ℂ), Tendsto y l (𝓝 x) → Tendsto h l (𝓝 s) →
        (∀ᶠ w in l, H (y w, h w) = 0) → ∀ᶠ w in l, y w = φ (h w) := by
  obtain ⟨Ψ, hr, hΨ⟩ := graph_homeo (ha (x, s)) hJ
  have hz0 : Ψ (x, s) = (0, s) := by rw [hΨ, hz]
  have hsym0 : Ψ.symm (0, s) = (x, s) := by rw [← hz0]; exact Ψ.left_inv hr
  have htgt : ((0, s) : V × ℂ) ∈ Ψ.target := by rw [← hz0]; exact Ψ.map_source hr
  let φ : ℂ → V := fun s => (Ψ.symm (0, s)).1
  have hcont : Continuous fun s : ℂ => ((0, s) : V × ℂ) := by fun_prop
  have hopen : IsOpen {q : V × ℂ | IsUnit (jacV H q)} := by
    have hc : Continuous (jacV H) := by
      have h1 : Continuous (fderiv ℂ H) := continuous_iff_continuousAt.2 fun q => (ha q).fderiv.continuousAt
      exact h1.clm_comp continuous_const
    exact Units.isOpen.preimage hc
  -- a neighbourhood on which everything works
  have hnear : ∀ᶠ s in 𝓝 s, ((0, s) : V × ℂ) ∈ Ψ.target ∧ IsUnit (jacV H (Ψ.symm (0, s))) := by
    refine Filter.Eventually.and (hcont.continuousAt.preimage_mem_nhds (Ψ.open_target.mem_nhds htgt)) ?_
    have h1 : ContinuousAt (fun s : ℂ => Ψ.symm (0, s)) s :=
      ContinuousAt.comp (f := fun s : ℂ => ((0, s) : V × ℂ)) (Ψ.continuousAt_symm htgt) hcont.continuousAt
    refine h1.preimage_mem_nhds (hopen.mem_nhds ?_)
    show IsUnit (jacV H (Ψ.symm (0, s)))
    rw [hsym0]; exact hJ
  have hder : ∀ s : ℂ, ((0, s) : V × ℂ) ∈ Ψ.target → IsUnit (jacV H (Ψ.symm (0, s))) →
      HasDerivAt φ (tangent H (Ψ.symm (0, s))) s := by
    intro s h1 h2
    obtain ⟨e, he, he2⟩ := graph_equiv h2
    have h3 : HasFDerivAt Ψ (e : (V × ℂ) →L[ℂ] (V × ℂ)) (Ψ.symm (0, s)) := by
      rw [he]
      have h4 : HasFDerivAt (fun q : V × ℂ => (H q, q.2))
          ((fderiv ℂ H (Ψ.symm (0, s))).prod (ContinuousLinearMap.snd ℂ V ℂ)) (Ψ.symm (0, s)) :=
        (ha _).differentiableAt.hasFDerivAt.prodMk (ContinuousLinearMap.snd ℂ V ℂ).hasFDerivAt
      refine h4.congr_of_eventuallyEq (Eventually.of_forall fun q => hΨ q)
    have h5 := Ψ.hasFDerivAt_symm h1 h3
    have h6 : HasDerivAt (fun s : ℂ => ((0, s) : V × ℂ)) (0, 1) s :=
      (hasDerivAt_const s (0 : V)).prodMk (hasDerivAt_id s)
    have h7 := h5.comp_hasDerivAt s h6
    have h8 := (ContinuousLinearMap.fst ℂ V ℂ).hasFDerivAt.comp_hasDerivAt s h7
    have h9 : (ContinuousLinearMap.fst ℂ V ℂ) ((e.symm : (V × ℂ) →L[ℂ] (V × ℂ)) (0, 1)) = tangent H (Ψ.symm (0, s)) := by
      show (e.symm (0, 1)).1 = _
      rw [he2]
    rw [h9] at h8
    exact h8
  refine ⟨φ, ?_, by show (Ψ.symm (0, s)).1 = x; rw [hsym0], ?_, ?_⟩
  · obtain ⟨U, hU, hUo, h0U⟩ := eventually_nhds_iff.1 hnear
    refine DifferentiableOn.analyticAt (s := U) (fun s hs => ?_) (hUo.mem_nhds h0U)
    exact (hder s (hU s hs).1 (hU s hs).2).differentiableAt.differentiableWithinAt
  · have := hder s htgt (by rw [hsym0]; exact hJ)
    rwa [hsym0] at this
  · intro X l y h h1 h2 h3
    filter_upwards [(h1.prodMk_nhds h2).eventually (Ψ.open_source.mem_nhds hr), h3] with w h4 h5
    have h6 := Ψ.left_inv h4
    rw [hΨ, h5] at h6
    show y w = (Ψ.symm (0, h w)).1
    rw [h6]

/-- A continuous family of zeros along a differentiable curve of times is differentiable where the zeros are nonsingular. -/
theorem zero_hasDerivAt [CompleteSpace V] {𝕜 : Type} [NontriviallyNormedField 𝕜] [NormedAlgebra 𝕜 ℂ] [NormedSpace 𝕜 V]
    [IsScalarTower 𝕜 ℂ V] {H : V × ℂ → V} (ha : ∀ q, AnalyticAt ℂ H q) {y : 𝕜 → V} {h : 𝕜 → ℂ} {w : 𝕜} {h' : ℂ}
    (hJ : IsUnit (jacV H (y w, h w))) (hy : ContinuousAt y w) (hz : ∀ᶠ v in 𝓝 w, H (y v, h v) = 0) (hh : HasDerivAt h h' w) :
    HasDerivAt y (h' • tangent H (y w, h w)) w := by
  obtain ⟨φ, -, -, h1, h2⟩ := branch ha hz.self_of_nhds hJ
  have h3 := h2 (𝓝 w) y h hy hh.continuousAt hz
  exact (HasDerivAt.scomp w h1 hh).congr_of_eventuallyEq h3

/-- A path of zeros that tends to a nonsingular zero at time 0 is a convergent power series in `t`, and its derivative is
the tangent. -/
theorem nonsingular_series [CompleteSpace V] {H : V × ℂ → V} (ha : ∀ q, AnalyticAt ℂ H q) {z : V} (hz : H (z, 0) = 0)
    (hJ : IsUnit (jacV H (z, 0))) {y : ℝ → V} (hy : OpenPath H y)
    (hn : ∀ s ∈ Ioc (0 : ℝ) 1, IsUnit (jacV H (y s, (s : ℂ)))) (hl : Tendsto y (𝓝[>] 0) (𝓝 z)) :
    ∃ (φ : ℂ → V) (R : ℝ), 0 < R ∧ R ≤ 1 ∧ AnalyticAt ℂ φ 0 ∧ φ 0 = z ∧
      ∀ s, 0 < s → s < R → y s = φ s ∧ HasDerivAt y (tangent H (y s, (s : ℂ))) s := by
  obtain ⟨φ, h1, h2, -, h3⟩ := branch ha hz hJ
  have hof : Tendsto (fun s : ℝ => (s : ℂ)) (𝓝[>] 0) (𝓝 0) := by
    have : Tendsto (fun s : ℝ => (s : ℂ)) (𝓝 0) (𝓝 ((0 : ℝ) : ℂ)) := Complex.continuous_ofReal.tendsto 0
    rw [Complex.ofReal_zero] at this
    exact this.mono_left nhdsWithin_le_nhds
  have h4 := h3 (𝓝[>] 0) y _ hl hof
    (Filter.mem_of_superset (Ioc_mem_nhdsGT one_pos) fun s hs => hy.zero s hs)
  obtain ⟨R, hR, hsub⟩ := mem_nhdsGT_iff_exists_Ioo_subset.mp h4
  refine ⟨φ, min R 1, lt_min hR one_pos, min_le_right _ _, h1, h2, fun s h5 h6 => ⟨?_, ?_⟩⟩
  · exact hsub ⟨h5, h6.trans_le (min_le_left _ _)⟩
  · have h7 : s < 1 := h6.trans_le (min_le_right _ _)
    have h8 := zero_hasDerivAt ha (h := fun s : ℝ => (s : ℂ)) (hn s ⟨h5, h7.le⟩)
      (hy.cont.continuousAt (Ioc_mem_nhds h5 h7))
      (Filter.mem_of_superset (Ioc_mem_nhds h5 h7) fun s hs => hy.zero s hs) (Complex.ofRealCLM.hasDerivAt (x := s))
    have h9 : (Complex.ofRealCLM 1 : ℂ) = 1 := by simp
    rwa [h9, one_smul] at h8

end B2.Cont
