/-
Lemmas for C84 and C85: Newton's method near a nonsingular solution, uniformly along a compact path.
-/
import Verif.Predict.PropsOrder
import Verif.Track.PropsNewton
import Mathlib.Analysis.Calculus.ContDiff.RCLike
import Mathlib.Analysis.Calculus.MeanValue

namespace B2.Track
open Filter Topology B2.Predict

variable {V : Type} [NormedAddCommGroup V] [NormedSpace ℂ V]

/-- A local estimate that holds near every point of a compact set holds uniformly. -/
theorem unif_compact {M : Type} [PseudoMetricSpace M] {S : Set M} (hS : IsCompact S)
    (Q : ℝ → M → M → Prop) (hmono : ∀ C C' r r', C ≤ C' → Q C r r' → Q C' r r')
    (hloc : ∀ a ∈ S, ∃ ρ > 0, ∃ C, ∀ r r', dist r a < ρ → dist r' a < ρ → Q C r r') :
    ∃ ρ > 0, ∃ C, ∀ a ∈ S, ∀ r r', dist r a < ρ → dist r' a < ρ → Q C r r' := by
  refine hS.induction_on (p := fun S => ∃ ρ > 0, ∃ C, ∀ a ∈ S, ∀ r r', dist r a < ρ →
    dist r' a < ρ → Q C r r') ⟨1, one_pos, 0, by simp⟩ ?_ ?_ ?_
  · rintro s t hst ⟨ρ, h0, C, h⟩
    exact ⟨ρ, h0, C, fun a ha => h a (hst ha)⟩
  · rintro s t ⟨ρ, h0, C, h⟩ ⟨ρ', h0', C', h'⟩
    refine ⟨min ρ ρ', lt_min h0 h0', max C C', ?_⟩
    rintro a (ha | ha) r r' hr hr'
    · exact hmono _ _ _ _ (le_max_left _ _) (h a ha r r' (hr.trans_le (min_le_left _ _))
        (hr'.trans_le (min_le_left _ _)))
    · exact hmono _ _ _ _ (le_max_right _ _) (h' a ha r r' (hr.trans_le (min_le_right _ _))
        (hr'.trans_le (min_le_right _ _)))
  · intro a ha
    obtain ⟨ρ, h0, C, h⟩ := hloc a ha
    refine ⟨Metric.ball a (ρ / 2), mem_nhdsWithin_of_mem_nhds (Metric.ball_mem_nhds a (half_pos h0)),
      ρ / 2, half_pos h0, C, ?_⟩
    intro b hb r r' hr hr'
    rw [Metric.mem_ball] at hb
    refine h r r' ?_ ?_
    · have := dist_triangle r b a; linarith
    · have := dist_triangle r' b a; linarith

/-- Near a nonsingular point the inverse of the Jacobian is bounded. -/
theorem jac_bound [CompleteSpace V] (H : V × ℂ → V) (a : V × ℂ) (hH : AnalyticAt ℂ H a)
    (hJ : IsUnit (jacV H a)) :
    ∃ ρ > 0, ∃ B, 0 ≤ B ∧ ∀ r, dist r a < ρ → ∀ d, ‖d‖ ≤ B * ‖jacV H r d‖ := by
  have hJa : AnalyticAt ℂ (jacV H) a :=
    (((ContinuousLinearMap.compL ℂ V (V × ℂ) V).flip
      (ContinuousLinearMap.inl ℂ V ℂ)).analyticAt _).comp hH.fderiv
  obtain ⟨u, hu⟩ := hJ
  have hinv : ContinuousAt (fun r => Ring.inverse (jacV H r)) a := by
    have h1 : AnalyticAt ℂ Ring.inverse (jacV H a) := by
      rw [← hu]; exact analyticAt_inverse u
    exact (h1.comp hJa).continuousAt
  have hunit : ∀ᶠ r in 𝓝 a, IsUnit (jacV H r) := hJa.continuousAt.eventually (hu ▸ Units.nhds u)
  have hb : ∀ᶠ r in 𝓝 a, ‖Ring.inverse (jacV H r)‖ < ‖Ring.inverse (jacV H a)‖ + 1 :=
    hinv.norm.eventually_lt_const (lt_add_one _)
  obtain ⟨ρ, h0, h⟩ := Metric.eventually_nhds_iff.1 (hunit.and hb)
  refine ⟨ρ, h0, ‖Ring.inverse (jacV H a)‖ + 1, by positivity, fun r hr d => ?_⟩
  obtain ⟨h1, h2⟩ := h hr
  have h3 := Ring.inverse_mul_cancel _ h1
  have h4 := congrArg (fun L : V →L[ℂ] V => L d) h3
  simp only [ContinuousLinearMap.mul_apply, ContinuousLinearMap.one_apply] at h4
  calc ‖d‖ = ‖(Ring.inverse (jacV H r)) (jacV H r d)‖ := by rw [h4]
    _ ≤ ‖Ring.inverse (jacV H r)‖ * ‖jacV H r d‖ := ContinuousLinearMap.le_opNorm _ _
    _ ≤ _ := by gcongr

/-- Second-order Taylor bound near an analytic point, in the space variables. -/
theorem quad_bound [CompleteSpace V] (H : V × ℂ → V) (a : V × ℂ) (hH : AnalyticAt ℂ H a) :
    ∃ ρ > 0, ∃ K, 0 ≤ K ∧ ∀ z w s, dist (z, s) a < ρ → dist (w, s) a < ρ →
      ‖H (w, s) - H (z, s) - jacV H (z, s) (w - z)‖ ≤ K * ‖w - z‖ ^ 2 := by
  have hfd : AnalyticAt ℂ (fderiv ℂ H) a := hH.fderiv
  have hc : ContDiffAt ℂ 1 (fderiv ℂ H) a := hfd.contDiffAt
  obtain ⟨K, t, ht, hL⟩ := hc.exists_lipschitzOnWith
  obtain ⟨ρ, h0, h⟩ := Metric.eventually_nhds_iff.1 (hH.eventually_analyticAt.and ht)
  refine ⟨ρ, h0, K, K.2, fun z w s hz hw => ?_⟩
  have hball : ∀ v ∈ segment ℝ z w, dist (v, s) a < ρ := by
    intro v hv
    have hconv : Convex ℝ {v : V | dist (v, s) a < ρ} := by
      have : {v : V | dist (v, s) a < ρ} = if dist s a.2 < ρ then Metric.ball a.1 ρ else ∅ := by
        ext v
        simp only [Set.mem_setOf_eq, Prod.dist_eq, max_lt_iff]
        split_ifs with hs <;> simp [hs]
      rw [this]
      split_ifs
      · exact convex_ball _ _
      · exact convex_empty
    exact hconv.segment_subset hz hw hv
  have key := Convex.norm_image_sub_le_of_norm_hasFDerivWithin_le' (𝕜 := ℂ)
    (f := fun v => H (v, s)) (f' := fun v => jacV H (v, s)) (φ := jacV H (z, s))
    (s := segment ℝ z w) (x := z) (y := w) (C := K * ‖w - z‖) ?_ ?_
    (convex_segment z w) (left_mem_segment ℝ z w) (right_mem_segment ℝ z w)
  · rw [pow_two, ← mul_assoc]; exact key
  · intro v hv
    have h1 := (h (hball v hv)).1.differentiableAt.hasFDerivAt
    have h2 : HasFDerivAt (fun v : V => (v, s)) (ContinuousLinearMap.inl ℂ V ℂ) v :=
      hasFDerivAt_prodMk_left v s
    exact (HasFDerivAt.comp (f := fun v : V => (v, s)) v h1 h2).hasFDerivWithinAt
  · intro v hv
    have h1 := hL.dist_le_mul _ (h (hball v hv)).2 _ (h hz).2
    have h3 : jacV H (v, s) - jacV H (z, s) =
        (fderiv ℂ H (v, s) - fderiv ℂ H (z, s)).comp (ContinuousLinearMap.inl ℂ V ℂ) := by
      unfold jacV; rw [ContinuousLinearMap.sub_comp]
    rw [h3]
    have h4 : ‖(fderiv ℂ H (v, s) - fderiv ℂ H (z, s)).comp (ContinuousLinearMap.inl ℂ V ℂ)‖ ≤
        ‖fderiv ℂ H (v, s) - fderiv ℂ H (z, s)‖ := by
      refine ContinuousLinearMap.opNorm_le_bound _ (norm_nonneg _) fun u => ?_
      rw [ContinuousLinearMap.comp_apply]
      refine (ContinuousLinearMap.le_opNorm _ _).trans ?_
      gcongr
      simp [Prod.norm_def]
    refine h4.trans ?_
    rw [dist_eq_norm, dist_eq_norm] at h1
    refine h1.trans ?_
    gcongr
    have h5 : (v, s) - (z, s) = (v - z, (0 : ℂ)) := by simp
    rw [h5, Prod.norm_def]
    simp only [norm_zero, norm_nonneg, sup_of_le_left]
    obtain ⟨α, β, ha, hb, hab, rfl⟩ := hv
    have : α • z + β • w - z = β • (w - z) := by
      rw [show α = 1 - β by linarith]
      simp only [sub_smul, one_smul, smul_sub]; abel
    rw [this, norm_smul, Real.norm_of_nonneg hb]
    have hb1 : β ≤ 1 := by linarith
    calc β * ‖w - z‖ ≤ 1 * ‖w - z‖ := by gcongr
      _ = _ := one_mul _

/-- One exact Newton step near a nonsingular solution squares the error, up to a constant. -/
theorem newton_local [CompleteSpace V] (H : V × ℂ → V) (a : V × ℂ) (hH : AnalyticAt ℂ H a)
    (hJ : IsUnit (jacV H a)) :
    ∃ ρ > 0, ∃ C, ∀ r r' : V × ℂ, dist r a < ρ → dist r' a < ρ → r.2 = r'.2 → H r' = 0 →
      ∀ d, jacV H r d = - H r → ‖r.1 + d - r'.1‖ ≤ C * ‖r.1 - r'.1‖ ^ 2 := by
  obtain ⟨ρ, h0, B, hB, h1⟩ := jac_bound H a hH hJ
  obtain ⟨ρ', h0', K, hK, h2⟩ := quad_bound H a hH
  refine ⟨min ρ ρ', lt_min h0 h0', B * K, ?_⟩
  rintro ⟨z, s⟩ ⟨w, s'⟩ hr hr' hss hz d hd
  dsimp only at hss hz hd ⊢
  subst hss
  have h3 := h2 z w s (hr.trans_le (min_le_right _ _)) (hr'.trans_le (min_le_right _ _))
  have h4 := h1 (z, s) (hr.trans_le (min_le_left _ _)) (z + d - w)
  refine h4.trans ?_
  have h5 : jacV H (z, s) (z + d - w) = H (w, s) - H (z, s) - jacV H (z, s) (w - z) := by
    rw [hz, show z + d - w = d - (w - z) by abel, map_sub, hd]; abel
  rw [h5, mul_assoc, norm_sub_rev z w]
  gcongr

/-- Near a nonsingular point the tangent direction is bounded. -/
theorem rhs_local [CompleteSpace V] (H : V × ℂ → V) (a : V × ℂ) (hH : AnalyticAt ℂ H a)
    (hJ : IsUnit (jacV H a)) :
    ∃ ρ > 0, ∃ B, ∀ r : V × ℂ, dist r a < ρ → ∀ k, jacV H r k = - jacT H r → ‖k‖ ≤ B := by
  obtain ⟨ρ, h0, B, hB, h1⟩ := jac_bound H a hH hJ
  have hTa : ContinuousAt (jacT H) a :=
    (((ContinuousLinearMap.apply ℂ V ((0, 1) : V × ℂ)).analyticAt _).comp hH.fderiv).continuousAt
  have hb : ∀ᶠ r in 𝓝 a, ‖jacT H r‖ < ‖jacT H a‖ + 1 := hTa.norm.eventually_lt_const (lt_add_one _)
  obtain ⟨ρ', h0', h2⟩ := Metric.eventually_nhds_iff.1 hb
  refine ⟨min ρ ρ', lt_min h0 h0', B * (‖jacT H a‖ + 1), fun r hr k hk => ?_⟩
  have h3 := h1 r (hr.trans_le (min_le_left _ _)) k
  rw [hk, norm_neg] at h3
  exact h3.trans (mul_le_mul_of_nonneg_left (h2 (hr.trans_le (min_le_right _ _))).le hB)

/-! ### The correction loop -/

/-- If every solve contracts towards `w` by one half and all steps are below tolerance, the loop
succeeds at the minimal number of iterations. -/
theorem newtonLoop_tight (a : NewtonArgs V ℝ) (hn : a.norm = norm) (hc : ∀ i d z, a.crit i d z = true)
    (h1 : 1 ≤ a.minIts) (h3 : a.minIts < 2 ^ 32) (w : V)
    (e : ℝ) (htol : 2 * e < a.tol)
    (hs : ∀ z, ‖z - w‖ ≤ e → ∃ d, a.solve z = some d ∧ ‖z + d - w‖ ≤ ‖z - w‖ / 2) :
    ∀ fuel ii z, ii < a.minIts → a.minIts ≤ ii + fuel → ‖z - w‖ ≤ e →
      ∃ p n, newtonLoop a fuel ii z = (.success, p, n) ∧ ‖p - w‖ ≤ ‖z - w‖ / 2 := by
  intro fuel
  induction fuel with
  | zero => intro ii z h4 h5; omega
  | succ fuel ih =>
    intro ii z h4 h5 hz
    obtain ⟨d, hd, hd2⟩ := hs z hz
    have hdn : ‖d‖ < a.tol := by
      have : ‖d‖ ≤ ‖z + d - w‖ + ‖z - w‖ := by
        have := norm_sub_le (z + d - w) (z - w)
        rwa [show z + d - w - (z - w) = d by abel] at this
      have h0 := norm_nonneg (z - w)
      linarith
    rw [newtonLoop, hd]
    dsimp only
    rw [uPred_of_pos h1 h3, hn]
    by_cases hm : a.minIts - 1 ≤ ii
    · rw [if_pos ⟨hdn, hm⟩]
      exact ⟨_, _, rfl, hd2⟩
    · rw [if_neg (by tauto), if_pos (hc _ _ _)]
      have h0 := norm_nonneg (z - w)
      obtain ⟨p, n, h6, h7⟩ := ih (ii + 1) (z + d) (by omega) (by omega) (by linarith)
      exact ⟨p, n, h6, by linarith⟩

end B2.Track
