import Verif.Cont.Count
import Verif.Cont.Limits
import Verif.Cont.TotalDeg

/-!
# What the number of paths to a solution means

Pure mathematics: the number of paths that lead to a solution is the number of solutions that every small perturbation
of the system, if its solutions there are nonsingular, has near it.
-/

namespace B2.Cont

open B2.Predict MvPolynomial Filter Topology Matrix Set

section
variable {n : ℕ} {F G E A B : Fin n → MvPolynomial (Fin (n + 1)) ℂ} {v : Fin (n + 1) → ℂ} {d : Fin n → ℕ}

theorem continuous_eval (p : MvPolynomial (Fin (n + 1)) ℂ) : Continuous fun x : Fin (n + 1) → ℂ => MvPolynomial.eval x p :=
  continuous_iff_continuousAt.2 fun x => (hasFDerivAt_eval p x).continuousAt

theorem continuous_cons : Continuous fun y : Fin n → ℂ => (Fin.cons 1 y : Fin (n + 1) → ℂ) := by
  refine continuous_pi fun j => ?_
  induction j using Fin.cases with
  | zero => simp only [Fin.cons_zero]; exact continuous_const
  | succ j => simp only [Fin.cons_succ]; exact continuous_apply j

theorem continuous_affine (F : Fin n → MvPolynomial (Fin (n + 1)) ℂ) : Continuous (affine F) :=
  continuous_pi fun i => (continuous_eval (F i)).comp continuous_cons

theorem analytic_affine (F : Fin n → MvPolynomial (Fin (n + 1)) ℂ) (y : Fin n → ℂ) : AnalyticAt ℂ (affine F) y := by
  rw [analyticAt_pi_iff]
  intro i
  refine AnalyticAt.comp' (g := fun x : Fin (n + 1) → ℂ => MvPolynomial.eval x (F i))
    (AnalyticOnNhd.eval_mvPolynomial (F i) _ trivial) ?_
  rw [analyticAt_pi_iff]
  intro j
  induction j using Fin.cases with
  | zero => simp only [Fin.cons_zero]; exact analyticAt_const
  | succ j =>
    simp only [Fin.cons_succ]
    exact (ContinuousLinearMap.proj (R := ℂ) (φ := fun _ : Fin n => ℂ) j).analyticAt y

/-- The family of functions `A + z B`. -/
noncomputable def family (A B : Fin n → MvPolynomial (Fin (n + 1)) ℂ) (q : (Fin n → ℂ) × ℂ) : Fin n → ℂ :=
  affine A q.1 + q.2 • affine B q.1

theorem family_analytic (q) : AnalyticAt ℂ (family A B) q := by
  have h1 : AnalyticAt ℂ (fun q : (Fin n → ℂ) × ℂ => affine A q.1) q :=
    AnalyticAt.comp' (analytic_affine A q.1) analyticAt_fst
  have h2 : AnalyticAt ℂ (fun q : (Fin n → ℂ) × ℂ => affine B q.1) q :=
    AnalyticAt.comp' (analytic_affine B q.1) analyticAt_fst
  exact h1.add (analyticAt_snd.smul h2)

theorem jacV_eq {V : Type} [NormedAddCommGroup V] [NormedSpace ℂ V] {H : V × ℂ → V} {x : V} {z : ℂ}
    (h : AnalyticAt ℂ H (x, z)) : jacV H (x, z) = fderiv ℂ (fun x => H (x, z)) x := by
  have h2 : HasFDerivAt H (fderiv ℂ H (x, z)) (x, z) := h.differentiableAt.hasFDerivAt
  have h3 : HasFDerivAt (fun x : V => (x, z)) (ContinuousLinearMap.inl ℂ V ℂ) x := hasFDerivAt_prodMk_left x z
  exact (h2.comp x h3).fderiv.symm

theorem fderiv_family (y u : Fin n → ℂ) (z : ℂ) (i : Fin n) : fderiv ℂ (fun y => family A B (y, z)) y u i =
    ∑ j : Fin n, (MvPolynomial.eval (Fin.cons 1 y) (pderiv j.succ (A i)) + z * MvPolynomial.eval (Fin.cons 1 y) (pderiv j.succ (B i))) * u j := by
  have h1 : HasFDerivAt (fun y => family A B (y, z)) (fderiv ℂ (affine A) y + z • fderiv ℂ (affine B) y) y := by
    have a := (analytic_affine A y).differentiableAt.hasFDerivAt
    have b := (analytic_affine B y).differentiableAt.hasFDerivAt
    exact a.add (b.const_smul z)
  rw [h1.fderiv]
  simp only [ContinuousLinearMap.add_apply, ContinuousLinearMap.smul_apply, Pi.add_apply, Pi.smul_apply, fderiv_affine,
    smul_eq_mul, Finset.mul_sum]
  rw [← Finset.sum_add_distrib]
  exact Finset.sum_congr rfl fun j _ => by ring

/-- A zero that is nonsingular on the patch is nonsingular as a solution of the affine functions. -/
theorem family_nonsingular (hA : ∀ i, (A i).IsHomogeneous (d i)) (hB : ∀ i, (B i).IsHomogeneous (d i)) {y : Fin n → ℂ}
    {z : ℂ} (hy : family A B (y, z) = 0) (hdet : (jacM B A v z (Fin.cons 1 y)).det ≠ 0) :
    IsUnit (jacV (family A B) (y, z)) := by
  have hx0 : (Fin.cons 1 y : Fin (n + 1) → ℂ) ≠ 0 := fun h => by simpa using congrFun h 0
  have hzero : ∀ i, MvPolynomial.eval (Fin.cons 1 y) (A i) + z * MvPolynomial.eval (Fin.cons 1 y) (B i) = 0 := fun i => by
    simpa [family, affine] using congrFun hy i
  have hv : v ⬝ᵥ (Fin.cons 1 y) ≠ 0 := dot_ne_zero hB hA hx0 hzero hdet
  rw [jacV_eq (family_analytic _)]
  have hinj : Function.Injective (fderiv ℂ (fun y => family A B (y, z)) y) := by
    rw [injective_iff_map_eq_zero]
    intro u hu
    set x : Fin (n + 1) → ℂ := Fin.cons 1 y with hx
    set w : Fin (n + 1) → ℂ := Fin.cons 0 u with hw
    set c := v ⬝ᵥ w / v ⬝ᵥ x with hc
    have hker : Matrix.mulVec (jacM B A v z x) (w - c • x) = 0 := by
      ext i
      induction i using Fin.lastCases with
      | last =>
        have : v ⬝ᵥ (w - c • x) = 0 := by
          rw [dotProduct_sub, dotProduct_smul, smul_eq_mul, hc, div_mul_cancel₀ _ hv, sub_self]
        simpa [Matrix.mulVec, jacM] using this
      | cast i =>
        have h1 : ∑ j, (MvPolynomial.eval x (pderiv j (A i)) + z * MvPolynomial.eval x (pderiv j (B i))) * w j = 0 := by
          have := congrFun hu i
          rw [fderiv_family] at this
          rw [Fin.sum_univ_succ]
          simpa [hw] using this
        have h2 : ∑ j, (MvPolynomial.eval x (pderiv j (A i)) + z * MvPolynomial.eval x (pderiv j (B i))) * x j = 0 := by
          have e1 := congrArg (MvPolynomial.eval x) (hA i).sum_X_mul_pderiv
          have e2 := congrArg (MvPolynomial.eval x) (hB i).sum_X_mul_pderiv
          simp only [map_sum, map_mul, eval_X, nsmul_eq_mul, map_natCast] at e1 e2
          have : ∑ j, (MvPolynomial.eval x (pderiv j (A i)) + z * MvPolynomial.eval x (pderiv j (B i))) * x j =
              (∑ j, x j * MvPolynomial.eval x (pderiv j (A i))) + z * ∑ j, x j * MvPolynomial.eval x (pderiv j (B i)) := by
            rw [Finset.mul_sum, ← Finset.sum_add_distrib]
            exact Finset.sum_congr rfl fun j _ => by ring
          rw [this, e1, e2]
          linear_combination (d i : ℂ) * hzero i
        simp only [Matrix.mulVec, jacM, dotProduct, Matrix.of_apply, Fin.lastCases_castSucc, Pi.zero_apply, Pi.sub_apply,
          Pi.smul_apply, smul_eq_mul]
        have : ∑ j, (MvPolynomial.eval x (pderiv j (A i)) + z * MvPolynomial.eval x (pderiv j (B i))) * (w j - c * x j) =
            (∑ j, (MvPolynomial.eval x (pderiv j (A i)) + z * MvPolynomial.eval x (pderiv j (B i))) * w j) -
              c * ∑ j, (MvPolynomial.eval x (pderiv j (A i)) + z * MvPolynomial.eval x (pderiv j (B i))) * x j := by
          rw [Finset.mul_sum, ← Finset.sum_sub_distrib]
          exact Finset.sum_congr rfl fun j _ => by ring
        rw [this, h1, h2]
        ring
    have hzv : w - c • x = 0 := by
      by_contra hne
      exact hdet (Matrix.exists_mulVec_eq_zero_iff.1 ⟨_, hne, hker⟩)
    have hc0 : c = 0 := by simpa [hw, hx] using congrFun hzv 0
    funext j
    have := congrFun hzv j.succ
    simpa [hw, hx, hc0] using this
  rw [ContinuousLinearMap.isUnit_iff_bijective]
  exact ⟨hinj, (LinearMap.injective_iff_surjective (f := (fderiv ℂ (fun y => family A B (y, z)) y).toLinearMap)).1 hinj⟩

/-- Near a system without zeros at infinity for the patch, there are none. -/
theorem no_infinity_near (hF : ∀ i, (F i).IsHomogeneous (d i)) (hG : ∀ i, (G i).IsHomogeneous (d i))
    (h : ∀ x, (∀ i, MvPolynomial.eval x (F i) = 0) → v ⬝ᵥ x = 0 → x = 0) :
    ∀ᶠ s in 𝓝 (0 : ℂ), ∀ x, x ≠ 0 → (∀ i, MvPolynomial.eval x (F i) + s * MvPolynomial.eval x (G i) = 0) → v ⬝ᵥ x ≠ 0 := by
  have key : ∀ᶠ s in 𝓝 (0 : ℂ), ∀ x ∈ Metric.sphere (0 : Fin (n + 1) → ℂ) 1,
      ¬ ((∀ i, MvPolynomial.eval x (F i) + s * MvPolynomial.eval x (G i) = 0) ∧ v ⬝ᵥ x = 0) := by
    refine IsCompact.eventually_forall_of_forall_eventually (isCompact_sphere _ _) fun x hx => ?_
    have hx0 : x ≠ 0 := by
      rintro rfl
      simp at hx
    by_cases hv : v ⬝ᵥ x = 0
    · obtain ⟨i, hi⟩ : ∃ i, MvPolynomial.eval x (F i) ≠ 0 := by
        by_contra hc
        push Not at hc
        exact hx0 (h x hc hv)
      have hc : ContinuousAt (fun q : ℂ × (Fin (n + 1) → ℂ) => MvPolynomial.eval q.2 (F i) + q.1 * MvPolynomial.eval q.2 (G i)) (0, x) := by
        have h1 := (continuous_eval (F i)).comp (continuous_snd (X := ℂ))
        have h2 := (continuous_eval (G i)).comp (continuous_snd (X := ℂ))
        exact (h1.add (continuous_fst.mul h2)).continuousAt
      filter_upwards [hc.eventually_ne (by simpa using hi)] with q hq hq0
      exact hq (hq0.1 i)
    · have hc : ContinuousAt (fun q : ℂ × (Fin (n + 1) → ℂ) => v ⬝ᵥ q.2) (0, x) := by
        simp only [dotProduct]
        fun_prop
      filter_upwards [hc.eventually_ne hv] with q hq hq0
      exact hq hq0.2
  filter_upwards [key] with s hs x hx hz hv
  refine hs ((‖x‖⁻¹ : ℂ) • x) ?_ ⟨fun i => ?_, ?_⟩
  · simp [norm_smul, norm_ne_zero_iff.2 hx]
  · rw [eval_smul_homogeneous (hF i), eval_smul_homogeneous (hG i)]
    linear_combination ((‖x‖⁻¹ : ℂ)) ^ d i * hz i
  · rw [dotProduct_smul, hv, smul_zero]

/-- The matrix at a multiple of a point has the same kernel. -/
theorem jacM_smul (hA : ∀ i, (A i).IsHomogeneous (d i)) (hB : ∀ i, (B i).IsHomogeneous (d i)) {z c : ℂ}
    {x : Fin (n + 1) → ℂ} (h : (jacM B A v z x).det = 0) : (jacM B A v z (c • x)).det = 0 := by
  obtain ⟨w, hw, hk⟩ := Matrix.exists_mulVec_eq_zero_iff.2 h
  refine Matrix.exists_mulVec_eq_zero_iff.1 ⟨w, hw, ?_⟩
  ext i
  have := congrFun hk i
  induction i using Fin.lastCases with
  | last => simpa [Matrix.mulVec, jacM] using this
  | cast i =>
    simp only [Matrix.mulVec, jacM, dotProduct, Matrix.of_apply, Fin.lastCases_castSucc, Pi.zero_apply] at this ⊢
    have e : ∀ j, (MvPolynomial.eval (c • x) (pderiv j (A i)) + z * MvPolynomial.eval (c • x) (pderiv j (B i))) * w j =
        c ^ (d i - 1) * ((MvPolynomial.eval x (pderiv j (A i)) + z * MvPolynomial.eval x (pderiv j (B i))) * w j) := fun j => by
      rw [eval_smul_homogeneous (hA i).pderiv, eval_smul_homogeneous (hB i).pderiv]
      ring
    rw [Finset.sum_congr rfl fun j _ => e j, ← Finset.mul_sum, this, mul_zero]

/-- The quotients by the first coordinate. -/
noncomputable def quot (x : Fin (n + 1) → ℂ) : Fin n → ℂ := fun j => x j.succ / x 0

theorem cons_quot {x : Fin (n + 1) → ℂ} (h : x 0 ≠ 0) : (Fin.cons 1 (quot x) : Fin (n + 1) → ℂ) = (x 0)⁻¹ • x := by
  funext j
  induction j using Fin.cases with
  | zero => simp [h]
  | succ j => simp [quot, div_eq_inv_mul]

theorem quot_smul_cons {c : ℂ} (h : c ≠ 0) (b : Fin n → ℂ) : quot (c • (Fin.cons 1 b : Fin (n + 1) → ℂ)) = b := by
  funext j
  simp [quot, h]

theorem family_quot (hA : ∀ i, (A i).IsHomogeneous (d i)) (hB : ∀ i, (B i).IsHomogeneous (d i)) {x : Fin (n + 1) → ℂ}
    {z : ℂ} (h0 : x 0 ≠ 0) (h : ∀ i, MvPolynomial.eval x (A i) + z * MvPolynomial.eval x (B i) = 0) :
    family A B (quot x, z) = 0 := by
  funext i
  simp only [family, affine, Pi.add_apply, Pi.smul_apply, smul_eq_mul, Pi.zero_apply]
  rw [cons_quot h0, eval_smul_homogeneous (hA i), eval_smul_homogeneous (hB i)]
  linear_combination (x 0)⁻¹ ^ d i * h i

theorem quot_inj {x x' : Fin (n + 1) → ℂ} (h0 : x 0 ≠ 0) (h0' : x' 0 ≠ 0) (h : v ⬝ᵥ x = 1) (h' : v ⬝ᵥ x' = 1)
    (he : quot x = quot x') : x = x' := by
  have e1 := cons_quot h0
  have e2 := cons_quot h0'
  rw [he, e2] at e1
  have e3 := congrArg (v ⬝ᵥ ·) e1
  simp only [dotProduct_smul, h, h', smul_eq_mul, mul_one] at e3
  rw [e3] at e1
  have hi : (x 0)⁻¹ ≠ 0 := inv_ne_zero h0
  exact (smul_right_injective _ hi e1).symm

variable {γ : ℂ}

/-- The zeros of the homotopy, time counted differently. -/
theorem line_zero' {t : ℝ} (ht : t < 1) {x : Fin (n + 1) → ℂ} : line F G v γ (x, (t : ℂ)) = 0 ↔
    (∀ i, MvPolynomial.eval x (F i) + γ * t / (1 - t) * MvPolynomial.eval x (G i) = 0) ∧ v ⬝ᵥ x = 1 := by
  have h1 : (1 - (t : ℂ)) ≠ 0 := by
    rw [sub_ne_zero]
    exact_mod_cast ht.ne'
  rw [line_zero]
  refine and_congr_left fun _ => forall_congr' fun i => ?_
  have : (1 - (t : ℂ)) * MvPolynomial.eval x (F i) + γ * t * MvPolynomial.eval x (G i) =
      (1 - (t : ℂ)) * (MvPolynomial.eval x (F i) + γ * t / (1 - t) * MvPolynomial.eval x (G i)) := by
    field_simp
  rw [this, mul_eq_zero, or_iff_right h1]

theorem time_tendsto (γ : ℂ) : Tendsto (fun t : ℝ => γ * (t : ℂ) / (1 - (t : ℂ))) (𝓝[>] 0) (𝓝 0) := by
  have : ContinuousAt (fun t : ℝ => γ * (t : ℂ) / (1 - (t : ℂ))) 0 := by
    refine ContinuousAt.div ?_ ?_ (by simp)
    · exact (continuous_const.mul Complex.continuous_ofReal).continuousAt
    · exact (continuous_const.sub Complex.continuous_ofReal).continuousAt
  have h := this.tendsto
  simp only [Complex.ofReal_zero, mul_zero, zero_div] at h
  exact h.mono_left nhdsWithin_le_nhds

open Classical in
/-- At small times the solutions near `a` are the paths that lead there. -/
theorem paths_near (hF : ∀ i, (F i).IsHomogeneous (d i)) (hG : ∀ i, (G i).IsHomogeneous (d i))
    (hinf : ∀ x, (∀ i, MvPolynomial.eval x (F i) = 0) → v ⬝ᵥ x = 0 → x = 0) {ι : Type} [Fintype ι]
    {y : ι → ℝ → Fin (n + 1) → ℂ} {l : ι → Fin (n + 1) → ℂ}
    (hzero : ∀ s : ℝ, s ∈ Ioc (0 : ℝ) 1 → ∀ i, line F G v γ (y i s, (s : ℂ)) = 0)
    (hinj : ∀ s : ℝ, s ∈ Ioc (0 : ℝ) 1 → ∀ i j, y i s = y j s → i = j)
    (hall : ∀ s : ℝ, s ∈ Ioc (0 : ℝ) 1 → ∀ x, line F G v γ (x, (s : ℂ)) = 0 → ∃ i, y i s = x)
    (hlim : ∀ i, Tendsto (y i) (𝓝[>] 0) (𝓝 (l i))) {a : Fin n → ℂ} {r : ℝ} (hr : 0 < r)
    (hiso : ∀ b ∈ Metric.closedBall a r, affine F b = 0 → b = a) :
    ∀ᶠ t : ℝ in 𝓝[>] 0, {b | b ∈ Metric.ball a r ∧ family F G (b, γ * t / (1 - t)) = 0}.ncard =
      (Finset.univ.filter fun i => l i 0 ≠ 0 ∧ quot (l i) = a).card := by
  have hio : ∀ᶠ s in 𝓝[>] (0 : ℝ), s ∈ Ioo (0 : ℝ) 1 := Ioo_mem_nhdsGT one_pos
  have hof : Tendsto (fun s : ℝ => (s : ℂ)) (𝓝[>] 0) (𝓝 0) := by
    have : Tendsto (fun s : ℝ => (s : ℂ)) (𝓝 0) (𝓝 ((0 : ℝ) : ℂ)) := Complex.continuous_ofReal.continuousAt
    rw [Complex.ofReal_zero] at this
    exact this.mono_left nhdsWithin_le_nhds
  have hline : Continuous (line F G v γ) := continuous_iff_continuousAt.2 fun q => (line_analytic q).continuousAt
  have hl : ∀ i, line F G v γ (l i, 0) = 0 := by
    intro i
    have h1 : Tendsto (fun s : ℝ => line F G v γ (y i s, (s : ℂ))) (𝓝[>] 0) (𝓝 (line F G v γ (l i, 0))) :=
      (hline.tendsto (l i, 0)).comp ((hlim i).prodMk_nhds hof)
    refine tendsto_nhds_unique h1 (tendsto_const_nhds.congr' ?_)
    filter_upwards [hio] with s hs
    exact (hzero s ⟨hs.1, hs.2.le⟩ i).symm
  have hqc : ∀ i, l i 0 ≠ 0 → Tendsto (fun s => quot (y i s)) (𝓝[>] 0) (𝓝 (quot (l i))) := by
    intro i h0
    rw [tendsto_pi_nhds]
    intro j
    have h1 : ∀ k, Tendsto (fun s => y i s k) (𝓝[>] 0) (𝓝 (l i k)) := fun k => (tendsto_pi_nhds.1 (hlim i)) k
    exact (h1 _).div (h1 _) h0
  obtain ⟨M, hM⟩ := (isCompact_closedBall a r).exists_bound_of_continuousOn
    (f := fun b : Fin n → ℂ => v ⬝ᵥ (Fin.cons 1 b : Fin (n + 1) → ℂ)) (by
      have h1 : Continuous fun x : Fin (n + 1) → ℂ => v ⬝ᵥ x := by
        simp only [dotProduct]
        fun_prop
      exact (h1.comp continuous_cons).continuousOn)
  have c1 : ∀ i, ∀ᶠ s in 𝓝[>] (0 : ℝ), l i 0 ≠ 0 ∧ quot (l i) = a → y i s 0 ≠ 0 ∧ quot (y i s) ∈ Metric.ball a r := by
    intro i
    by_cases hi : l i 0 ≠ 0 ∧ quot (l i) = a
    · have e1 : ∀ᶠ s in 𝓝[>] (0 : ℝ), y i s 0 ≠ 0 := ((tendsto_pi_nhds.1 (hlim i)) 0).eventually_ne hi.1
      have e2 : ∀ᶠ s in 𝓝[>] (0 : ℝ), quot (y i s) ∈ Metric.ball a r :=
        (hqc i hi.1).eventually (by rw [hi.2]; exact Metric.ball_mem_nhds a hr)
      filter_upwards [e1, e2] with s h1 h2 _
      exact ⟨h1, h2⟩
    · exact Eventually.of_forall fun s h => absurd h hi
  have c2 : ∀ i, ∀ᶠ s in 𝓝[>] (0 : ℝ), ¬ (l i 0 ≠ 0 ∧ quot (l i) = a) → l i 0 ≠ 0 →
      quot (y i s) ∉ Metric.closedBall a r := by
    intro i
    by_cases h0 : l i 0 ≠ 0
    · by_cases hi : quot (l i) = a
      · exact Eventually.of_forall fun s h => absurd ⟨h0, hi⟩ h
      · have hne : quot (l i) ∉ Metric.closedBall a r := by
          intro hm
          refine hi (hiso _ hm ?_)
          have := family_quot hF hF (z := 0) h0 (fun j => by
            have := (line_zero.1 (hl i)).1 j
            simpa using this)
          simpa [family] using this
        filter_upwards [(hqc i h0).eventually (Metric.isClosed_closedBall.isOpen_compl.mem_nhds hne)] with s hs _ _
        exact hs
    · exact Eventually.of_forall fun s _ h => absurd h h0
  have c3 : ∀ i, ∀ᶠ s in 𝓝[>] (0 : ℝ), l i 0 = 0 → ‖y i s 0‖ * M < 1 := by
    intro i
    by_cases h0 : l i 0 = 0
    · have h1 : Tendsto (fun s => ‖y i s 0‖ * M) (𝓝[>] 0) (𝓝 (‖l i 0‖ * M)) :=
        (((tendsto_pi_nhds.1 (hlim i)) 0).norm).mul_const M
      rw [h0, norm_zero, zero_mul] at h1
      filter_upwards [h1.eventually_lt_const one_pos] with s hs _
      exact hs
    · exact Eventually.of_forall fun s h => absurd h h0
  filter_upwards [hio, eventually_all.2 c1, eventually_all.2 c2, eventually_all.2 c3,
    (time_tendsto γ).eventually (no_infinity_near hF hG hinf)] with t ht k1 k2 k3 k4
  have hts : t ∈ Ioc (0 : ℝ) 1 := ⟨ht.1, ht.2.le⟩
  have himg : {b | b ∈ Metric.ball a r ∧ family F G (b, γ * t / (1 - t)) = 0} =
      (fun i => quot (y i t)) '' ((Finset.univ.filter fun i => l i 0 ≠ 0 ∧ quot (l i) = a : Finset ι) : Set ι) := by
    ext b
    constructor
    · rintro ⟨hb, hb0⟩
      have hbz : ∀ i, MvPolynomial.eval (Fin.cons 1 b) (F i) + γ * t / (1 - t) * MvPolynomial.eval (Fin.cons 1 b) (G i) = 0 :=
        fun i => by simpa [family, affine] using congrFun hb0 i
      have hne : (Fin.cons 1 b : Fin (n + 1) → ℂ) ≠ 0 := fun h => by simpa using congrFun h 0
      have hv := k4 _ hne hbz
      set c := v ⬝ᵥ (Fin.cons 1 b : Fin (n + 1) → ℂ) with hc
      have hci : c⁻¹ ≠ 0 := inv_ne_zero hv
      obtain ⟨i, hi⟩ := hall t hts (c⁻¹ • (Fin.cons 1 b : Fin (n + 1) → ℂ)) ((line_zero' ht.2).2 ⟨fun i => by
        rw [eval_smul_homogeneous (hF i), eval_smul_homogeneous (hG i)]
        linear_combination c⁻¹ ^ d i * hbz i, by
        rw [dotProduct_smul, ← hc, smul_eq_mul, inv_mul_cancel₀ hv]⟩)
      have hq : quot (y i t) = b := by rw [hi, quot_smul_cons hci]
      have hP : l i 0 ≠ 0 ∧ quot (l i) = a := by
        by_contra hP
        by_cases h0 : l i 0 = 0
        · have h1 := k3 i h0
          have h2 : ‖y i t 0‖ = ‖c‖⁻¹ := by rw [hi]; simp
          have h3 := hM b (Metric.ball_subset_closedBall hb)
          rw [h2] at h1
          have h4 : 0 < ‖c‖ := norm_pos_iff.2 hv
          have h5 : ‖c‖⁻¹ * ‖c‖ ≤ ‖c‖⁻¹ * M := mul_le_mul_of_nonneg_left h3 (inv_nonneg.2 h4.le)
          rw [inv_mul_cancel₀ h4.ne'] at h5
          linarith
        · exact k2 i hP h0 (by rw [hq]; exact Metric.ball_subset_closedBall hb)
      exact ⟨i, by simpa using hP, hq⟩
    · rintro ⟨i, hi, rfl⟩
      have hi : l i 0 ≠ 0 ∧ quot (l i) = a := by simpa using hi
      refine ⟨(k1 i hi).2, family_quot hF hG (k1 i hi).1 ?_⟩
      exact ((line_zero' ht.2).1 (hzero t hts i)).1
  rw [himg, ncard_image_of_injOn, ncard_coe_finset]
  intro i hi j hj he
  have hi : l i 0 ≠ 0 ∧ quot (l i) = a := by simpa using hi
  have hj : l j 0 ≠ 0 ∧ quot (l j) = a := by simpa using hj
  exact hinj t hts i j (quot_inj (k1 i hi).1 (k1 j hj).1 ((line_zero' ht.2).1 (hzero t hts i)).2
    ((line_zero' ht.2).1 (hzero t hts j)).2 he)

/-- The system at a small positive time is regular. -/
theorem base_regular (hF : ∀ i, (F i).IsHomogeneous (d i)) (hG : ∀ i, (G i).IsHomogeneous (d i))
    (hns : ∀ s : ℝ, s ∈ Ioc (0 : ℝ) 1 → ∀ x, line F G v γ (x, (s : ℂ)) = 0 → IsUnit (jacV (line F G v γ) (x, (s : ℂ))))
    {t : ℝ} (ht : t ∈ Ioo (0 : ℝ) 1)
    (hnoinf : ∀ x, x ≠ 0 → (∀ i, MvPolynomial.eval x (F i) + γ * t / (1 - t) * MvPolynomial.eval x (G i) = 0) → v ⬝ᵥ x ≠ 0)
    (hB : ∀ i, (B i).IsHomogeneous (d i)) (x : Fin (n + 1) → ℂ) (hx : x ≠ 0)
    (hz : ∀ i, MvPolynomial.eval x (F i + C (γ * t / (1 - t)) * G i) = 0) :
    (jacM B (fun i => F i + C (γ * t / (1 - t)) * G i) v 0 x).det ≠ 0 := by
  have hts : t ∈ Ioc (0 : ℝ) 1 := ⟨ht.1, ht.2.le⟩
  have h1t : (1 - (t : ℂ)) ≠ 0 := by
    rw [sub_ne_zero]
    exact_mod_cast ht.2.ne'
  set s : ℂ := γ * t / (1 - t) with hsdef
  set A : Fin n → MvPolynomial (Fin (n + 1)) ℂ := fun i => F i + C s * G i with hAdef
  have hA : ∀ i, (A i).IsHomogeneous (d i) := fun i => (hF i).add ((hG i).C_mul s)
  intro hdet
  have hz' : ∀ i, MvPolynomial.eval x (F i) + s * MvPolynomial.eval x (G i) = 0 := fun i => by
    have := hz i
    simpa using this
  have hv := hnoinf x hx hz'
  set c := v ⬝ᵥ x with hc
  have hl : line F G v γ (c⁻¹ • x, (t : ℂ)) = 0 := (line_zero' ht.2).2 ⟨fun i => by
    rw [eval_smul_homogeneous (hF i), eval_smul_homogeneous (hG i)]
    linear_combination c⁻¹ ^ d i * hz' i, by
    rw [dotProduct_smul, ← hc, smul_eq_mul, inv_mul_cancel₀ hv]⟩
  have hu := isUnit_jacV_line.1 (hns t hts _ hl)
  obtain ⟨w, hw, hk⟩ := Matrix.exists_mulVec_eq_zero_iff.2 (jacM_smul (c := c⁻¹) hA hB hdet)
  refine hu (Matrix.exists_mulVec_eq_zero_iff.1 ⟨w, hw, ?_⟩)
  ext i
  have := congrFun hk i
  induction i using Fin.lastCases with
  | last => simpa [Matrix.mulVec, jacM, lineM] using this
  | cast i =>
    simp only [Matrix.mulVec, jacM, lineM, dotProduct, Matrix.of_apply, Fin.lastCases_castSucc, Pi.zero_apply] at this ⊢
    have e : ∀ j, ((1 - (t : ℂ)) * MvPolynomial.eval (c⁻¹ • x) (pderiv j (F i)) +
        γ * t * MvPolynomial.eval (c⁻¹ • x) (pderiv j (G i))) * w j = (1 - (t : ℂ)) *
        ((MvPolynomial.eval (c⁻¹ • x) (pderiv j (A i)) + 0 * MvPolynomial.eval (c⁻¹ • x) (pderiv j (B i))) * w j) := fun j => by
      simp only [hAdef, map_add, pderiv_C_mul, map_mul, eval_C, hsdef]
      field_simp
      ring
    rw [Finset.sum_congr rfl fun j _ => e j, ← Finset.mul_sum, this, mul_zero]

/-- Perturbed by the start system, the target is nonsingular for all but finitely many sizes of the perturbation. -/
theorem regular_perturbation (hF : ∀ i, (F i).IsHomogeneous (d i)) (hG : ∀ i, (G i).IsHomogeneous (d i))
    (hinf : ∀ x, (∀ i, MvPolynomial.eval x (F i) = 0) → v ⬝ᵥ x = 0 → x = 0)
    (hns : ∀ s : ℝ, s ∈ Ioc (0 : ℝ) 1 → ∀ x, line F G v γ (x, (s : ℂ)) = 0 → IsUnit (jacV (line F G v γ) (x, (s : ℂ)))) :
    {ε : ℂ | ∃ b, family F G (b, ε) = 0 ∧ ¬ IsUnit (fderiv ℂ (fun b => family F G (b, ε)) b)}.Finite := by
  have hio : ∀ᶠ s in 𝓝[>] (0 : ℝ), s ∈ Ioo (0 : ℝ) 1 := Ioo_mem_nhdsGT one_pos
  obtain ⟨t, ht, hnoinf⟩ := (hio.and ((time_tendsto γ).eventually (no_infinity_near hF hG hinf))).exists
  set s : ℂ := γ * t / (1 - t) with hsdef
  let A : Fin n → MvPolynomial (Fin (n + 1)) ℂ := fun i => F i + C s * G i
  have hA : ∀ i, (A i).IsHomogeneous (d i) := fun i => (hF i).add ((hG i).C_mul s)
  have hbad := bad_finite hG hA (base_regular hF hG hns ht hnoinf hG)
  refine (hbad.image (· + s)).subset ?_
  rintro ε ⟨b, hb0, hb⟩
  have hfam : ∀ b, family A G (b, ε - s) = family F G (b, ε) := by
    intro b
    funext i
    simp only [family, affine, A, map_add, map_mul, eval_C, Pi.add_apply, Pi.smul_apply, smul_eq_mul]
    ring
  refine ⟨ε - s, ⟨Fin.cons 1 b, fun h => by simpa using congrFun h 0, fun i => ?_, ?_⟩, by simp⟩
  · have := congrFun ((hfam b).trans hb0) i
    simpa [family, affine] using this
  · by_contra hdet
    have h1 := family_nonsingular (v := v) hA hG ((hfam b).trans hb0) hdet
    rw [jacV_eq (family_analytic _)] at h1
    simp only [hfam] at h1
    exact hb h1

/-! ### Polynomials of bounded degree as homogeneous polynomials -/

/-- A polynomial made homogeneous of degree `e`. -/
noncomputable def homForm (e : ℕ) (p : MvPolynomial (Fin n) ℂ) : MvPolynomial (Fin (n + 1)) ℂ :=
  ∑ k ∈ Finset.range (e + 1), X 0 ^ (e - k) * rename Fin.succ (homogeneousComponent k p)

theorem homForm_homogeneous (e : ℕ) (p : MvPolynomial (Fin n) ℂ) : (homForm e p).IsHomogeneous e := by
  refine IsHomogeneous.sum _ _ _ fun k hk => ?_
  have h1 : ((X 0 : MvPolynomial (Fin (n + 1)) ℂ) ^ (e - k)).IsHomogeneous (e - k) := isHomogeneous_X_pow 0 (e - k)
  have h2 := (homogeneousComponent_isHomogeneous k p).rename_isHomogeneous (f := Fin.succ)
  have := h1.mul h2
  rwa [Nat.sub_add_cancel (by simpa [Nat.lt_succ_iff] using hk)] at this

theorem eval_homForm {e : ℕ} {p : MvPolynomial (Fin n) ℂ} (h : p.totalDegree ≤ e) (y : Fin n → ℂ) :
    MvPolynomial.eval (Fin.cons 1 y) (homForm e p) = MvPolynomial.eval y p := by
  have h1 : ∀ k, MvPolynomial.eval (Fin.cons 1 y : Fin (n + 1) → ℂ)
      (X 0 ^ (e - k) * rename Fin.succ (homogeneousComponent k p)) = MvPolynomial.eval y (homogeneousComponent k p) := by
    intro k
    rw [map_mul, map_pow, eval_X, Fin.cons_zero, one_pow, one_mul, eval_rename]
    rfl
  unfold homForm
  rw [map_sum, Finset.sum_congr rfl fun k _ => h1 k]
  conv_rhs => rw [← sum_homogeneousComponent p, map_sum]
  symm
  refine Finset.sum_subset (fun k hk => ?_) fun k _ hk => ?_
  · simp only [Finset.mem_range] at hk ⊢
    omega
  · rw [homogeneousComponent_eq_zero, map_zero]
    simp only [Finset.mem_range] at hk
    omega

/-- The polynomial of the affine function. -/
noncomputable def affPoly (p : MvPolynomial (Fin (n + 1)) ℂ) : MvPolynomial (Fin n) ℂ :=
  aeval (Fin.cons 1 fun j => X j : Fin (n + 1) → MvPolynomial (Fin n) ℂ) p

theorem eval_affPoly (p : MvPolynomial (Fin (n + 1)) ℂ) (y : Fin n → ℂ) :
    MvPolynomial.eval y (affPoly p) = MvPolynomial.eval (Fin.cons 1 y) p := by
  have : (MvPolynomial.eval y).comp (aeval (Fin.cons 1 fun j => X j : Fin (n + 1) → MvPolynomial (Fin n) ℂ)).toRingHom =
      MvPolynomial.eval (Fin.cons 1 y : Fin (n + 1) → ℂ) := by
    apply MvPolynomial.ringHom_ext
    · intro c
      simp
    · intro j
      induction j using Fin.cases with
      | zero => simp
      | succ j => simp
  exact congrFun (congrArg DFunLike.coe this) p

theorem totalDegree_affPoly {p : MvPolynomial (Fin (n + 1)) ℂ} {e : ℕ} (h : p.IsHomogeneous e) :
    (affPoly p).totalDegree ≤ e := by
  unfold affPoly
  rw [aeval_def, eval₂_eq']
  refine (totalDegree_finsetSum_le fun m hm => ?_)
  have he : ∑ i, m i = e := by
    have := h (mem_support_iff.1 hm)
    simpa [Finsupp.weight_apply, Finsupp.sum_fintype] using this
  refine (totalDegree_mul _ _).trans ?_
  rw [show algebraMap ℂ (MvPolynomial (Fin n) ℂ) (coeff m p) = C (coeff m p) from rfl, totalDegree_C, zero_add]
  refine (totalDegree_finsetProd _ _).trans ?_
  rw [← he]
  refine Finset.sum_le_sum fun j _ => (totalDegree_pow _ _).trans ?_
  induction j using Fin.cases with
  | zero => simp
  | succ j => simp [totalDegree_X]

open Classical in
/-- **The number of paths to a solution is the number of solutions of a perturbed system near it.** -/
theorem perturbed_count (hF : ∀ i, (F i).IsHomogeneous (d i)) (hG : ∀ i, (G i).IsHomogeneous (d i))
    (hinf : ∀ x, (∀ i, MvPolynomial.eval x (F i) = 0) → v ⬝ᵥ x = 0 → x = 0) {ι : Type} [Fintype ι]
    {y : ι → ℝ → Fin (n + 1) → ℂ} {l : ι → Fin (n + 1) → ℂ}
    (hns : ∀ s : ℝ, s ∈ Ioc (0 : ℝ) 1 → ∀ x, line F G v γ (x, (s : ℂ)) = 0 → IsUnit (jacV (line F G v γ) (x, (s : ℂ))))
    (hzero : ∀ s : ℝ, s ∈ Ioc (0 : ℝ) 1 → ∀ i, line F G v γ (y i s, (s : ℂ)) = 0)
    (hinj : ∀ s : ℝ, s ∈ Ioc (0 : ℝ) 1 → ∀ i j, y i s = y j s → i = j)
    (hall : ∀ s : ℝ, s ∈ Ioc (0 : ℝ) 1 → ∀ x, line F G v γ (x, (s : ℂ)) = 0 → ∃ i, y i s = x)
    (hlim : ∀ i, Tendsto (y i) (𝓝[>] 0) (𝓝 (l i))) {a : Fin n → ℂ} {r : ℝ} (hr : 0 < r)
    (hiso : ∀ b ∈ Metric.closedBall a r, affine F b = 0 → b = a) (hE : ∀ i, (E i).IsHomogeneous (d i)) :
    ∀ᶠ ε in 𝓝 (0 : ℂ), (∀ b ∈ Metric.ball a r, family F E (b, ε) = 0 → IsUnit (fderiv ℂ (fun b => family F E (b, ε)) b)) →
      {b | b ∈ Metric.ball a r ∧ family F E (b, ε) = 0}.Finite ∧
      {b | b ∈ Metric.ball a r ∧ family F E (b, ε) = 0}.ncard =
        (Finset.univ.filter fun i => l i 0 ≠ 0 ∧ quot (l i) = a).card := by
  -- no zeros on the sphere
  have hsph : ∀ᶠ q : ℂ × ℂ in 𝓝 0, ∀ p ∈ Metric.sphere a r ×ˢ Metric.closedBall (0 : ℂ) 2,
      affine F p.1 + ((1 - p.2) * q.2) • affine G p.1 + (p.2 * q.1) • affine E p.1 ≠ 0 := by
    refine IsCompact.eventually_forall_of_forall_eventually
      ((isCompact_sphere _ _).prod (isCompact_closedBall _ _)) fun p hp => ?_
    have hc : Continuous fun w : (ℂ × ℂ) × ((Fin n → ℂ) × ℂ) =>
        affine F w.2.1 + ((1 - w.2.2) * w.1.2) • affine G w.2.1 + (w.2.2 * w.1.1) • affine E w.2.1 := by
      have h1 := (continuous_affine F).comp (continuous_fst.comp (continuous_snd (X := ℂ × ℂ) (Y := (Fin n → ℂ) × ℂ)))
      have h2 := (continuous_affine G).comp (continuous_fst.comp (continuous_snd (X := ℂ × ℂ) (Y := (Fin n → ℂ) × ℂ)))
      have h3 := (continuous_affine E).comp (continuous_fst.comp (continuous_snd (X := ℂ × ℂ) (Y := (Fin n → ℂ) × ℂ)))
      have h4 : Continuous fun w : (ℂ × ℂ) × ((Fin n → ℂ) × ℂ) => (1 - w.2.2) * w.1.2 := by fun_prop
      have h5 : Continuous fun w : (ℂ × ℂ) × ((Fin n → ℂ) × ℂ) => w.2.2 * w.1.1 := by fun_prop
      exact (h1.add (h4.smul h2)).add (h5.smul h3)
    refine hc.continuousAt.eventually_ne ?_
    simp only [Prod.fst_zero, Prod.snd_zero, mul_zero, zero_smul, add_zero]
    intro h0
    have h1 := hiso p.1 (Metric.sphere_subset_closedBall hp.1) h0
    have h2 : dist p.1 a = r := hp.1
    rw [h1, dist_self] at h2
    exact hr.ne h2
  have hsph' := (show 𝓝 (0 : ℂ × ℂ) = 𝓝 0 ×ˢ 𝓝 0 from nhds_prod_eq) ▸ hsph
  filter_upwards [hsph'.curry] with ε hε hreg
  have hio : ∀ᶠ s in 𝓝[>] (0 : ℝ), s ∈ Ioo (0 : ℝ) 1 := Ioo_mem_nhdsGT one_pos
  obtain ⟨t, ht, hcount, hnoinf, hs⟩ := (hio.and ((paths_near hF hG hinf hzero hinj hall hlim hr hiso).and
    (((time_tendsto γ).eventually (no_infinity_near hF hG hinf)).and ((time_tendsto γ).eventually hε)))).exists
  have hts : t ∈ Ioc (0 : ℝ) 1 := ⟨ht.1, ht.2.le⟩
  set s : ℂ := γ * t / (1 - t) with hsdef
  have h1t : (1 - (t : ℂ)) ≠ 0 := by
    rw [sub_ne_zero]
    exact_mod_cast ht.2.ne'
  let A : Fin n → MvPolynomial (Fin (n + 1)) ℂ := fun i => F i + C s * G i
  let B : Fin n → MvPolynomial (Fin (n + 1)) ℂ := fun i => C ε * E i - C s * G i
  have hA : ∀ i, (A i).IsHomogeneous (d i) := fun i => (hF i).add ((hG i).C_mul s)
  have hB : ∀ i, (B i).IsHomogeneous (d i) := fun i => ((hE i).C_mul ε).sub ((hG i).C_mul s)
  have hfam : ∀ b z, family A B (b, z) = affine F b + ((1 - z) * s) • affine G b + (z * ε) • affine E b := by
    intro b z
    funext i
    simp only [family, affine, A, B, map_add, map_sub, map_mul, eval_C, Pi.add_apply, Pi.smul_apply, smul_eq_mul]
    ring
  have hbase : ∀ x, x ≠ 0 → (∀ i, MvPolynomial.eval x (A i) = 0) → (jacM B A v 0 x).det ≠ 0 :=
    base_regular hF hG hns ht hnoinf hB
  have hbad := bad_finite hB hA hbase
  set bad := {u : ℂ | ∃ x, x ≠ 0 ∧ (∀ i, MvPolynomial.eval x (A i) + u * MvPolynomial.eval x (B i) = 0) ∧
    (jacM B A v u x).det = 0} with hbaddef
  let N : ℂ → ℕ := fun z => {b | b ∈ Metric.ball a r ∧ family A B (b, z) = 0}.ncard
  have hin : ∀ z ∈ Metric.ball (0 : ℂ) 2, ∀ b ∈ Metric.closedBall a r, family A B (b, z) = 0 → b ∈ Metric.ball a r := by
    intro z hz b hb h0
    by_contra hnb
    have hsp : b ∈ Metric.sphere a r := le_antisymm (Metric.mem_closedBall.1 hb) (not_lt.1 hnb)
    refine hs (b, z) ⟨hsp, Metric.ball_subset_closedBall hz⟩ ?_
    rw [hfam] at h0
    exact h0
  have hone : ∀ b, family A B (b, 1) = family F E (b, ε) := by
    intro b
    rw [hfam]
    simp [family]
  have hnsz : ∀ z ∈ Metric.ball (0 : ℂ) 2, z ∉ bad \ {1} → ∀ b ∈ Metric.ball a r, family A B (b, z) = 0 →
      IsUnit (jacV (family A B) (b, z)) := by
    intro z hz hzb b hb h0
    by_cases h1 : z = 1
    · subst h1
      rw [jacV_eq (family_analytic _)]
      have : (fun b => family A B (b, 1)) = fun b => family F E (b, ε) := funext hone
      rw [this]
      exact hreg b hb (by rw [← hone]; exact h0)
    · refine family_nonsingular (v := v) hA hB h0 fun hdet => hzb ⟨⟨Fin.cons 1 b, ?_, fun i => ?_, hdet⟩, h1⟩
      · exact fun h => by simpa using congrFun h 0
      · simpa [family, affine] using congrFun h0 i
  have hloc : ∀ z ∈ Metric.ball (0 : ℂ) 2, z ∉ bad \ {1} → {b | b ∈ Metric.ball a r ∧ family A B (b, z) = 0}.Finite ∧
      ∀ᶠ z' in 𝓝 z, N z' = N z := fun z hz hzb =>
    count_const (fun q => family_analytic q) Metric.isOpen_ball (isCompact_closedBall a r) Metric.ball_subset_closedBall
      (hin z hz) (hnsz z hz hzb)
  have m1 : (1 : ℂ) ∈ Metric.ball (0 : ℂ) 2 := by simp
  have m0 : (0 : ℂ) ∈ Metric.ball (0 : ℂ) 2 := by simp
  have b1 : (1 : ℂ) ∉ bad \ {1} := fun h => h.2 rfl
  have b0 : (0 : ℂ) ∉ bad \ {1} := by
    rintro ⟨⟨x, hx, hz, hdet⟩, -⟩
    exact hbase x hx (fun i => by simpa using hz i) hdet
  have hN : N 1 = N 0 := const_on_disk (hbad.subset diff_subset) two_pos (fun z hz hzb => (hloc z hz hzb).2) m1 b1 m0 b0
  have hset1 : {b | b ∈ Metric.ball a r ∧ family A B (b, 1) = 0} = {b | b ∈ Metric.ball a r ∧ family F E (b, ε) = 0} := by
    simp only [hone]
  have hset0 : {b | b ∈ Metric.ball a r ∧ family A B (b, 0) = 0} = {b | b ∈ Metric.ball a r ∧ family F G (b, s) = 0} := by
    have : ∀ b, family A B (b, 0) = family F G (b, s) := by
      intro b
      rw [hfam]
      simp [family]
    simp only [this]
  refine ⟨hset1 ▸ (hloc 1 m1 b1).1, ?_⟩
  rw [← hset1, ← hcount, ← hset0]
  exact hN

end

end B2.Cont
