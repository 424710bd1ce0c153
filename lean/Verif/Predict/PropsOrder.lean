/-
C83: the local error of a predictor step, for nonlinear problems.
-/
import Verif.Predict.TreeConds
import Mathlib.Analysis.Calculus.Deriv.Comp
import Mathlib.Analysis.Calculus.FDeriv.Analytic
import Mathlib.Analysis.SpecialFunctions.ExpDeriv

namespace B2.Predict
open Finset Asymptotics Filter Topology

section General
variable {𝕜 E : Type*} [RCLike 𝕜] [NormedAddCommGroup E] [NormedSpace 𝕜 E]

/-- The stages for a total autonomous right-hand side. -/
noncomputable def stg (A : ℕ → ℕ → 𝕜) (G : E → E) (X : E) (h : 𝕜) (i : ℕ) : E :=
  G (X + h • ∑ j : Fin i, A i j • stg A G X h j)
termination_by i
decreasing_by exact j.isLt

theorem stg_eq (A : ℕ → ℕ → 𝕜) (G : E → E) (X : E) (h : 𝕜) (i : ℕ) :
    stg A G X h i = G (X + h • ∑ j ∈ range i, A i j • stg A G X h j) := by
  rw [stg, Finset.sum_range]

theorem stg_arg_tendsto (A : ℕ → ℕ → 𝕜) {G : E → E} {X : E} (hG : ContinuousAt G X) (i : ℕ) :
    Tendsto (fun h => X + h • ∑ j ∈ range i, A i j • stg A G X h j) (𝓝 0) (𝓝 X) := by
  induction i using Nat.strong_induction_on with
  | _ i ih =>
    have h1 : Tendsto (fun h : 𝕜 => ∑ j ∈ range i, A i j • stg A G X h j) (𝓝 0)
        (𝓝 (∑ j ∈ range i, A i j • G X)) := by
      refine tendsto_finsetSum _ fun j hj => Tendsto.const_smul ?_ _
      simp only [stg_eq A G X _ j]
      exact hG.tendsto.comp (ih j (mem_range.1 hj))
    have h2 := (tendsto_id (α := 𝕜) (x := 𝓝 0)).smul h1
    have h3 := (tendsto_const_nhds (x := X)).add h2
    simpa using h3

theorem stg_isBigO (A : ℕ → ℕ → 𝕜) {G : E → E} {X : E} (hG : ContinuousAt G X) (i : ℕ) :
    (fun h => stg A G X h i) =O[𝓝 0] fun _ => (1 : 𝕜) := by
  have : Tendsto (fun h => stg A G X h i) (𝓝 0) (𝓝 (G X)) := by
    simp only [stg_eq A G X _ i]
    exact hG.tendsto.comp (stg_arg_tendsto A hG i)
  exact this.isBigO_one 𝕜

theorem cast_stageW (s : ℕ) (A : ℕ → ℕ → ℚ) (τ : PTree) :
    ∀ i, stageW s (fun i j => (A i j : 𝕜)) τ i = ((stageW s A τ i : ℚ) : 𝕜) := by
  induction τ with
  | node m c ih =>
    intro i
    simp only [stageW]
    push_cast
    refine prod_congr rfl fun k _ => sum_congr rfl fun j _ => ?_
    rw [ih k j]

theorem low_sum {F : Type*} [AddCommMonoid F] [Module 𝕜 F] (T : Table) (i : ℕ) (hi : i < T.s)
    (u : ℕ → F) :
    ∑ j ∈ range T.s, ((T.low i j : ℚ) : 𝕜) • u j = ∑ j ∈ range i, ((T.a i j : ℚ) : 𝕜) • u j := by
  rw [← sum_subset (range_subset_range.2 hi.le)]
  · refine sum_congr rfl fun j hj => ?_
    rw [Table.low, if_pos (mem_range.1 hj)]
  · intro j _ hj
    rw [Table.low, if_neg (by simpa using hj)]
    simp

/-- The autonomous case. -/
theorem order_auto {T : Table} {p q : ℕ} (hT : tconds T p q) {G : E → E} {X : E}
    (hG : AnalyticAt 𝕜 G X) (Y : 𝕜 → E) (hY0 : Y 0 = X)
    (hY : ∀ᶠ h in 𝓝 (0 : 𝕜), HasDerivAt Y (G (Y h)) h) :
    (fun h => X + h • ∑ i ∈ range T.s, ((T.b i : ℚ) : 𝕜) •
        stg (fun i j => ((T.low i j : ℚ) : 𝕜)) G X h i - Y h) =O[𝓝 0] (fun h : 𝕜 => h ^ (p + 1)) ∧
    (fun h => h • ∑ i ∈ range T.s, ((T.d i : ℚ) : 𝕜) •
        stg (fun i j => ((T.low i j : ℚ) : 𝕜)) G X h i) =O[𝓝 0] fun h : 𝕜 => h ^ (q + 1) := by
  obtain ⟨hb, hd⟩ := tree_conds hT
  obtain ⟨P, hP⟩ := hG
  set A : ℕ → ℕ → 𝕜 := fun i j => ((T.low i j : ℚ) : 𝕜) with hA
  have hcont : ContinuousAt G X := hP.continuousAt
  have hS : ∀ i < T.s, ∀ᶠ h in 𝓝 (0 : 𝕜),
      stg A G X h i = G (X + h • ∑ j ∈ range T.s, A i j • stg A G X h j) := by
    intro i hi
    refine Eventually.of_forall fun h => ?_
    rw [stg_eq, low_sum T i hi]
    congr 3
    refine sum_congr rfl fun j hj => ?_
    simp only [hA, Table.low, if_pos (mem_range.1 hj)]
  have hB : ∀ i < T.s, (fun h => stg A G X h i) =O[𝓝 0] fun _ => (1 : 𝕜) :=
    fun i _ => stg_isBigO A hcont i
  have hres := fun (w : ℕ → 𝕜) (n : ℕ) =>
    result_series hP T.s A w (fun i h => stg A G X h i) hS hB n
  constructor
  · have h1 := hres (fun i => ((T.b i : ℚ) : 𝕜)) p
    have h2 := exact_series hP Y hY0 hY p
    have h3 : bsum P (fun τ => ∑ j ∈ range T.s, ((T.b j : ℚ) : 𝕜) * stageW T.s A τ j) p =
        bsum P (exactW (𝕜 := 𝕜)) p := by
      funext h
      unfold bsum
      refine sum_congr rfl fun τ hτ => ?_
      have := hb τ ((mem_trees p τ).1 hτ)
      have h4 : ∑ j ∈ range T.s, ((T.b j : ℚ) : 𝕜) * stageW T.s A τ j = exactW τ := by
        simp only [hA, cast_stageW]
        rw [exactW]
        have := congrArg (fun r : ℚ => (r : 𝕜)) this
        push_cast at this
        exact this
      beta_reduce
      rw [h4]
    rw [h3] at h1
    refine (h1.sub h2).congr_left fun h => ?_
    abel
  · have h1 := hres (fun i => ((T.d i : ℚ) : 𝕜)) q
    have h3 : ∀ h, bsum P (fun τ => ∑ j ∈ range T.s, ((T.d j : ℚ) : 𝕜) * stageW T.s A τ j) q h =
        0 := by
      intro h
      unfold bsum
      refine sum_eq_zero fun τ hτ => ?_
      have := hd τ ((mem_trees q τ).1 hτ)
      have h4 : ∑ j ∈ range T.s, ((T.d j : ℚ) : 𝕜) * stageW T.s A τ j = 0 := by
        simp only [hA, cast_stageW]
        have := congrArg (fun r : ℚ => (r : 𝕜)) this
        push_cast at this
        exact this
      beta_reduce
      rw [h4, mul_zero, zero_smul]
    simpa only [h3, sub_zero] using h1

end General

variable {𝕜 V : Type} [RCLike 𝕜] [NormedAddCommGroup V] [NormedSpace 𝕜 V]

theorem order_of_tconds {T : Table} {p q : ℕ} (hT : tconds T p q) (g : V × 𝕜 → V) (x : V) (t : 𝕜)
    (hg : AnalyticAt 𝕜 g (x, t)) (f : V → 𝕜 → Option V)
    (hf : ∀ᶠ r in 𝓝 (x, t), f r.1 r.2 = some (g r))
    (y : 𝕜 → V) (hy0 : y t = x) (hy : ∀ᶠ s in 𝓝 t, HasDerivAt y (g (y s, s)) s) :
    ∃ (z : 𝕜 → V) (Kc : 𝕜 → ℕ → V),
      (∀ᶠ δ in 𝓝 (0 : 𝕜), fullStep T f x t δ = .ok (z δ, Kc δ)) ∧
      ((fun δ => z δ - y (t + δ)) =O[𝓝 0] fun δ : 𝕜 => δ ^ (p + 1)) ∧
      ((fun δ => errVec T (Kc δ) δ) =O[𝓝 0] fun δ : 𝕜 => δ ^ (q + 1)) := by
  have hs := hT.1
  have hc := hT.2.1
  have hc0 : T.c 0 = 0 := by
    rw [hc 0 (List.mem_range.2 hs)]
    exact sum_eq_zero fun j _ => by simp [Table.low]
  let G : V × 𝕜 → V × 𝕜 := fun r => (g r, 1)
  have hG : AnalyticAt 𝕜 G (x, t) := hg.prod analyticAt_const
  let A : ℕ → ℕ → 𝕜 := fun i j => ((T.low i j : ℚ) : 𝕜)
  let Y : 𝕜 → V × 𝕜 := fun h => (y (t + h), t + h)
  have htend : Tendsto (fun h : 𝕜 => t + h) (𝓝 0) (𝓝 t) := by
    simpa using (tendsto_const_nhds (x := t)).add (tendsto_id (α := 𝕜) (x := 𝓝 0))
  have hY : ∀ᶠ h in 𝓝 (0 : 𝕜), HasDerivAt Y (G (Y h)) h := by
    filter_upwards [htend.eventually hy] with h hh
    have h1 : HasDerivAt (fun h : 𝕜 => t + h) 1 h := (hasDerivAt_id h).const_add t
    have h2 := hh.scomp h h1
    rw [one_smul] at h2
    exact h2.prodMk h1
  obtain ⟨e1, e2⟩ := order_auto hT hG Y (by simp [Y, hy0]) hY
  let S : 𝕜 → ℕ → V := fun δ i => (stg A G (x, t) δ i).1
  -- the time component of every stage is one
  have hsnd : ∀ δ i, (stg A G (x, t) δ i).2 = 1 := fun δ i => by rw [stg_eq]
  have harg : ∀ δ, ∀ i < T.s, (x, t) + δ • ∑ j ∈ range i, A i j • stg A G (x, t) δ j =
      (x + δ • ∑ j ∈ range i, ((T.a i j : ℚ) : 𝕜) • S δ j, t + ((T.c i : ℚ) : 𝕜) * δ) := by
    intro δ i hi
    refine Prod.ext ?_ ?_
    · simp only [Prod.fst_add, Prod.smul_fst, Prod.fst_sum, S]
      congr 2
      refine sum_congr rfl fun j hj => ?_
      simp only [A, Table.low, if_pos (mem_range.1 hj)]
    · simp only [Prod.snd_add, Prod.smul_snd, Prod.snd_sum, hsnd]
      rw [hc i (List.mem_range.2 hi)]
      have h1 := low_sum (𝕜 := 𝕜) T i hi (fun _ => (1 : 𝕜))
      have h2 : ∑ j ∈ range i, A i j • (1 : 𝕜) = ∑ j ∈ range i, ((T.a i j : ℚ) : 𝕜) • (1 : 𝕜) := by
        refine sum_congr rfl fun j hj => ?_
        simp only [A, Table.low, if_pos (mem_range.1 hj)]
      rw [h2, ← h1, smul_eq_mul, mul_comm]
      push_cast
      simp
  have hstage : ∀ᶠ δ in 𝓝 (0 : 𝕜), ∀ i < T.s,
      f (x + δ • ∑ j ∈ range i, ((T.a i j : ℚ) : 𝕜) • S δ j) (t + ((T.c i : ℚ) : 𝕜) * δ)
        = some (S δ i) := by
    have h1 : ∀ i ∈ range T.s, ∀ᶠ δ in 𝓝 (0 : 𝕜),
        f (x + δ • ∑ j ∈ range i, ((T.a i j : ℚ) : 𝕜) • S δ j) (t + ((T.c i : ℚ) : 𝕜) * δ)
          = some (S δ i) := by
      intro i hi
      have h2 := (stg_arg_tendsto A hG.continuousAt i).eventually hf
      filter_upwards [h2] with δ hδ
      rw [harg δ i (mem_range.1 hi)] at hδ
      rw [hδ]
      simp only [S]
      rw [stg_eq A G (x, t) δ i, harg δ i (mem_range.1 hi)]
    filter_upwards [(eventually_all_finset (range T.s)).2 h1] with δ hδ i hi
    exact hδ i (mem_range.2 hi)
  have hex : ∀ᶠ δ in 𝓝 (0 : 𝕜), ∃ Kc, fullStep T f x t δ =
      .ok (x + δ • ∑ i ∈ range T.s, ((T.b i : ℚ) : 𝕜) • S δ i, Kc) ∧
      errVec T Kc δ = δ • ∑ i ∈ range T.s, ((T.d i : ℚ) : 𝕜) • S δ i := by
    filter_upwards [hstage] with δ hδ
    exact fullStep_spec T hs hc0 f x t δ (S δ) hδ
  classical
  refine ⟨fun δ => x + δ • ∑ i ∈ range T.s, ((T.b i : ℚ) : 𝕜) • S δ i,
    fun δ => if h : ∃ Kc, fullStep T f x t δ =
      .ok (x + δ • ∑ i ∈ range T.s, ((T.b i : ℚ) : 𝕜) • S δ i, Kc) ∧
      errVec T Kc δ = δ • ∑ i ∈ range T.s, ((T.d i : ℚ) : 𝕜) • S δ i then h.choose else fun _ => 0,
    ?_, ?_, ?_⟩
  · filter_upwards [hex] with δ hδ
    rw [dif_pos hδ]
    exact hδ.choose_spec.1
  · have h1 : (fun δ => ((x, t) + δ • ∑ i ∈ range T.s, ((T.b i : ℚ) : 𝕜) • stg A G (x, t) δ i -
        Y δ).1) =O[𝓝 0] fun δ : 𝕜 => δ ^ (p + 1) := isBigO_fst_prod.trans e1
    refine h1.congr_left fun δ => ?_
    simp only [Prod.fst_sub, Prod.fst_add, Prod.smul_fst, Prod.fst_sum, S, Y]
  · have h1 : (fun δ => (δ • ∑ i ∈ range T.s, ((T.d i : ℚ) : 𝕜) • stg A G (x, t) δ i).1)
        =O[𝓝 0] fun δ : 𝕜 => δ ^ (q + 1) := isBigO_fst_prod.trans e2
    refine h1.congr' ?_ EventuallyEq.rfl
    filter_upwards [hex] with δ hδ
    rw [dif_pos hδ, hδ.choose_spec.2]
    simp only [Prod.smul_fst, Prod.fst_sum, S]

/-- **C83, differential equations.**  For every installable method of advertised order `p`: let `g` be
analytic near `(x, t)`, let the right-hand side used by the predictor succeed with value `g` there, and
let `y` solve `y' = g(y, s)`, `y t = x`.  Then for all small enough steps `δ` the predictor step succeeds,
and the predicted point differs from `y (t + δ)` by `O(δ^(p+1))`. -/
theorem C83_order (M : Method) (T : Table) (hM : predictorMethod M = some T) (g : V × 𝕜 → V) (x : V)
    (t : 𝕜) (hg : AnalyticAt 𝕜 g (x, t)) (f : V → 𝕜 → Option V)
    (hf : ∀ᶠ r in 𝓝 (x, t), f r.1 r.2 = some (g r))
    (y : 𝕜 → V) (hy0 : y t = x) (hy : ∀ᶠ s in 𝓝 t, HasDerivAt y (g (y s, s)) s) :
    ∃ (z : 𝕜 → V) (Kc : 𝕜 → ℕ → V),
      (∀ᶠ δ in 𝓝 (0 : 𝕜), fullStep T f x t δ = .ok (z δ, Kc δ)) ∧
      (fun δ => z δ - y (t + δ)) =O[𝓝 0] fun δ : 𝕜 => δ ^ (order M + 1) := by
  obtain ⟨z, Kc, h1, h2, -⟩ := order_of_tconds (tconds_of_method M T hM) g x t hg f hf y hy0 hy
  exact ⟨z, Kc, h1, h2⟩

/-- **C83, embedded estimate.**  Under the same hypotheses, for a method with an embedded formula the
vector whose norm is the error estimate is `O(δ^(q+1))`, `q` the smaller of the orders of the two
formulas. -/
theorem C83_estimate (M : Method) (T : Table) (hM : predictorMethod M = some T)
    (hE : hasErrorEstimate M = true) (g : V × 𝕜 → V) (x : V)
    (t : 𝕜) (hg : AnalyticAt 𝕜 g (x, t)) (f : V → 𝕜 → Option V)
    (hf : ∀ᶠ r in 𝓝 (x, t), f r.1 r.2 = some (g r))
    (y : 𝕜 → V) (hy0 : y t = x) (hy : ∀ᶠ s in 𝓝 t, HasDerivAt y (g (y s, s)) s) :
    ∃ (z : 𝕜 → V) (Kc : 𝕜 → ℕ → V),
      (∀ᶠ δ in 𝓝 (0 : 𝕜), fullStep T f x t δ = .ok (z δ, Kc δ)) ∧
      (fun δ => errVec T (Kc δ) δ) =O[𝓝 0] fun δ : 𝕜 => δ ^ (estOrder M + 1) := by
  have hT := tconds_of_method M T hM
  rw [if_pos hE] at hT
  obtain ⟨z, Kc, h1, -, h2⟩ := order_of_tconds hT g x t hg f hf y hy0 hy
  exact ⟨z, Kc, h1, h2⟩

/-- The Jacobian of `H` with respect to the space variables, at the point `r`. -/
noncomputable def jacV (H : V × 𝕜 → V) (r : V × 𝕜) : V →L[𝕜] V :=
  (fderiv 𝕜 H r).comp (ContinuousLinearMap.inl 𝕜 V 𝕜)

/-- The derivative of `H` with respect to time, at the point `r`. -/
noncomputable def jacT (H : V × 𝕜 → V) (r : V × 𝕜) : V := fderiv 𝕜 H r (0, 1)

/-- **C83, path tracking.**  Let `H` be a homotopy, analytic near the point `(x, t)`, whose Jacobian with
respect to the space variables is invertible there, and let `y` be a differentiable path of solutions,
`H (y s, s) = 0` for `s` near `t`, through `x`.  Let the right-hand side of the predictor succeed near the
point and solve `J k = -∂H/∂t` (what `EvalRHS` asks of the LU solver).  Then for all small enough steps
the predictor step of a method of advertised order `p` succeeds and lands within `O(δ^(p+1))` of the
path. -/
theorem C83_path [CompleteSpace V] (M : Method) (T : Table) (hM : predictorMethod M = some T)
    (H : V × 𝕜 → V) (x : V) (t : 𝕜) (hH : AnalyticAt 𝕜 H (x, t)) (hJ : IsUnit (jacV H (x, t)))
    (f : V → 𝕜 → Option V)
    (hf : ∀ᶠ r in 𝓝 (x, t), ∃ k, f r.1 r.2 = some k ∧ jacV H r k = - jacT H r)
    (y : 𝕜 → V) (hy0 : y t = x) (hyd : ∀ᶠ s in 𝓝 t, DifferentiableAt 𝕜 y s)
    (hy : ∀ᶠ s in 𝓝 t, H (y s, s) = 0) :
    ∃ (z : 𝕜 → V) (Kc : 𝕜 → ℕ → V),
      (∀ᶠ δ in 𝓝 (0 : 𝕜), fullStep T f x t δ = .ok (z δ, Kc δ)) ∧
      (fun δ => z δ - y (t + δ)) =O[𝓝 0] fun δ : 𝕜 => δ ^ (order M + 1) := by
  have hJa : AnalyticAt 𝕜 (jacV H) (x, t) := by
    exact (((ContinuousLinearMap.compL 𝕜 V (V × 𝕜) V).flip
      (ContinuousLinearMap.inl 𝕜 V 𝕜)).analyticAt _).comp hH.fderiv
  have hTa : AnalyticAt 𝕜 (jacT H) (x, t) :=
    ((ContinuousLinearMap.apply 𝕜 V ((0, 1) : V × 𝕜)).analyticAt _).comp hH.fderiv
  obtain ⟨u, hu⟩ := hJ
  have hinv : AnalyticAt 𝕜 (fun r => Ring.inverse (jacV H r)) (x, t) := by
    have h1 : AnalyticAt 𝕜 Ring.inverse (jacV H (x, t)) := by
      rw [← hu]; exact analyticAt_inverse u
    exact h1.comp hJa
  have hg : AnalyticAt 𝕜 (fun r => -(Ring.inverse (jacV H r)) (jacT H r)) (x, t) :=
    (((ContinuousLinearMap.id 𝕜 (V →L[𝕜] V)).analyticAt_bilinear _).comp₂ hinv hTa).neg
  have hunit : ∀ᶠ r in 𝓝 (x, t), IsUnit (jacV H r) := by
    have h1 := hJa.continuousAt.eventually (hu ▸ Units.nhds u)
    exact h1
  have hsol : ∀ r, IsUnit (jacV H r) → ∀ k, jacV H r k = - jacT H r →
      k = -(Ring.inverse (jacV H r)) (jacT H r) := by
    rintro r hr k hk
    have h1 := Ring.inverse_mul_cancel _ hr
    have h2 := congrArg (fun L : V →L[𝕜] V => L k) h1
    simp only [ContinuousLinearMap.mul_apply, ContinuousLinearMap.one_apply, hk, map_neg] at h2
    exact h2.symm
  refine C83_order M T hM _ x t hg f ?_ y hy0 ?_
  · filter_upwards [hf, hunit] with r ⟨k, h1, h2⟩ h3
    rw [h1, hsol r h3 k h2]
  · have hcont : Tendsto (fun s => (y s, s)) (𝓝 t) (𝓝 (x, t)) := by
      have h1 : ContinuousAt y t := hyd.self_of_nhds.continuousAt
      have := h1.prodMk continuousAt_id
      rw [ContinuousAt, hy0] at this
      exact this
    filter_upwards [hyd, hy.eventually_nhds, hcont.eventually hunit,
      hcont.eventually hH.eventually_analyticAt] with s h1 h2 h3 h4
    have h5 : HasDerivAt (fun s => (y s, s)) (deriv y s, 1) s :=
      h1.hasDerivAt.prodMk (hasDerivAt_id s)
    have h6 := HasFDerivAt.comp_hasDerivAt (f := fun s => (y s, s)) s
      h4.differentiableAt.hasFDerivAt h5
    have h7 : HasDerivAt (H ∘ fun s => (y s, s)) 0 s :=
      (hasDerivAt_const s (0 : V)).congr_of_eventuallyEq h2
    have h8 := h6.unique h7
    have h9 : jacV H (y s, s) (deriv y s) = - jacT H (y s, s) := by
      rw [eq_neg_iff_add_eq_zero, ← h8]
      simp only [jacV, jacT, ContinuousLinearMap.comp_apply, ContinuousLinearMap.inl_apply]
      rw [← map_add]
      simp
    rw [← hsol _ h3 _ h9]
    exact h1.hasDerivAt

/-- A concrete case of `C83_order`: `y' = y`, `y 0 = 1` over the complex numbers, solution `exp`; one
Runge-Kutta step of order 4 has error `O(δ^5)`. -/
example : ∃ (z : ℂ → ℂ) (Kc : ℂ → ℕ → ℂ),
    (∀ᶠ δ in 𝓝 (0 : ℂ), fullStep rk4T (fun v _ => some v) 1 0 δ = .ok (z δ, Kc δ)) ∧
    (fun δ => z δ - Complex.exp (0 + δ)) =O[𝓝 0] fun δ : ℂ => δ ^ 5 :=
  C83_order .rk4 rk4T rfl (fun r : ℂ × ℂ => r.1) 1 0 analyticAt_fst _
    (Eventually.of_forall fun _ => rfl) Complex.exp Complex.exp_zero
    (Eventually.of_forall fun s => Complex.hasDerivAt_exp s)

/-- The homotopy `v² - s²` used in the concrete cases. -/
def sqH (r : ℂ × ℂ) : ℂ := r.1 ^ 2 - r.2 ^ 2

theorem sqH_fderiv (r : ℂ × ℂ) : HasFDerivAt sqH
    ((2 * r.1) • ContinuousLinearMap.fst ℂ ℂ ℂ - (2 * r.2) • ContinuousLinearMap.snd ℂ ℂ ℂ) r := by
  have h1 := (hasFDerivAt_fst (𝕜 := ℂ) (p := r)).pow 2
  have h2 := (hasFDerivAt_snd (𝕜 := ℂ) (p := r)).pow 2
  have h3 := h1.sub h2
  refine h3.congr_fderiv ?_
  ext <;> simp

theorem sqH_jacV (r : ℂ × ℂ) (k : ℂ) : jacV sqH r k = 2 * r.1 * k := by
  simp [jacV, (sqH_fderiv r).fderiv]

theorem sqH_jacT (r : ℂ × ℂ) : jacT sqH r = - (2 * r.2) := by
  simp [jacT, (sqH_fderiv r).fderiv]

theorem sqH_analytic (r : ℂ × ℂ) : AnalyticAt ℂ sqH r :=
  (analyticAt_fst.pow 2).sub (analyticAt_snd.pow 2)

theorem sqH_unit (r : ℂ × ℂ) (h : r.1 ≠ 0) : IsUnit (jacV sqH r) := by
  refine ⟨⟨jacV sqH r, (1 / (2 * r.1) : ℂ) • 1, ?_, ?_⟩, rfl⟩
  · ext; simp [sqH_jacV]; field_simp
  · ext; simp [sqH_jacV]; field_simp

/-- A concrete case of `C83_path`: the homotopy `v² - s²` at `v = s = 1`, path `y s = s`; the right-hand
side `s / v` fails at `v = 0`. -/
example : ∃ (z : ℂ → ℂ) (Kc : ℂ → ℕ → ℂ),
    (∀ᶠ δ in 𝓝 (0 : ℂ), fullStep rkv67T (fun v s => if v = 0 then none else some (s / v)) 1 1 δ
      = .ok (z δ, Kc δ)) ∧
    (fun δ => z δ - id (1 + δ)) =O[𝓝 0] fun δ : ℂ => δ ^ 7 := by
  refine C83_path .rkVerner67 rkv67T rfl sqH 1 1 (sqH_analytic _) (sqH_unit _ one_ne_zero) _ ?_ id rfl
    (Eventually.of_forall fun s => differentiableAt_id)
    (Eventually.of_forall fun s => by simp [sqH])
  have : ∀ᶠ r : ℂ × ℂ in 𝓝 (1, 1), r.1 ≠ 0 := continuousAt_fst.eventually_ne (by simp)
  filter_upwards [this] with r hr
  refine ⟨r.2 / r.1, if_neg hr, ?_⟩
  rw [sqH_jacV, sqH_jacT]
  field_simp

end B2.Predict
