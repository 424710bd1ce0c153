/-
Lemmas for the convergence of the power-series endgame: the extrapolation is a bounded linear function of the data for
fixed nodes, reproduces constants, and the number of candidate cycle numbers stays bounded along a fractional power series.
-/
import Verif.Endgame.PropsCycle
import Mathlib.Analysis.Analytic.IsolatedZeros
import Mathlib.Analysis.SpecialFunctions.Pow.Deriv
import Mathlib.Analysis.Complex.RealDeriv
import Mathlib.Data.List.GetD
import Mathlib.Analysis.SpecialFunctions.Log.Basic

set_option linter.unusedSimpArgs false
set_option linter.unusedSectionVars false

namespace B2.Endgame

variable {ι : Type} [Fintype ι]

/-! ### Bounds for the interpolation -/

/-- Every entry of the table is bounded by a constant times the size of the data. -/
theorem table_bound (y : ℕ → ℂ) (n : ℕ) : ∀ j i, i / 2 < n → ∃ K : ℝ, 0 ≤ K ∧ ∀ (x d : ℕ → ι → ℂ) (δ : ℝ),
    (∀ k, k < n → ‖x k‖ ≤ δ) → (∀ k, k < n → ‖d k‖ ≤ δ) → ‖table y x d i j‖ ≤ K * δ
  | 0, i => fun hi => ⟨1, zero_le_one, fun x d δ hx _ => by rw [table, one_mul]; exact hx _ hi⟩
  | 1, i => fun hi => by
    by_cases h : i % 2 = 1
    · exact ⟨1, zero_le_one, fun x d δ _ hd => by rw [table, if_pos h, one_mul]; exact hd _ hi⟩
    · refine ⟨‖(node y i - node y (i - 1))⁻¹‖ * 2, by positivity, fun x d δ hx _ => ?_⟩
      rw [table, if_neg h, norm_smul, mul_assoc]
      refine mul_le_mul_of_nonneg_left ?_ (norm_nonneg _)
      have h1 := hx _ hi
      have h2 := hx ((i - 1) / 2) (by omega)
      exact (norm_sub_le _ _).trans (by linarith)
  | j + 2, i => fun hi => by
    obtain ⟨K1, h1, H1⟩ := table_bound y n (j + 1) i hi
    obtain ⟨K2, h2, H2⟩ := table_bound y n (j + 1) (i - 1) (by omega)
    refine ⟨‖(node y i - node y (i - (j + 2)))⁻¹‖ * (K1 + K2), by positivity, fun x d δ hx hd => ?_⟩
    rw [table, norm_smul, mul_assoc]
    refine mul_le_mul_of_nonneg_left ?_ (norm_nonneg _)
    rw [add_mul]
    exact (norm_sub_le _ _).trans (add_le_add (H1 x d δ hx hd) (H2 x d δ hx hd))

/-- One constant for a finite set of entries. -/
theorem table_bound_all (y : ℕ → ℂ) (n N : ℕ) : ∃ K : ℝ, 0 ≤ K ∧ ∀ (x d : ℕ → ι → ℂ) (δ : ℝ), 0 ≤ δ →
    (∀ k, k < n → ‖x k‖ ≤ δ) → (∀ k, k < n → ‖d k‖ ≤ δ) →
    ∀ i, i < N → i / 2 < n → ‖table y x d i i‖ ≤ K * δ := by
  induction N with
  | zero => exact ⟨0, le_rfl, fun x d δ _ _ _ i hi => absurd hi (by omega)⟩
  | succ N ih =>
    obtain ⟨K, hK, H⟩ := ih
    by_cases hN : N / 2 < n
    · obtain ⟨K', hK', H'⟩ := table_bound (ι := ι) y n N N hN
      refine ⟨K + K', by positivity, fun x d δ h0 hx hd i hi hi2 => ?_⟩
      rw [add_mul]
      rcases Nat.lt_succ_iff_lt_or_eq.mp hi with h | h
      · have := H x d δ h0 hx hd i h hi2
        have h3 : 0 ≤ K' * δ := by positivity
        linarith
      · have := H' x d δ hx hd
        have h3 : 0 ≤ K * δ := by positivity
        rw [h]; linarith
    · refine ⟨K, hK, fun x d δ h0 hx hd i hi hi2 => H x d δ h0 hx hd i ?_ hi2⟩
      rcases Nat.lt_succ_iff_lt_or_eq.mp hi with h | h
      · exact h
      · subst h; exact absurd hi2 hN

theorem hornerLoop_bound (T : ℂ) (y : ℕ → ℂ) : ∀ m, ∃ K : ℝ, 0 ≤ K ∧ ∀ (F : ℕ → ℕ → ι → ℂ) (r : ι → ℂ) (B : ℝ), 0 ≤ B →
    (∀ i, i ≤ 2 * m → ‖F i i‖ ≤ B) → ‖r‖ ≤ B → ‖hornerLoop T y F m r‖ ≤ K * B
  | 0 => ⟨1, zero_le_one, fun F r B _ _ hr => by rw [hornerLoop, one_mul]; exact hr⟩
  | m + 1 => by
    obtain ⟨K, hK, H⟩ := hornerLoop_bound T y m
    set L : ℝ := ‖T - node y m‖ * (‖T - node y (m + 1)‖ + 1) + 1 with hL
    have hL1 : 1 ≤ L := by rw [hL]; nlinarith [norm_nonneg (T - node y m), norm_nonneg (T - node y (m + 1))]
    refine ⟨K * L, by positivity, fun F r B hB hF hr => ?_⟩
    rw [hornerLoop, mul_assoc]
    refine H F _ (L * B) (by positivity) (fun i hi => (hF i (by omega)).trans (by nlinarith)) ?_
    have h1 : ‖(T - node y (m + 1)) • r‖ ≤ ‖T - node y (m + 1)‖ * B := by
      rw [norm_smul]; exact mul_le_mul_of_nonneg_left hr (norm_nonneg _)
    have h2 := hF (2 * (m + 1)) (by omega)
    have h3 := hF (2 * m + 1) (by omega)
    calc _ ≤ ‖(T - node y m) • ((T - node y (m + 1)) • r + F (2 * (m + 1)) (2 * (m + 1)))‖ + ‖F (2 * m + 1) (2 * m + 1)‖ :=
          norm_add_le _ _
      _ ≤ ‖T - node y m‖ * (‖T - node y (m + 1)‖ * B + B) + B := by
          refine add_le_add ?_ h3
          rw [norm_smul]
          exact mul_le_mul_of_nonneg_left ((norm_add_le _ _).trans (add_le_add h1 h2)) (norm_nonneg _)
      _ = L * B := by rw [hL]; ring

/-- The interpolation is bounded by a constant times the size of the data. -/
theorem hermiteCore_bound (T : ℂ) (n : ℕ) (hn : 0 < n) (y : ℕ → ℂ) : ∃ K : ℝ, 0 ≤ K ∧ ∀ (x d : ℕ → ι → ℂ) (δ : ℝ), 0 ≤ δ →
    (∀ k, k < n → ‖x k‖ ≤ δ) → (∀ k, k < n → ‖d k‖ ≤ δ) → ‖hermiteCore T n y x d‖ ≤ K * δ := by
  obtain ⟨K1, h1, H1⟩ := table_bound_all (ι := ι) y n (2 * n)
  obtain ⟨K2, h2, H2⟩ := hornerLoop_bound (ι := ι) T y (n - 1)
  refine ⟨‖T - node y 0‖ * (K2 * K1) + K1, by positivity, fun x d δ h0 hx hd => ?_⟩
  have hT := H1 x d δ h0 hx hd
  unfold hermiteCore
  dsimp only
  have h3 := H2 (table y x d) (table y x d (2 * n - 1) (2 * n - 1)) (K1 * δ) (by positivity)
    (fun i hi => hT i (by omega) (by omega)) (hT _ (by omega) (by omega))
  refine (norm_add_le _ _).trans ?_
  rw [norm_smul, add_mul]
  refine add_le_add ?_ (hT 0 (by omega) (by omega))
  rw [mul_assoc, mul_assoc]
  exact mul_le_mul_of_nonneg_left h3 (norm_nonneg _)

/-! ### Linearity -/

theorem table_sub (y : ℕ → ℂ) (x d : ℕ → ι → ℂ) (z : ι → ℂ) : ∀ j i,
    table y (fun k => x k - z) d i j = table y x d i j - (if j = 0 then z else 0)
  | 0, i => by simp [table]
  | 1, i => by
    rw [table, table]
    split_ifs <;> simp_all
  | j + 2, i => by
    rw [table, table, table_sub y x d z (j + 1) i, table_sub y x d z (j + 1) (i - 1)]
    simp

theorem hornerLoop_congr (T : ℂ) (y : ℕ → ℂ) (F G : ℕ → ℕ → ι → ℂ) (h : ∀ i, 0 < i → F i i = G i i) :
    ∀ m r, hornerLoop T y F m r = hornerLoop T y G m r
  | 0, r => rfl
  | m + 1, r => by
    rw [hornerLoop, hornerLoop, h (2 * (m + 1)) (by omega), h (2 * m + 1) (by omega), hornerLoop_congr T y F G h m]

/-- Constants are reproduced, whatever the nodes are. -/
theorem hermiteCore_sub (T : ℂ) (n : ℕ) (hn : 0 < n) (y : ℕ → ℂ) (x d : ℕ → ι → ℂ) (z : ι → ℂ) :
    hermiteCore T n y (fun k => x k - z) d = hermiteCore T n y x d - z := by
  have h1 : ∀ i, 0 < i → table y (fun k => x k - z) d i i = table y x d i i := fun i hi => by
    rw [table_sub, if_neg (Nat.pos_iff_ne_zero.mp hi), sub_zero]
  have h2 : table y (fun k => x k - z) d 0 0 = table y x d 0 0 - z := by rw [table_sub, if_pos rfl]
  have h3 := h1 (2 * n - 1) (by omega)
  have h4 := hornerLoop_congr T y _ _ h1 (n - 1) (table y x d (2 * n - 1) (2 * n - 1))
  unfold hermiteCore
  simp only [h2, h3, h4, add_sub_assoc]

/-- The extrapolation of data close to a constant, with small derivatives, is close to that constant; the factor depends on the
nodes, the target and the number of points only. -/
theorem hermite_close (T : ℂ) (n : ℕ) (hn : 0 < n) (nodes : List ℂ) (front : Bool) : ∃ K : ℝ, 0 ≤ K ∧
    ∀ (xs ds : List (ι → ℂ)) (z : ι → ℂ) (δ : ℝ), 0 ≤ δ → (∀ x ∈ xs, ‖x - z‖ ≤ δ) → (∀ d ∈ ds, ‖d‖ ≤ δ) →
      ∀ v, hermite T n nodes xs ds front = some v → ‖v - z‖ ≤ K * δ := by
  obtain ⟨K, hK, H⟩ := hermiteCore_bound (ι := ι) T n hn
    (fun i => nodes.getD ((if front then n - 1 else nodes.length - 1) - i) 0)
  refine ⟨K, hK, fun xs ds z δ h0 hx hd v hv => ?_⟩
  unfold hermite at hv
  by_cases hc : 0 < n ∧ n ≤ nodes.length ∧ n ≤ xs.length ∧ n ≤ ds.length
  swap
  · rw [if_neg hc] at hv; cases hv
  rw [if_pos hc] at hv
  obtain ⟨-, -, h2, h3⟩ := hc
  have hv' := Option.some.inj hv
  have h4 := H (fun i => xs.getD ((if front then n - 1 else xs.length - 1) - i) 0 - z)
    (fun i => ds.getD ((if front then n - 1 else ds.length - 1) - i) 0) δ h0 (fun k hk => ?_) (fun k hk => ?_)
  · rw [hermiteCore_sub T n hn _ (fun i => xs.getD ((if front then n - 1 else xs.length - 1) - i) 0), hv'] at h4
    exact h4
  · have hl : (if front = true then n - 1 else xs.length - 1) - k < xs.length := by split_ifs <;> omega
    rw [List.getD_eq_getElem _ _ hl]
    exact hx _ (List.getElem_mem _)
  · have hl : (if front = true then n - 1 else ds.length - 1) - k < ds.length := by split_ifs <;> omega
    rw [List.getD_eq_getElem _ _ hl]
    exact hd _ (List.getElem_mem _)

/-! ### Fractional power series -/

/-- On `(0,R)` the path is a convergent power series `φ` in `t^(1/c)`, and `d` is its derivative with respect to `t`. -/
structure FracSeries (y d : ℝ → ι → ℂ) (φ : ℂ → ι → ℂ) (c : ℕ) (R : ℝ) : Prop where
  c_pos : 1 ≤ c
  R_pos : 0 < R
  analytic : ∀ j, AnalyticAt ℂ (fun u => φ u j) 0
  value : ∀ t, 0 < t → t < R → y t = φ ((t ^ (1 / (c : ℝ)) : ℝ) : ℂ)
  deriv : ∀ t, 0 < t → t < R → HasDerivAt y (d t) t

open Filter Topology

theorem tendsto_root (c : ℕ) (hc : 1 ≤ c) :
    Tendsto (fun t : ℝ => ((t ^ (1 / (c : ℝ)) : ℝ) : ℂ)) (𝓝[>] 0) (𝓝 0) := by
  have hp : 0 < 1 / (c : ℝ) := by positivity
  have h1 : Tendsto (fun t : ℝ => t ^ (1 / (c : ℝ))) (𝓝[>] 0) (𝓝 0) := by
    have := (Real.continuousAt_rpow_const 0 (1 / (c : ℝ)) (Or.inr hp.le)).tendsto
    rw [Real.zero_rpow hp.ne'] at this
    exact this.mono_left nhdsWithin_le_nhds
  have h2 := (Complex.continuous_ofReal.tendsto 0).comp h1
  simpa [Function.comp_def] using h2

/-- The path tends to the constant term, and `t` times the derivative tends to zero. -/
theorem FracSeries.limit {y d : ℝ → ι → ℂ} {φ : ℂ → ι → ℂ} {c : ℕ} {R : ℝ} (h : FracSeries y d φ c R) {ε : ℝ} (hε : 0 < ε) :
    ∃ r, 0 < r ∧ r ≤ R ∧ ∀ t, 0 < t → t < r → ‖y t - φ 0‖ ≤ ε ∧ t * ‖d t‖ ≤ ε := by
  have hc := h.c_pos
  have hp : 0 < 1 / (c : ℝ) := by positivity
  have hroot := tendsto_root c hc
  have hR : ∀ᶠ t : ℝ in 𝓝[>] 0, 0 < t ∧ t < R := by
    filter_upwards [self_mem_nhdsWithin, mem_nhdsWithin_of_mem_nhds (Iio_mem_nhds h.R_pos)] with t h1 h2
    exact ⟨h1, h2⟩
  have h1 : ∀ j, ∀ᶠ t : ℝ in 𝓝[>] 0, ‖y t j - φ 0 j‖ ≤ ε := by
    intro j
    have hcont : Tendsto (fun u => φ u j) (𝓝 0) (𝓝 (φ 0 j)) := (h.analytic j).continuousAt
    have h2 := hcont.comp hroot
    have h3 := (tendsto_iff_norm_sub_tendsto_zero.mp h2).eventually (Iio_mem_nhds hε)
    filter_upwards [h3, hR] with t ht hR
    rw [h.value t hR.1 hR.2]
    exact le_of_lt ht
  have h2 : ∀ j, ∀ᶠ t : ℝ in 𝓝[>] 0, ‖(t : ℂ) * d t j‖ ≤ ε := by
    intro j
    have hA := (h.analytic j).eventually_analyticAt
    have hd : Tendsto (fun u => _root_.deriv (fun u => φ u j) u * (((1 / (c : ℝ) : ℝ) : ℂ) * u)) (𝓝 0) (𝓝 0) := by
      have : Tendsto (fun u => _root_.deriv (fun u => φ u j) u * (((1 / (c : ℝ) : ℝ) : ℂ) * u)) (𝓝 0)
          (𝓝 (_root_.deriv (fun u => φ u j) 0 * (((1 / (c : ℝ) : ℝ) : ℂ) * 0))) :=
        (h.analytic j).deriv.continuousAt.tendsto.mul (tendsto_const_nhds.mul tendsto_id)
      simpa using this
    have h3 := ((hd.comp hroot).norm).eventually (Iio_mem_nhds (by simpa using hε))
    filter_upwards [h3, hR, hroot.eventually hA] with t ht hR hAt
    refine le_of_eq_of_le ?_ (le_of_lt ht)
    congr 1
    have g1 : HasDerivAt (fun s : ℝ => ((s ^ (1 / (c : ℝ)) : ℝ) : ℂ))
        (((1 / (c : ℝ)) * t ^ (1 / (c : ℝ) - 1) : ℝ) : ℂ) t :=
      (Real.hasDerivAt_rpow_const (Or.inl hR.1.ne')).ofReal_comp
    have g2 := HasDerivAt.comp t hAt.differentiableAt.hasDerivAt g1
    have g3 : HasDerivAt (fun s => y s j) (d t j) t := (hasDerivAt_pi.mp (h.deriv t hR.1 hR.2)) j
    have g4 : (fun s => y s j) =ᶠ[𝓝 t] ((fun u => φ u j) ∘ fun s : ℝ => ((s ^ (1 / (c : ℝ)) : ℝ) : ℂ)) := by
      filter_upwards [Ioo_mem_nhds hR.1 hR.2] with s hs
      rw [h.value s hs.1 hs.2]; rfl
    have g5 := (g2.congr_of_eventuallyEq g4).unique g3
    rw [← g5]
    simp only [Function.comp_apply]
    have g6 : t ^ (1 / (c : ℝ)) = t * t ^ (1 / (c : ℝ) - 1) := by
      rw [Real.rpow_sub_one hR.1.ne']
      have := hR.1.ne'
      field_simp
    rw [g6]
    push_cast
    ring
  have hall : ∀ᶠ t : ℝ in 𝓝[>] 0, ∀ j, ‖y t j - φ 0 j‖ ≤ ε ∧ ‖(t : ℂ) * d t j‖ ≤ ε :=
    eventually_all.mpr fun j => (h1 j).and (h2 j)
  obtain ⟨r, hr, hr2⟩ := mem_nhdsGT_iff_exists_Ioo_subset.mp hall
  refine ⟨min r R, lt_min hr h.R_pos, min_le_right _ _, fun t ht ht2 => ?_⟩
  have := hr2 ⟨ht, ht2.trans_le (min_le_left _ _)⟩
  refine ⟨(pi_norm_le_iff_of_nonneg hε.le).mpr fun j => (this j).1, ?_⟩
  have h5 : ‖(t : ℂ) • d t‖ ≤ ε := (pi_norm_le_iff_of_nonneg hε.le).mpr fun j => (this j).2
  rwa [norm_smul, Complex.norm_real, Real.norm_of_nonneg ht.le] at h5

/-- The ratio of values of an analytic function vanishing at zero, at `k u` and `u`. -/
theorem ratio_bound {ψ : ℂ → ℂ} (h : AnalyticAt ℂ ψ 0) (h0 : ψ 0 = 0) {k : ℝ} (hk0 : 0 < k) (hk1 : k < 1) :
    ∃ q, 0 < q ∧ q < 1 ∧ ∀ᶠ u in 𝓝 (0 : ℂ), ψ u = 0 ∨ ‖ψ (k * u) / ψ u‖ ≤ q := by
  by_cases hz : ∀ᶠ u in 𝓝 (0 : ℂ), ψ u = 0
  · exact ⟨1 / 2, by norm_num, by norm_num, hz.mono fun u hu => Or.inl hu⟩
  obtain ⟨n, g, hg, hg0, hev⟩ := (h.exists_eventuallyEq_pow_smul_nonzero_iff).mpr hz
  have hn : n ≠ 0 := by
    intro hn
    have := hev.self_of_nhds
    rw [h0, hn, pow_zero, one_smul] at this
    exact hg0 this.symm
  have hkt : Tendsto (fun u : ℂ => (k : ℂ) * u) (𝓝 0) (𝓝 0) := by
    have : Tendsto (fun u : ℂ => (k : ℂ) * u) (𝓝 0) (𝓝 ((k : ℂ) * 0)) := tendsto_const_nhds.mul tendsto_id
    simpa using this
  have hlim : Tendsto (fun u : ℂ => ‖(k : ℂ) ^ n * (g (k * u) / g u)‖) (𝓝 0) (𝓝 (k ^ n)) := by
    have h1 : Tendsto (fun u : ℂ => g (k * u) / g u) (𝓝 0) (𝓝 (g 0 / g 0)) :=
      (hg.continuousAt.tendsto.comp hkt).div hg.continuousAt.tendsto hg0
    have h2 := (tendsto_const_nhds (x := (k : ℂ) ^ n)).mul h1
    have h3 := h2.norm
    rw [div_self hg0, mul_one, norm_pow, Complex.norm_real, Real.norm_of_nonneg hk0.le] at h3
    exact h3
  have hkn : k ^ n ≤ k := pow_le_of_le_one hk0.le hk1.le hn
  refine ⟨(1 + k) / 2, by linarith, by linarith, ?_⟩
  have h4 := hlim.eventually (Iio_mem_nhds (show k ^ n < (1 + k) / 2 by linarith))
  filter_upwards [h4, hev, hkt.eventually hev] with u h5 h6 h7
  by_cases hu : ψ u = 0
  · exact Or.inl hu
  right
  refine le_of_eq_of_le ?_ (le_of_lt h5)
  congr 1
  have hu0 : u ≠ 0 := by rintro rfl; exact hu h0
  rw [h6] at hu
  rw [h6, h7]
  simp only [sub_zero, smul_eq_mul, mul_pow] at hu ⊢
  have : u ^ n ≠ 0 := pow_ne_zero _ hu0
  field_simp

/-- The number of candidates is bounded when the projected differences shrink. -/
theorem boundFrom_le (cfg : CycCfg) (hf0 : 0 < cfg.factor) (hf1 : cfg.factor < 1) {q : ℝ} (hq0 : 0 < q) (hq1 : q < 1) :
    ∃ C, 1 ≤ C ∧ ∀ r1 r2 : ℂ, (r1 = 0 ∨ ‖r2 / r1‖ ≤ q) → boundFrom cfg r1 r2 ≤ C := by
  refine ⟨max 1 (max (⌊Real.log cfg.factor / Real.log q + 1 / 2⌋ * (cfg.amplification : ℤ)).toNat cfg.maxCycle),
    le_max_left _ _, fun r1 r2 h => ?_⟩
  unfold boundFrom
  by_cases h1 : ‖r1‖ = 0 ∨ ‖r2‖ = 0
  · rw [if_pos h1]; exact le_max_left _ _
  rw [if_neg h1]
  dsimp only
  by_cases h2 : Real.log cfg.factor / Real.log ‖r2 / r1‖ < 1
  · rw [if_pos h2]; exact le_max_left _ _
  rw [if_neg h2]
  refine le_max_of_le_right (max_le_max ?_ le_rfl)
  refine Int.toNat_le_toNat (mul_le_mul_of_nonneg_right ?_ (by positivity))
  rw [round_eq]
  refine Int.floor_le_floor ?_
  rw [not_or] at h1
  have h3 : ‖r2 / r1‖ ≤ q := by
    rcases h with h | h
    · rw [h] at h1; simp at h1
    · exact h
  have h4 : 0 < ‖r2 / r1‖ := by
    rw [norm_div]
    exact div_pos (lt_of_le_of_ne (norm_nonneg _) (Ne.symm h1.2)) (lt_of_le_of_ne (norm_nonneg _) (Ne.symm h1.1))
  have h5 : Real.log ‖r2 / r1‖ ≤ Real.log q := Real.log_le_log h4 h3
  have h6 : Real.log q < 0 := Real.log_neg hq0 hq1
  have h7 : Real.log cfg.factor < 0 := Real.log_neg hf0 hf1
  have h8 : Real.log cfg.factor / Real.log ‖r2 / r1‖ ≤ Real.log cfg.factor / Real.log q := by
    rw [← neg_div_neg_eq, ← neg_div_neg_eq (Real.log cfg.factor) (Real.log q)]
    exact div_le_div_of_nonneg_left (by linarith) (by linarith) (by linarith)
  linarith

theorem FracSeries.bounded {y d : ℝ → ι → ℂ} {φ : ℂ → ι → ℂ} {c : ℕ} {R : ℝ} (h : FracSeries y d φ c R) (cfg : CycCfg)
    (rand : ι → ℂ) (hf0 : 0 < cfg.factor) (hf1 : cfg.factor < 1) :
    ∃ C r, 1 ≤ C ∧ 0 < r ∧ r ≤ R ∧ ∀ t, 0 < t → t < r →
      boundFrom cfg (randSum rand (y t) (y (t * cfg.factor)))
        (randSum rand (y (t * cfg.factor)) (y (t * cfg.factor * cfg.factor))) ≤ C := by
  set k : ℝ := cfg.factor ^ (1 / (c : ℝ)) with hk
  have hc := h.c_pos
  have hp : 0 < 1 / (c : ℝ) := by positivity
  have hk0 : 0 < k := Real.rpow_pos_of_pos hf0 _
  have hk1 : k < 1 := Real.rpow_lt_one hf0.le hf1 hp
  have hψ : AnalyticAt ℂ (fun u => randSum rand (φ u) (φ (k * u))) 0 := by
    unfold randSum
    refine Finset.analyticAt_fun_sum _ fun j _ => ?_
    refine (AnalyticAt.sub ?_ (h.analytic j)).mul analyticAt_const
    have h1 : AnalyticAt ℂ (fun u : ℂ => (k : ℂ) * u) 0 := analyticAt_const.mul analyticAt_id
    have h2 : AnalyticAt ℂ (fun u => φ u j) ((fun u : ℂ => (k : ℂ) * u) 0) := by simpa using h.analytic j
    exact h2.comp h1
  obtain ⟨q, hq0, hq1, hev⟩ := ratio_bound hψ (by simp [randSum]) hk0 hk1
  obtain ⟨C, hC, hb⟩ := boundFrom_le cfg hf0 hf1 hq0 hq1
  obtain ⟨r, hr, hr2⟩ := mem_nhdsGT_iff_exists_Ioo_subset.mp ((tendsto_root c hc).eventually hev)
  refine ⟨C, min r R, hC, lt_min hr h.R_pos, min_le_right _ _, fun t ht ht2 => hb _ _ ?_⟩
  have h1 := hr2 ⟨ht, ht2.trans_le (min_le_left _ _)⟩
  have hR := ht2.trans_le (min_le_right _ _)
  have e1 : 0 < t * cfg.factor := by positivity
  have e1' : t * cfg.factor < R := by nlinarith
  have e2 : 0 < t * cfg.factor * cfg.factor := by positivity
  have e2' : t * cfg.factor * cfg.factor < R := by nlinarith
  rw [h.value t ht hR, h.value _ e1 e1', h.value _ e2 e2', Real.mul_rpow e1.le hf0.le, Real.mul_rpow ht.le hf0.le, ← hk]
  have hmul : ∀ a : ℝ, ((a * k : ℝ) : ℂ) = (k : ℂ) * (a : ℂ) := by intro a; push_cast; ring
  simp only [hmul]
  exact h1

/-! ### A window of sample times -/

/-- `τ, τ f, τ f², …` -/
noncomputable def win (f τ : ℝ) (len : ℕ) : List ℝ := (List.range len).map fun i => τ * f ^ i

/-- The nodes in the `s`-plane; they do not depend on `τ`. -/
noncomputable def nodes (f : ℝ) (c num : ℕ) : List ℂ := (List.range num).map fun i => ((f ^ i : ℝ) : ℂ) ^ (1 / (c : ℂ))

theorem win_mem {f τ : ℝ} (hf0 : 0 < f) (hf1 : f < 1) (hτ : 0 < τ) {len : ℕ} {t : ℝ} (h : t ∈ win f τ len) : 0 < t ∧ t ≤ τ := by
  unfold win at h
  rw [List.mem_map] at h
  obtain ⟨i, -, rfl⟩ := h
  exact ⟨by positivity, mul_le_of_le_one_right hτ.le (pow_le_one₀ hf0.le hf1.le)⟩

theorem win_slice (f τ : ℝ) (len off num : ℕ) (h : off + num ≤ len) :
    ((win f τ len).drop off).take num = (List.range num).map fun i => τ * f ^ (off + i) := by
  refine List.ext_getElem (by simp [win]; omega) fun i h1 h2 => ?_
  simp [win]

theorem toSPlane_win {f τ : ℝ} (hf0 : 0 < f) (hf1 : f < 1) (hτ : 0 < τ) (c num off len : ℕ) (hc : 1 ≤ c) (h : off + num ≤ len)
    (hnum : 0 < num) (d : ℝ → ι → ℂ) (ε : ℝ) (hd : ∀ t ∈ win f τ len, t * ‖d t‖ ≤ ε) :
    ∃ ds : List (ι → ℂ), toSPlane c 0 num off ((win f τ len).map fun t : ℝ => (t : ℂ)) ((win f τ len).map d) =
        some (nodes f c num, ds) ∧ ds.length = num ∧ ∀ e ∈ ds, ‖e‖ ≤ c * (f ^ num)⁻¹ * ε := by
  unfold toSPlane
  rw [if_neg (by omega)]
  have e1 : (((win f τ len).map fun t : ℝ => (t : ℂ)).drop off).take num =
      (List.range num).map fun i => ((τ * f ^ (off + i) : ℝ) : ℂ) := by
    rw [← List.map_drop, ← List.map_take, win_slice f τ len off num h, List.map_map]; rfl
  have e2 : (((win f τ len).map d).drop off).take num = (List.range num).map fun i => d (τ * f ^ (off + i)) := by
    rw [← List.map_drop, ← List.map_take, win_slice f τ len off num h, List.map_map]; rfl
  have e3 : ((win f τ len).map fun t : ℝ => (t : ℂ)).getD off 0 - 0 = ((τ * f ^ off : ℝ) : ℂ) := by
    rw [List.getD_eq_getElem _ _ (by simp [win]; omega)]
    simp [win]
  dsimp only
  rw [e1, e2, e3, List.map_map]
  have hoff : τ * f ^ off ≠ 0 := by positivity
  have e4 : (List.range num).map ((fun t => ((t - 0) / ((τ * f ^ off : ℝ) : ℂ)) ^ (1 / (c : ℂ))) ∘
      fun i => ((τ * f ^ (off + i) : ℝ) : ℂ)) = nodes f c num := by
    unfold nodes
    refine List.map_congr_left fun i _ => ?_
    simp only [Function.comp_apply, sub_zero]
    congr 1
    rw [← Complex.ofReal_div]
    congr 1
    rw [pow_add]
    field_simp
  rw [e4]
  refine ⟨_, rfl, by simp [nodes], fun e he => ?_⟩
  obtain ⟨i, hi, rfl⟩ := List.mem_iff_getElem.mp he
  rw [List.getElem_zipWith]
  have hi' : i < num := by simpa [nodes] using hi
  simp only [List.getElem_map, List.getElem_range, nodes]
  have e5 : ((f ^ i : ℝ) : ℂ) ^ (1 / (c : ℂ)) = (((f ^ i) ^ (1 / (c : ℝ)) : ℝ) : ℂ) := by
    rw [Complex.ofReal_cpow (by positivity)]
    push_cast; rfl
  rw [e5]
  set σ : ℝ := (f ^ i) ^ (1 / (c : ℝ)) with hσ
  have hσ0 : 0 ≤ σ := by positivity
  have hσ1 : σ ≤ 1 := Real.rpow_le_one (by positivity) (pow_le_one₀ hf0.le hf1.le) (by positivity)
  have e6 : (fun j => d (τ * f ^ (off + i)) j * ((c : ℂ) * (σ : ℂ) ^ (c - 1)) * ((τ * f ^ off : ℝ) : ℂ)) =
      ((c * σ ^ (c - 1) * (τ * f ^ off) : ℝ) : ℂ) • d (τ * f ^ (off + i)) := by
    funext j
    simp only [Pi.smul_apply, smul_eq_mul]
    push_cast; ring
  rw [e6, norm_smul, Complex.norm_real, Real.norm_of_nonneg (by positivity)]
  have h7 := hd (τ * f ^ (off + i)) (List.mem_map.mpr ⟨off + i, List.mem_range.mpr (by omega), rfl⟩)
  have h8 : τ * f ^ off ≤ (f ^ num)⁻¹ * (τ * f ^ (off + i)) := by
    rw [inv_mul_eq_div, le_div_iff₀ (by positivity), pow_add, mul_assoc]
    exact mul_le_mul_of_nonneg_left (mul_le_mul_of_nonneg_left (pow_le_pow_of_le_one hf0.le hf1.le hi'.le) (by positivity)) hτ.le
  have h9 : σ ^ (c - 1) ≤ 1 := pow_le_one₀ hσ0 hσ1
  calc c * σ ^ (c - 1) * (τ * f ^ off) * ‖d (τ * f ^ (off + i))‖
      ≤ c * 1 * ((f ^ num)⁻¹ * (τ * f ^ (off + i))) * ‖d (τ * f ^ (off + i))‖ := by gcongr
    _ = c * (f ^ num)⁻¹ * (τ * f ^ (off + i) * ‖d (τ * f ^ (off + i))‖) := by ring
    _ ≤ c * (f ^ num)⁻¹ * ε := by gcongr

theorem boundOnCycle_win (cfg : CycCfg) (rand : ι → ℂ) (y : ℝ → ι → ℂ) (τ : ℝ) (m : ℕ) :
    boundOnCycle cfg rand ((win cfg.factor τ (m + 3)).map y) =
      some (boundFrom cfg (randSum rand (y (τ * cfg.factor ^ m)) (y (τ * cfg.factor ^ m * cfg.factor)))
        (randSum rand (y (τ * cfg.factor ^ m * cfg.factor)) (y (τ * cfg.factor ^ m * cfg.factor * cfg.factor)))) := by
  have e : (win cfg.factor τ (m + 3)).map y = (win cfg.factor τ m).map y ++ [y (τ * cfg.factor ^ m),
      y (τ * cfg.factor ^ m * cfg.factor), y (τ * cfg.factor ^ m * cfg.factor * cfg.factor)] := by
    unfold win
    rw [List.range_succ, List.range_succ, List.range_succ]
    simp only [List.map_append, List.map_cons, List.map_nil, List.append_assoc, List.cons_append, List.nil_append]
    congr 4
    · ring_nf
    · congr 1; ring_nf
  unfold boundOnCycle
  rw [e, List.reverse_append]
  rfl

/-- Constants for finitely many candidates. -/
theorem exists_const {P : ℕ → ℝ → Prop} (hP : ∀ c, ∃ K, 0 ≤ K ∧ P c K) (hmono : ∀ c K K', K ≤ K' → P c K → P c K') (C : ℕ) :
    ∃ K, 0 ≤ K ∧ ∀ c, c ≤ C → P c K := by
  induction C with
  | zero =>
    obtain ⟨K, hK, h⟩ := hP 0
    exact ⟨K, hK, fun c hc => by obtain rfl : c = 0 := by omega
                                 exact h⟩
  | succ C ih =>
    obtain ⟨K, hK, h⟩ := ih
    obtain ⟨K', hK', h'⟩ := hP (C + 1)
    refine ⟨max K K', le_max_of_le_left hK, fun c hc => ?_⟩
    rcases Nat.lt_or_eq_of_le hc with h1 | h1
    · exact hmono _ _ _ (le_max_left _ _) (h c (by omega))
    · subst h1; exact hmono _ _ _ (le_max_right _ _) h'

/-- For samples within `δ` of `z` and small derivatives, with at most `C` candidates, the extrapolation exists and is within
`K δ` of `z`. -/
theorem approx_of_close (cfg : CycCfg) (rand : ι → ℂ) (hn : 3 ≤ cfg.n) (hf0 : 0 < cfg.factor) (hf1 : cfg.factor < 1)
    (htop : 0 < cfg.top) (C len : ℕ) (hC : 1 ≤ C) (hlen : cfg.n ≤ len) :
    ∃ K δ₀ : ℝ, 0 ≤ K ∧ 0 < δ₀ ∧ ∀ (y d : ℝ → ι → ℂ) (z : ι → ℂ) (τ δ : ℝ) (old : ℕ), 0 < τ → 0 ≤ δ → δ ≤ δ₀ →
      (∀ t ∈ win cfg.factor τ len, ‖y t - z‖ ≤ δ) → (∀ t ∈ win cfg.factor τ len, t * ‖d t‖ ≤ δ) →
      (∀ ub, boundOnCycle cfg rand ((win cfg.factor τ len).map y) = some ub → 1 ≤ ub ∧ ub ≤ C) →
      ∃ a, approxAtT0 cfg rand 0 ((win cfg.factor τ len).map fun t : ℝ => (t : ℂ)) ((win cfg.factor τ len).map y)
        ((win cfg.factor τ len).map d) old = some a ∧ ‖a - z‖ ≤ K * δ := by
  set f := cfg.factor with hf
  obtain ⟨K, hK, HK⟩ := exists_const (P := fun c K => ∀ (xs ds : List (ι → ℂ)) (z : ι → ℂ) (δ : ℝ), 0 ≤ δ →
      (∀ x ∈ xs, ‖x - z‖ ≤ δ) → (∀ d ∈ ds, ‖d‖ ≤ δ) →
      ∀ v, hermite 0 cfg.n (nodes f c cfg.n) xs ds false = some v → ‖v - z‖ ≤ K * δ)
    (fun c => hermite_close 0 cfg.n (by omega) (nodes f c cfg.n) false)
    (fun c K K' hKK h xs ds z δ h0 hx hd v hv => (h xs ds z δ h0 hx hd v hv).trans (mul_le_mul_of_nonneg_right hKK h0)) C
  have hnp : 0 < numPts cfg len := by unfold numPts; split_ifs <;> omega
  have hnp2 : numPts cfg len ≤ cfg.n := by unfold numPts; split_ifs <;> omega
  obtain ⟨K1, hK1, HK1⟩ := hermite_close (ι := ι) (((f ^ (len - 1) : ℝ) : ℂ) ^ (1 / ((1 : ℕ) : ℂ))) (numPts cfg len) hnp
    (nodes f 1 (numPts cfg len)) true
  set M : ℝ := (C + 1) * (f ^ cfg.n)⁻¹ with hM
  have hfn : 0 < f ^ cfg.n := by positivity
  have hM1 : 1 ≤ M := by
    rw [hM]
    have h1 : 1 ≤ (f ^ cfg.n)⁻¹ := (one_le_inv₀ hfn).mpr (pow_le_one₀ hf0.le hf1.le)
    have h2 : (0 : ℝ) ≤ C := by positivity
    nlinarith
  have hMc : ∀ c num : ℕ, c ≤ C → num ≤ cfg.n → c * (f ^ num)⁻¹ ≤ M := by
    intro c num h1 h2
    rw [hM]
    have h3 : (c : ℝ) ≤ C := by exact_mod_cast h1
    have h4 : (f ^ num)⁻¹ ≤ (f ^ cfg.n)⁻¹ := inv_anti₀ hfn (pow_le_pow_of_le_one hf0.le hf1.le h2)
    have h5 : (0 : ℝ) ≤ c := by positivity
    have h6 : 0 ≤ (f ^ num)⁻¹ := by positivity
    nlinarith
  refine ⟨K * M, cfg.top / (2 * (K1 * M + 1)), by positivity, by positivity, fun y d z τ δ old hτ h0 hδ hy hd hub => ?_⟩
  have hyw : ∀ x ∈ (win f τ len).map y, ‖x - z‖ ≤ M * δ := by
    intro x hx
    obtain ⟨t, ht, rfl⟩ := List.mem_map.mp hx
    exact (hy t ht).trans (by nlinarith)
  have hlenw : ∀ {α : Type} (g : ℝ → α), ((win f τ len).map g).length = len := fun g => by simp [win]
  -- the candidate 1
  have hres : ∃ r, residual 0 (numPts cfg len) ((win f τ len).map fun t : ℝ => (t : ℂ)) ((win f τ len).map y)
      ((win f τ len).map d) 1 = some r ∧ r < cfg.top := by
    obtain ⟨r, hr⟩ := residual_some 0 (numPts cfg len) ((win f τ len).map fun t : ℝ => (t : ℂ)) ((win f τ len).map y)
      ((win f τ len).map d) 1 le_rfl hnp (by rw [hlenw]; omega) (by rw [hlenw]; omega) (by rw [hlenw]; omega)
    refine ⟨r, hr, ?_⟩
    unfold residual at hr
    obtain ⟨ds, hds, hdl, hdb⟩ := toSPlane_win hf0 hf1 hτ 1 (numPts cfg len) 0 len le_rfl (by omega) hnp d δ hd
    rw [hds, Option.bind_some, Option.map_eq_some_iff] at hr
    obtain ⟨v, hv, rfl⟩ := hr
    have eT : (((win f τ len).map fun t : ℝ => (t : ℂ)).getLastD 0 - 0) / (((win f τ len).map fun t : ℝ => (t : ℂ)).headD 0 - 0) =
        ((f ^ (len - 1) : ℝ) : ℂ) := by
      obtain ⟨m, rfl⟩ : ∃ m, len = m + 1 := ⟨len - 1, by omega⟩
      have a1 : ((win f τ (m + 1)).map fun t : ℝ => (t : ℂ)).getLastD 0 = ((τ * f ^ m : ℝ) : ℂ) := by
        unfold win; rw [List.range_succ]; simp
      have a2 : ((win f τ (m + 1)).map fun t : ℝ => (t : ℂ)).headD 0 = (τ : ℂ) := by
        unfold win; rw [List.range_succ_eq_map]; simp
      rw [a1, a2, sub_zero, sub_zero, Nat.add_sub_cancel]
      have : (τ : ℂ) ≠ 0 := by exact_mod_cast hτ.ne'
      push_cast
      field_simp
    rw [eT] at hv
    have h1 := HK1 _ _ z (M * δ) (by positivity) hyw (fun e he => (hdb e he).trans
      (mul_le_mul_of_nonneg_right (hMc 1 _ hC hnp2) h0)) v hv
    have h2 : ‖((win f τ len).map y).getLastD 0 - z‖ ≤ δ := by
      obtain ⟨m, rfl⟩ : ∃ m, len = m + 1 := ⟨len - 1, by omega⟩
      have a1 : ((win f τ (m + 1)).map y).getLastD 0 = y (τ * f ^ m) := by
        unfold win; rw [List.range_succ]; simp
      rw [a1]
      exact hy _ (List.mem_map.mpr ⟨m, List.mem_range.mpr (by omega), rfl⟩)
    have h3 : ‖v - ((win f τ len).map y).getLastD 0‖ ≤ (K1 * M + 1) * δ := by
      have := norm_sub_le (v - z) (((win f τ len).map y).getLastD 0 - z)
      rw [sub_sub_sub_cancel_right] at this
      nlinarith
    have h4 : (K1 * M + 1) * δ ≤ cfg.top / 2 := by
      have h5 : 0 < K1 * M + 1 := by positivity
      calc (K1 * M + 1) * δ ≤ (K1 * M + 1) * (cfg.top / (2 * (K1 * M + 1))) := mul_le_mul_of_nonneg_left hδ h5.le
        _ = cfg.top / 2 := by field_simp
    linarith
  obtain ⟨ub, hub'⟩ : ∃ ub, boundOnCycle cfg rand ((win f τ len).map y) = some ub := by
    obtain ⟨m, rfl⟩ : ∃ m, len = m + 3 := ⟨len - 3, by omega⟩
    exact ⟨_, boundOnCycle_win cfg rand y τ m⟩
  obtain ⟨hub1, hub2⟩ := hub ub hub'
  obtain ⟨st, hst⟩ := searchLoop_some (residual 0 (numPts cfg len) ((win f τ len).map fun t : ℝ => (t : ℂ))
      ((win f τ len).map y) ((win f τ len).map d)) ((List.range ub).map (· + 1)) (cfg.top, old)
    (fun b hbm => residual_some _ _ _ _ _ _ (mem_cands.mp hbm).1 hnp (by rw [hlenw]; omega) (by rw [hlenw]; omega)
      (by rw [hlenw]; omega))
  have hcyc : cycleNumber cfg rand 0 ((win f τ len).map fun t : ℝ => (t : ℂ)) ((win f τ len).map y) ((win f τ len).map d) old =
      some st.2 := by
    unfold cycleNumber
    rw [if_pos ⟨by rw [hlenw, hlenw], by rw [hlenw, hlenw], by rw [hlenw]; omega⟩, hub', Option.bind_some, hlenw, hst,
      Option.map_some]
  obtain ⟨ub', hub2', hcase⟩ := C98_search_partial _ _ _ _ _ _ _ _ hcyc
  obtain rfl : ub = ub' := by rw [hub'] at hub2'; exact Option.some.inj hub2'
  dsimp only at hcase
  rw [hlenw] at hcase
  have hc : 1 ≤ st.2 ∧ st.2 ≤ C := by
    rcases hcase with ⟨-, hall⟩ | ⟨g1, g2, -⟩
    · obtain ⟨r, hr, hr2⟩ := hall 1 le_rfl hub1
      obtain ⟨r', hr', hr2'⟩ := hres
      rw [hr'] at hr
      rw [Option.some.inj hr] at hr2'
      linarith
    · exact ⟨g1, by omega⟩
  unfold approxAtT0
  obtain ⟨ds, hds, hdl, hdb⟩ := toSPlane_win hf0 hf1 hτ st.2 cfg.n (len - cfg.n) len hc.1 (by omega) (by omega) d δ hd
  rw [hcyc, Option.bind_some, hlenw, hds, Option.bind_some]
  have hsome : ∃ v, hermite 0 cfg.n (nodes f st.2 cfg.n) ((win f τ len).map y) ds false = some v := by
    unfold hermite
    rw [if_pos ⟨by omega, by simp [nodes], by rw [hlenw]; exact hlen, by rw [hdl]⟩]
    exact ⟨_, rfl⟩
  obtain ⟨v, hv⟩ := hsome
  refine ⟨v, hv, ?_⟩
  rw [mul_assoc]
  exact HK st.2 hc.2 _ _ z (M * δ) (by positivity) hyw (fun e he => (hdb e he).trans
    (mul_le_mul_of_nonneg_right (hMc st.2 _ hc.2 le_rfl) h0)) v hv

theorem one_le_boundFrom (cfg : CycCfg) (hmc : 1 ≤ cfg.maxCycle) (r1 r2 : ℂ) : 1 ≤ boundFrom cfg r1 r2 := by
  unfold boundFrom
  dsimp only
  split_ifs
  · exact le_rfl
  · exact le_rfl
  · exact le_max_of_le_right hmc

/-- Along a fractional power series the extrapolations from windows of `len` samples tend to the constant term. -/
theorem FracSeries.approx {y d : ℝ → ι → ℂ} {φ : ℂ → ι → ℂ} {c : ℕ} {R : ℝ} (h : FracSeries y d φ c R) (cfg : CycCfg)
    (rand : ι → ℂ) (hn : 3 ≤ cfg.n) (hf0 : 0 < cfg.factor) (hf1 : cfg.factor < 1) (htop : 0 < cfg.top)
    (hmc : 1 ≤ cfg.maxCycle) (len : ℕ) (hlen : cfg.n ≤ len) {ε : ℝ} (hε : 0 < ε) :
    ∃ r, 0 < r ∧ r ≤ R ∧ ∀ τ, 0 < τ → τ < r → ∀ old, ∃ a,
      approxAtT0 cfg rand 0 ((win cfg.factor τ len).map fun t : ℝ => (t : ℂ)) ((win cfg.factor τ len).map y)
        ((win cfg.factor τ len).map d) old = some a ∧ ‖a - φ 0‖ ≤ ε := by
  obtain ⟨C, r1, hC, hr1, -, hb⟩ := h.bounded cfg rand hf0 hf1
  obtain ⟨K, δ₀, hK, hδ₀, H⟩ := approx_of_close cfg rand hn hf0 hf1 htop C len hC hlen
  have hδ : 0 < min δ₀ (ε / (K + 1)) := lt_min hδ₀ (by positivity)
  obtain ⟨r2, hr2, hR2, h2⟩ := h.limit hδ
  refine ⟨min r1 r2, lt_min hr1 hr2, (min_le_right _ _).trans hR2, fun τ hτ hτr old => ?_⟩
  have hτ1 := hτr.trans_le (min_le_left _ _)
  have hτ2 := hτr.trans_le (min_le_right _ _)
  obtain ⟨a, ha, ha2⟩ := H y d (φ 0) τ _ old hτ hδ.le (min_le_left _ _)
    (fun t ht => (h2 t (win_mem hf0 hf1 hτ ht).1 (by linarith [(win_mem hf0 hf1 hτ ht).2])).1)
    (fun t ht => (h2 t (win_mem hf0 hf1 hτ ht).1 (by linarith [(win_mem hf0 hf1 hτ ht).2])).2) (by
      intro ub hub
      obtain ⟨m, rfl⟩ : ∃ m, len = m + 3 := ⟨len - 3, by omega⟩
      rw [boundOnCycle_win] at hub
      rw [← Option.some.inj hub]
      refine ⟨one_le_boundFrom cfg hmc _ _, hb _ (by positivity) ?_⟩
      exact lt_of_le_of_lt (mul_le_of_le_one_right hτ.le (pow_le_one₀ hf0.le hf1.le)) hτ1)
  refine ⟨a, ha, ha2.trans ?_⟩
  calc K * min δ₀ (ε / (K + 1)) ≤ (K + 1) * (ε / (K + 1)) := by
        refine mul_le_mul (by linarith) (min_le_right _ _) hδ.le (by positivity)
    _ = ε := by field_simp

end B2.Endgame
