/-
C84: the corrector converges quadratically near a nonsingular solution.
C85: the fixed-precision tracker follows a nonsingular path.
-/
import Verif.Track.NewtonLocal
import Verif.Track.PropsFixed
import Mathlib.Topology.MetricSpace.UniformConvergence
import Mathlib.Topology.UniformSpace.HeineCantor

namespace B2.Track
open Filter Topology B2.Predict Finset

variable {V : Type} [NormedAddCommGroup V] [NormedSpace ℂ V]

/-! ### C84 -/

/-- The correction loop when every solve squares the error. -/
theorem newtonLoop_quad (a : NewtonArgs V ℝ) (hn : a.norm = norm) (hc : ∀ i d z, a.crit i d z = true)
    (h1 : 1 ≤ a.minIts) (h3 : a.minIts < 2 ^ 32) (w : V) (C : ℝ) (hC : 0 < C) (k : ℕ)
    (htol : 2 / C * (1 / 2) ^ 2 ^ k < a.tol) (r : ℝ)
    (hs : ∀ z, ‖z - w‖ < r → ∃ d, a.solve z = some d ∧ ‖z + d - w‖ ≤ C * ‖z - w‖ ^ 2) :
    ∀ fuel ii z, k < ii + fuel → a.minIts ≤ ii + fuel → ii ≤ k ∨ ii < a.minIts →
      ‖z - w‖ < r → ‖z - w‖ ≤ 1 / C * (1 / 2) ^ 2 ^ ii →
      ∃ p n, newtonLoop a fuel ii z = (.success, p, n) ∧ n ≤ max (k + 1) a.minIts ∧
        ‖p - w‖ ≤ 4 * C * a.tol ^ 2 := by
  have hanti : ∀ i, (1 / 2 : ℝ) ^ 2 ^ (i + 1) ≤ (1 / 2) ^ 2 ^ i := fun i =>
    pow_le_pow_of_le_one (by norm_num) (by norm_num) (Nat.pow_le_pow_right (by norm_num) (by omega))
  intro fuel
  induction fuel with
  | zero => intro ii z h4 h5 h6; omega
  | succ fuel ih =>
    intro ii z h4 h5 h6 hzr hz
    have hz' : ‖z - w‖ ≤ 1 / (2 * C) := by
      refine hz.trans ?_
      have : (1 / 2 : ℝ) ^ 2 ^ ii ≤ 1 / 2 := by
        calc (1 / 2 : ℝ) ^ 2 ^ ii ≤ (1 / 2) ^ 1 :=
              pow_le_pow_of_le_one (by norm_num) (by norm_num) Nat.one_le_two_pow
          _ = 1 / 2 := pow_one _
      calc 1 / C * (1 / 2) ^ 2 ^ ii ≤ 1 / C * (1 / 2) := by gcongr
        _ = 1 / (2 * C) := by field_simp
    have h0 := norm_nonneg (z - w)
    obtain ⟨d, hd, hd2⟩ := hs z hzr
    have hnext : ‖z + d - w‖ ≤ 1 / C * (1 / 2) ^ 2 ^ (ii + 1) := by
      refine hd2.trans ?_
      calc C * ‖z - w‖ ^ 2 ≤ C * (1 / C * (1 / 2) ^ 2 ^ ii) ^ 2 := by gcongr
        _ = 1 / C * (1 / 2) ^ 2 ^ (ii + 1) := by
          rw [pow_succ 2 ii, pow_mul (1 / 2 : ℝ)]
          field_simp
    have hhalf : ‖z + d - w‖ ≤ ‖z - w‖ / 2 := by
      refine hd2.trans ?_
      have : C * ‖z - w‖ ≤ 1 / 2 := by
        calc C * ‖z - w‖ ≤ C * (1 / (2 * C)) := by gcongr
          _ = 1 / 2 := by field_simp
      nlinarith
    have hdn : ‖d‖ ≤ ‖z + d - w‖ + ‖z - w‖ := by
      have := norm_sub_le (z + d - w) (z - w)
      rwa [show z + d - w - (z - w) = d by abel] at this
    have hdn2 : ‖z - w‖ ≤ ‖z + d - w‖ + ‖d‖ := by
      have := norm_sub_le (z + d - w) d
      rwa [show z + d - w - d = z - w by abel] at this
    rw [newtonLoop, hd]
    dsimp only
    rw [uPred_of_pos h1 h3, hn]
    by_cases hm : ‖d‖ < a.tol ∧ a.minIts - 1 ≤ ii
    · rw [if_pos hm]
      refine ⟨_, _, rfl, by omega, hd2.trans ?_⟩
      have hz2 : ‖z - w‖ ≤ 2 * a.tol := by linarith [hm.1]
      calc C * ‖z - w‖ ^ 2 ≤ C * (2 * a.tol) ^ 2 := by gcongr
        _ = 4 * C * a.tol ^ 2 := by ring
    · rw [if_neg hm, if_pos (hc _ _ _)]
      have hor : ii + 1 ≤ k ∨ ii + 1 < a.minIts := by
        by_contra hcon
        push Not at hcon
        apply hm
        refine ⟨?_, by omega⟩
        have hki : k ≤ ii := by omega
        have hle : (1 / 2 : ℝ) ^ 2 ^ ii ≤ (1 / 2) ^ 2 ^ k :=
          pow_le_pow_of_le_one (by norm_num) (by norm_num)
            (Nat.pow_le_pow_right (by norm_num) hki)
        calc ‖d‖ ≤ ‖z + d - w‖ + ‖z - w‖ := hdn
          _ ≤ 1 / C * (1 / 2) ^ 2 ^ (ii + 1) + 1 / C * (1 / 2) ^ 2 ^ ii := add_le_add hnext hz
          _ ≤ 1 / C * (1 / 2) ^ 2 ^ k + 1 / C * (1 / 2) ^ 2 ^ k := by
              have := (hanti ii).trans hle
              exact add_le_add (mul_le_mul_of_nonneg_left this (by positivity))
                (mul_le_mul_of_nonneg_left hle (by positivity))
          _ = 2 / C * (1 / 2) ^ 2 ^ k := by ring
          _ < a.tol := htol
      obtain ⟨p, n, h7, h8, h9⟩ := ih (ii + 1) (z + d) (by omega) (by omega) hor
        (by linarith) hnext
      exact ⟨p, n, h7, h8, h9⟩

/-- **C84.**  Let `x` be a nonsingular solution of an analytic system at time `t`: `H (x, t) = 0` with
invertible Jacobian.  There are a radius `ρ` and a constant `C` such that, whenever the linear solver
answers every point of the ball with a solution of `J d = -H`:
every Newton step from a point of the ball has error at most `C` times the square of the error before; and
for every tolerance and every `k` with `2/C (1/2)^(2^k) < tol`, the corrector started anywhere in the ball
with limits `1 ≤ min ≤ max`, `k < max`, succeeds after at most `max (k+1) min` solves, with a
point within `4 C tol²` of the solution. -/
theorem C84_newton [CompleteSpace V] (H : V × ℂ → V) (x : V) (t : ℂ) (hH : AnalyticAt ℂ H (x, t))
    (hJ : IsUnit (jacV H (x, t))) (h0 : H (x, t) = 0) :
    ∃ ρ > 0, ∃ C > 0, ∀ solve : V → Option V,
      (∀ z, ‖z - x‖ < ρ → ∃ d, solve z = some d ∧ jacV H (z, t) d = - H (z, t)) →
      (∀ z d, ‖z - x‖ < ρ → solve z = some d → ‖z + d - x‖ ≤ C * ‖z - x‖ ^ 2) ∧
      ∀ (tol : ℝ) (k minIts maxIts : ℕ), 2 / C * (1 / 2) ^ 2 ^ k < tol → 1 ≤ minIts →
        minIts ≤ maxIts → k < maxIts → maxIts < 2 ^ 32 → ∀ z, ‖z - x‖ < ρ →
        ∃ p n, correct (R := ℝ) ⟨solve, norm, tol, minIts, maxIts, fun _ _ _ => true⟩ z
          = (.success, p, n) ∧ n ≤ max (k + 1) minIts ∧ ‖p - x‖ ≤ 4 * C * tol ^ 2 := by
  obtain ⟨ρ, hρ, C, hC⟩ := newton_local H (x, t) hH hJ
  have hCpos : 0 < max C 1 := lt_max_of_lt_right one_pos
  refine ⟨min ρ (1 / (2 * max C 1)), lt_min hρ (by positivity), max C 1, hCpos, ?_⟩
  intro solve hsolve
  have hd : ∀ z : V, dist (z, t) (x, t) = ‖z - x‖ := fun z => by
    rw [Prod.dist_eq, dist_self, dist_eq_norm, max_eq_left (norm_nonneg _)]
  have hstep : ∀ z d, ‖z - x‖ < min ρ (1 / (2 * max C 1)) → solve z = some d →
      ‖z + d - x‖ ≤ max C 1 * ‖z - x‖ ^ 2 := by
    intro z d hz hzd
    obtain ⟨d', h1, h2⟩ := hsolve z hz
    rw [hzd] at h1
    cases h1
    have h3 := hC (z, t) (x, t) (by rw [hd]; exact hz.trans_le (min_le_left _ _))
      (by rw [dist_self]; exact hρ) rfl h0 d h2
    refine h3.trans ?_
    gcongr
    exact le_max_left _ _
  refine ⟨hstep, ?_⟩
  intro tol k minIts maxIts htol hmin hmm hk h32 z hz
  obtain ⟨p, n, h1, h2, h3⟩ := newtonLoop_quad
    (⟨solve, norm, tol, minIts, maxIts, fun _ _ _ => true⟩ : NewtonArgs V ℝ) rfl (fun _ _ _ => rfl)
    hmin (by dsimp only; omega) x (max C 1) hCpos k htol (min ρ (1 / (2 * max C 1)))
    (fun z hz => by
      obtain ⟨d, e1, _⟩ := hsolve z hz
      exact ⟨d, e1, hstep z d hz e1⟩)
    maxIts 0 z (by omega) (by dsimp only; omega) (.inl (by omega)) hz (by
      refine (hz.trans_le (min_le_right _ _)).le.trans (le_of_eq ?_)
      field_simp
      norm_num)
  exact ⟨p, n, h1, h2, h3⟩

/-- A concrete case of `C84_newton`: `v² = 1` at `v = 1`. -/
example : ∃ ρ > 0, ∃ C > 0, ∀ solve : ℂ → Option ℂ,
    (∀ z, ‖z - 1‖ < ρ → ∃ d, solve z = some d ∧ jacV sqH (z, 1) d = - sqH (z, 1)) →
      (∀ z d, ‖z - 1‖ < ρ → solve z = some d → ‖z + d - 1‖ ≤ C * ‖z - 1‖ ^ 2) ∧
      ∀ (tol : ℝ) (k minIts maxIts : ℕ), 2 / C * (1 / 2) ^ 2 ^ k < tol → 1 ≤ minIts →
        minIts ≤ maxIts → k < maxIts → maxIts < 2 ^ 32 → ∀ z, ‖z - 1‖ < ρ →
        ∃ p n, correct (R := ℝ) ⟨solve, norm, tol, minIts, maxIts, fun _ _ _ => true⟩ z
          = (.success, p, n) ∧ n ≤ max (k + 1) minIts ∧ ‖p - 1‖ ≤ 4 * C * tol ^ 2 :=
  C84_newton sqH 1 1 (sqH_analytic _) (sqH_unit _ one_ne_zero) (by simp [sqH])

/-! ### C85 -/

/-- The outcome of a predictor step as the tracker sees it: `Predictor::Predict` returns the code of
`FullStep` and the predicted point, explicit_predictors.hpp lines 460-488 and 685-731. -/
def toPredicted {X : Type} (r : Except Code (X × (ℕ → X))) : Predicted X :=
  match r with
  | .ok (z, _) => .ok z
  | .error .matrixSolveFailureFirstPart => .firstFail
  | .error .higherPrecisionNecessary => .higherPrec
  | .error _ => .solveFail

/-- Bound on the stages of a step whose right-hand side is bounded near the point. -/
theorem stageLoop_bound (T : Table) (f : V → ℂ → Option V) (x : V) (t δ : ℂ) (B A : ℝ) (hB : 0 ≤ B)
    (hA : ∀ i < T.s, ∑ j ∈ range i, ‖(T.a i j : ℂ)‖ ≤ A) (hc : ∀ i < T.s, ‖(T.c i : ℂ)‖ ≤ A)
    (hf : ∀ v s, ‖v - x‖ ≤ ‖δ‖ * (A * B) → ‖s - t‖ ≤ ‖δ‖ * A → ∃ k, f v s = some k ∧ ‖k‖ ≤ B) :
    ∀ n ii Kc, ii + n ≤ T.s → (∀ j < ii, ‖Kc j‖ ≤ B) →
      ∃ Kc', stageLoop T f x t δ n ii Kc = some Kc' ∧ ∀ j < ii + n, ‖Kc' j‖ ≤ B := by
  intro n
  induction n with
  | zero => intro ii Kc _ h; exact ⟨Kc, rfl, by simpa using h⟩
  | succ n ih =>
    intro ii Kc hle h
    have h1 : ‖∑ jj ∈ range ii, (T.a ii jj : ℂ) • Kc jj‖ ≤ A * B := by
      calc ‖∑ jj ∈ range ii, (T.a ii jj : ℂ) • Kc jj‖
          ≤ ∑ jj ∈ range ii, ‖(T.a ii jj : ℂ) • Kc jj‖ := norm_sum_le _ _
        _ ≤ ∑ jj ∈ range ii, ‖(T.a ii jj : ℂ)‖ * B := by
            refine sum_le_sum fun j hj => ?_
            rw [norm_smul]
            exact mul_le_mul_of_nonneg_left (h j (mem_range.1 hj)) (norm_nonneg _)
        _ = (∑ jj ∈ range ii, ‖(T.a ii jj : ℂ)‖) * B := by rw [sum_mul]
        _ ≤ A * B := mul_le_mul_of_nonneg_right (hA ii (by omega)) hB
    obtain ⟨k, hk, hkB⟩ := hf (x + δ • ∑ jj ∈ range ii, (T.a ii jj : ℂ) • Kc jj)
      (t + (T.c ii : ℂ) * δ)
      (by rw [add_sub_cancel_left, norm_smul]; exact mul_le_mul_of_nonneg_left h1 (norm_nonneg _))
      (by
        rw [add_sub_cancel_left, norm_mul, mul_comm]
        exact mul_le_mul_of_nonneg_left (hc ii (by omega)) (norm_nonneg _))
    obtain ⟨Kc', e1, e2⟩ := ih (ii + 1) (Function.update Kc ii k) (by omega) (by
      intro j hj
      by_cases hji : j = ii
      · subst hji; simpa using hkB
      · rw [Function.update_of_ne hji]; exact h j (by omega))
    refine ⟨Kc', ?_, fun j hj => e2 j (by omega)⟩
    rw [stageLoop, hk]
    exact e1

/-- A constant bounding all coefficients of a table. -/
noncomputable def Table.bd (T : Table) : ℝ :=
  ∑ i ∈ range T.s, (∑ j ∈ range T.s, ‖(T.a i j : ℂ)‖ + ‖(T.c i : ℂ)‖ + ‖(T.b i : ℂ)‖)

theorem bd_bounds (T : Table) :
    (∀ i < T.s, ∑ j ∈ range i, ‖(T.a i j : ℂ)‖ ≤ Table.bd T) ∧
    (∀ i < T.s, ‖(T.c i : ℂ)‖ ≤ Table.bd T) ∧ ∑ i ∈ range T.s, ‖(T.b i : ℂ)‖ ≤ Table.bd T := by
  have hterm : ∀ i < T.s, ∑ j ∈ range T.s, ‖(T.a i j : ℂ)‖ + ‖(T.c i : ℂ)‖ + ‖(T.b i : ℂ)‖ ≤
      Table.bd T := fun i hi =>
    single_le_sum (f := fun i => ∑ j ∈ range T.s, ‖(T.a i j : ℂ)‖ + ‖(T.c i : ℂ)‖ + ‖(T.b i : ℂ)‖)
      (fun _ _ => by positivity) (mem_range.2 hi)
  have hA : ∀ i < T.s, ∑ j ∈ range i, ‖(T.a i j : ℂ)‖ ≤ Table.bd T := by
    intro i hi
    have h1 : ∑ j ∈ range i, ‖(T.a i j : ℂ)‖ ≤ ∑ j ∈ range T.s, ‖(T.a i j : ℂ)‖ :=
      sum_le_sum_of_subset_of_nonneg (range_subset_range.2 hi.le) fun _ _ _ => norm_nonneg _
    have := hterm i hi
    have h2 := norm_nonneg (T.c i : ℂ)
    have h3 := norm_nonneg (T.b i : ℂ)
    linarith
  have hc : ∀ i < T.s, ‖(T.c i : ℂ)‖ ≤ Table.bd T := by
    intro i hi
    have := hterm i hi
    have h1 : 0 ≤ ∑ j ∈ range T.s, ‖(T.a i j : ℂ)‖ := sum_nonneg fun _ _ => norm_nonneg _
    have h3 := norm_nonneg (T.b i : ℂ)
    linarith
  have hb : ∑ i ∈ range T.s, ‖(T.b i : ℂ)‖ ≤ Table.bd T := by
    refine sum_le_sum fun i _ => ?_
    have h1 : 0 ≤ ∑ j ∈ range T.s, ‖(T.a i j : ℂ)‖ := sum_nonneg fun _ _ => norm_nonneg _
    have h2 := norm_nonneg (T.c i : ℂ)
    linarith
  exact ⟨hA, hc, hb⟩

theorem fullStep_bound (T : Table) (f : V → ℂ → Option V) (x : V) (t δ : ℂ) (B : ℝ) (hB : 0 ≤ B)
    (hf : ∀ v s, ‖v - x‖ ≤ ‖δ‖ * (Table.bd T * B) → ‖s - t‖ ≤ ‖δ‖ * Table.bd T →
      ∃ k, f v s = some k ∧ ‖k‖ ≤ B) :
    ∃ q Kc, fullStep T f x t δ = .ok (q, Kc) ∧ ‖q - x‖ ≤ ‖δ‖ * (Table.bd T * B) := by
  have hbd0 : 0 ≤ Table.bd T := sum_nonneg fun _ _ => by positivity
  obtain ⟨hA, hc, hb⟩ := bd_bounds T
  unfold fullStep
  by_cases hs : T.s = 0
  · rw [if_pos hs]
    exact ⟨x, _, rfl, by rw [sub_self, norm_zero]; positivity⟩
  · rw [if_neg hs]
    obtain ⟨k0, hk0, hk0B⟩ := hf x t (by rw [sub_self, norm_zero]; positivity)
      (by rw [sub_self, norm_zero]; positivity)
    obtain ⟨Kc, h1, h2⟩ := stageLoop_bound T f x t δ B (Table.bd T) hB hA hc hf (T.s - 1) 1
      (Function.update (fun _ => 0) 0 k0) (by omega) (by
        intro j hj
        obtain rfl : j = 0 := by omega
        simpa using hk0B)
    rw [hk0]
    simp only [h1]
    refine ⟨_, _, rfl, ?_⟩
    rw [add_sub_cancel_left, norm_smul]
    refine mul_le_mul_of_nonneg_left ?_ (norm_nonneg _)
    calc ‖∑ ii ∈ range T.s, (T.b ii : ℂ) • Kc ii‖
        ≤ ∑ ii ∈ range T.s, ‖(T.b ii : ℂ) • Kc ii‖ := norm_sum_le _ _
      _ ≤ ∑ ii ∈ range T.s, ‖(T.b ii : ℂ)‖ * B := by
          refine sum_le_sum fun j hj => ?_
          rw [norm_smul]
          exact mul_le_mul_of_nonneg_left (h2 j (by have := mem_range.1 hj; omega)) (norm_nonneg _)
      _ = (∑ ii ∈ range T.s, ‖(T.b ii : ℂ)‖) * B := by rw [sum_mul]
      _ ≤ _ := mul_le_mul_of_nonneg_right hb hB

/-- A homotopy with a nonsingular solution path `y` over the segment from `t0` to `t1`. -/
structure NonsingularPath (H : V × ℂ → V) (t0 t1 : ℂ) (y : ℂ → V) : Prop where
  cont : ContinuousOn y (segment ℝ t0 t1)
  analytic : ∀ s ∈ segment ℝ t0 t1, AnalyticAt ℂ H (y s, s)
  solution : ∀ s ∈ segment ℝ t0 t1, H (y s, s) = 0
  nonsingular : ∀ s ∈ segment ℝ t0 t1, IsUnit (jacV H (y s, s))

/-- The environment of a tracker evaluates the homotopy `H`, predicts with the table `T`, and its linear
solves answer exactly on the set `U`. -/
structure ExactOn (H : V × ℂ → V) (T : Table) (U : Set (V × ℂ)) (env : Env V) : Prop where
  predict : ∃ f : ℕ → V → ℂ → Option V,
    (∀ i x t δ, env.predict i x t δ = toPredicted (fullStep T (f i) x t δ)) ∧
    ∀ i, ∀ r ∈ U, ∃ k, f i r.1 r.2 = some k ∧ jacV H r k = - jacT H r
  solve : ∀ i, ∀ r ∈ U, ∃ d, env.solve i r.2 r.1 = some d ∧ jacV H r d = - H r
  norm : env.norm = norm

/-- Uniform estimates along a nonsingular path. -/
theorem path_estimates [CompleteSpace V] {H : V × ℂ → V} {t0 t1 : ℂ} {y : ℂ → V}
    (P : NonsingularPath H t0 t1 y) {U : Set (V × ℂ)} (hU : IsOpen U)
    (hyU : ∀ s ∈ segment ℝ t0 t1, (y s, s) ∈ U) :
    ∃ R > 0, ∃ C ≥ 0, ∀ s ∈ segment ℝ t0 t1, ∀ v σ, ‖v - y s‖ < R → ‖σ - s‖ < R →
      (v, σ) ∈ U ∧ (∀ k, jacV H (v, σ) k = - jacT H (v, σ) → ‖k‖ ≤ C) ∧
      (∀ d, jacV H (v, s) d = - H (v, s) → ‖v + d - y s‖ ≤ C * ‖v - y s‖ ^ 2) := by
  have hcomp : IsCompact ((fun s => (y s, s)) '' segment ℝ t0 t1) := by
    refine IsCompact.image_of_continuousOn ?_ (P.cont.prodMk continuousOn_id)
    rw [segment_eq_image ℝ t0 t1]
    exact isCompact_Icc.image (by fun_prop)
  obtain ⟨ρ, hρ, C, hC⟩ := unif_compact hcomp
    (fun C r r' => r ∈ U ∧ (∀ k, jacV H r k = - jacT H r → ‖k‖ ≤ C) ∧
      (r.2 = r'.2 → H r' = 0 → ∀ d, jacV H r d = - H r → ‖r.1 + d - r'.1‖ ≤ C * ‖r.1 - r'.1‖ ^ 2))
    (by
      rintro C C' r r' hCC ⟨h1, h2, h3⟩
      refine ⟨h1, fun k hk => (h2 k hk).trans hCC, fun e1 e2 d hd => (h3 e1 e2 d hd).trans ?_⟩
      gcongr)
    (by
      rintro a ⟨s, hs, rfl⟩
      obtain ⟨ρ1, p1, C1, h1⟩ := newton_local H (y s, s) (P.analytic s hs) (P.nonsingular s hs)
      obtain ⟨ρ2, p2, C2, h2⟩ := rhs_local H (y s, s) (P.analytic s hs) (P.nonsingular s hs)
      obtain ⟨ρ3, p3, h3⟩ := Metric.isOpen_iff.1 hU _ (hyU s hs)
      refine ⟨min ρ1 (min ρ2 ρ3), lt_min p1 (lt_min p2 p3), max C1 C2, fun r r' hr hr' => ?_⟩
      rw [lt_min_iff, lt_min_iff] at hr hr'
      refine ⟨h3 (Metric.mem_ball.2 hr.2.2), fun k hk => (h2 r hr.2.1 k hk).trans (le_max_right _ _),
        fun e1 e2 d hd => (h1 r r' hr.1 hr'.1 e1 e2 d hd).trans ?_⟩
      gcongr
      exact le_max_left _ _)
  refine ⟨ρ, hρ, max C 0, le_max_right _ _, ?_⟩
  intro s hs v σ hv hσ
  have hd1 : dist (v, σ) (y s, s) < ρ := by
    rw [Prod.dist_eq, max_lt_iff, dist_eq_norm, dist_eq_norm]; exact ⟨hv, hσ⟩
  have hd2 : dist (v, s) (y s, s) < ρ := by
    rw [Prod.dist_eq, max_lt_iff, dist_eq_norm, dist_self]; exact ⟨hv, hρ⟩
  have hd3 : dist (y s, s) (y s, s) < ρ := by rw [dist_self]; exact hρ
  obtain ⟨h1, h2, -⟩ := hC _ ⟨s, hs, rfl⟩ (v, σ) (y s, s) hd1 hd3
  obtain ⟨-, -, h3⟩ := hC _ ⟨s, hs, rfl⟩ (v, s) (y s, s) hd2 hd3
  refine ⟨h1, fun k hk => (h2 k hk).trans (le_max_left _ _), fun d hd =>
    (h3 rfl (P.solution s hs) d hd).trans ?_⟩
  gcongr
  exact le_max_left _ _

/-- The constants used for one step. -/
theorem path_constants {H : V × ℂ → V} {t0 t1 : ℂ} {y : ℂ → V}
    (P : NonsingularPath H t0 t1 y) (T : Table) (R C ε : ℝ) (hR : 0 < R) (hC : 0 ≤ C) (hε : 0 < ε) :
    ∃ h0 > 0, ∃ ρ > 0, ρ ≤ ε ∧ 4 * ρ ≤ R ∧ 4 * (C * ρ) ≤ 1 ∧ h0 * (Table.bd T * C) ≤ ρ / 2 ∧
      h0 * Table.bd T ≤ ρ ∧ ∀ t ∈ segment ℝ t0 t1, ∀ t' ∈ segment ℝ t0 t1, ‖t - t'‖ ≤ h0 →
        ‖y t - y t'‖ < ρ / 2 := by
  have hbd0 : 0 ≤ Table.bd T := sum_nonneg fun _ _ => by positivity
  obtain ⟨ρ, hρ, r1, r2, r4⟩ : ∃ ρ > 0, ρ ≤ ε ∧ 4 * ρ ≤ R ∧ 4 * (C * ρ) ≤ 1 := by
    refine ⟨min ε (min (R / 4) (1 / (4 * (C + 1)))), by positivity, min_le_left _ _, ?_, ?_⟩
    · have : min ε (min (R / 4) (1 / (4 * (C + 1)))) ≤ R / 4 :=
        (min_le_right _ _).trans (min_le_left _ _)
      linarith
    · have : min ε (min (R / 4) (1 / (4 * (C + 1)))) ≤ 1 / (4 * (C + 1)) :=
        (min_le_right _ _).trans (min_le_right _ _)
      calc 4 * (C * min ε (min (R / 4) (1 / (4 * (C + 1)))))
          ≤ 4 * (C * (1 / (4 * (C + 1)))) := by gcongr
        _ = C / (C + 1) := by field_simp
        _ ≤ 1 := by rw [div_le_one (by positivity)]; linarith
  have hsegc : IsCompact (segment ℝ t0 t1) := by
    rw [segment_eq_image ℝ t0 t1]
    exact isCompact_Icc.image (by fun_prop)
  obtain ⟨η, hη, huc⟩ := Metric.uniformContinuousOn_iff.1
    (hsegc.uniformContinuousOn_of_continuous P.cont) (ρ / 2) (half_pos hρ)
  obtain ⟨h0, hh0, q1, q2, q3⟩ : ∃ h0 > 0, h0 < η ∧ h0 * (Table.bd T * C) ≤ ρ / 2 ∧
      h0 * Table.bd T ≤ ρ := by
    have hD : 0 < Table.bd T * C + Table.bd T + 1 := by positivity
    refine ⟨min (η / 2) (ρ / 2 / (Table.bd T * C + Table.bd T + 1)), by positivity, ?_, ?_, ?_⟩
    · exact (min_le_left _ _).trans_lt (by linarith)
    · have h1 : min (η / 2) (ρ / 2 / (Table.bd T * C + Table.bd T + 1)) ≤
          ρ / 2 / (Table.bd T * C + Table.bd T + 1) := min_le_right _ _
      rw [le_div_iff₀ hD] at h1
      refine le_trans (mul_le_mul_of_nonneg_left ?_ (by positivity)) h1
      linarith
    · have h1 : min (η / 2) (ρ / 2 / (Table.bd T * C + Table.bd T + 1)) ≤
          ρ / 2 / (Table.bd T * C + Table.bd T + 1) := min_le_right _ _
      rw [le_div_iff₀ hD] at h1
      have h2 : Table.bd T ≤ Table.bd T * C + Table.bd T + 1 := by
        have : 0 ≤ Table.bd T * C := by positivity
        linarith
      have h3 := mul_le_mul_of_nonneg_left h2
        (show 0 ≤ min (η / 2) (ρ / 2 / (Table.bd T * C + Table.bd T + 1)) by positivity)
      linarith
  refine ⟨h0, hh0, ρ, hρ, r1, r2, r4, q2, q3, fun t ht t' ht' htt => ?_⟩
  have h1 := huc t ht t' ht' (by rw [dist_eq_norm]; linarith)
  rwa [dist_eq_norm] at h1

/-- One step: close to the path and with a small enough time difference, prediction and correction
succeed and the new point is again close to the path. -/
theorem path_step [CompleteSpace V] {H : V × ℂ → V} {t0 t1 : ℂ} {y : ℂ → V}
    (P : NonsingularPath H t0 t1 y) (T : Table) {U : Set (V × ℂ)} (hU : IsOpen U)
    (hyU : ∀ s ∈ segment ℝ t0 t1, (y s, s) ∈ U) (tol ε : ℝ) (htol : 0 < tol) (hε : 0 < ε) :
    ∃ h0 > 0, ∃ ρ > 0, ρ ≤ ε ∧ ∀ (cfg : Cfg) (env : Env V), ExactOn H T U env → cfg.tol = tol →
      1 ≤ cfg.minNewton → cfg.minNewton ≤ cfg.maxNewton → cfg.maxNewton < 2 ^ 32 →
      ∀ i x t δ, t ∈ segment ℝ t0 t1 → t + δ ∈ segment ℝ t0 t1 → ‖δ‖ ≤ h0 → ‖x - y t‖ ≤ ρ →
      ∃ q p, env.predict i x t δ = .ok q ∧
        correctAt cfg env (fun _ _ _ => true) i q (t + δ) = (.success, p) ∧
        ‖p - y (t + δ)‖ ≤ ρ := by
  obtain ⟨R, hR, C, hC, hest⟩ := path_estimates P hU hyU
  have hbd0 : 0 ≤ Table.bd T := sum_nonneg fun _ _ => by positivity
  obtain ⟨h0, hh0, ρ, hρ, r1', r2, r4, q2, q3, huc⟩ :=
    path_constants P T R C (min ε (tol / 8)) hR hC (by positivity)
  have r1 : ρ ≤ ε := r1'.trans (min_le_left _ _)
  have r3 : 8 * ρ ≤ tol := by have := r1'.trans (min_le_right _ _); linarith
  refine ⟨h0, hh0, ρ, hρ, r1, ?_⟩
  intro cfg env hE hct hmin hmm h32 i x t δ ht htδ hδ hx
  obtain ⟨f, hp1, hp2⟩ := hE.predict
  have hδ1 : ‖δ‖ * (Table.bd T * C) ≤ ρ / 2 := le_trans (by gcongr) q2
  have hδ2 : ‖δ‖ * Table.bd T ≤ ρ := le_trans (by gcongr) q3
  obtain ⟨q, Kc, e1, e2⟩ := fullStep_bound T (f i) x t δ C hC (by
    intro v s hv hs
    have hv' : ‖v - y t‖ < R := by
      have := norm_add_le (v - x) (x - y t)
      rw [sub_add_sub_cancel] at this
      linarith
    obtain ⟨a1, a2, -⟩ := hest t ht v s hv' (by linarith)
    obtain ⟨k, b1, b2⟩ := hp2 i (v, s) a1
    exact ⟨k, b1, a2 k b2⟩)
  have hq : ‖q - y (t + δ)‖ ≤ 2 * ρ := by
    have h1 := huc t ht (t + δ) htδ (by rw [sub_add_cancel_left, norm_neg]; exact hδ)
    have h2 := norm_add_le (q - x) (x - y t)
    rw [sub_add_sub_cancel] at h2
    have h3 := norm_add_le (q - y t) (y t - y (t + δ))
    rw [sub_add_sub_cancel] at h3
    linarith
  obtain ⟨p, n, c1, c2⟩ := newtonLoop_tight
    (⟨env.solve i (t + δ), env.norm, cfg.tol, cfg.minNewton, cfg.maxNewton, fun _ _ _ => true⟩ :
      NewtonArgs V ℝ) hE.norm (fun _ _ _ => rfl) hmin (by dsimp only; omega) (y (t + δ)) (2 * ρ)
    (by dsimp only; rw [hct]; linarith) (by
      intro z hz
      obtain ⟨a1, -, a3⟩ := hest (t + δ) htδ z (t + δ) (by linarith) (by
        rw [sub_self, norm_zero]; exact hR)
      obtain ⟨d, b1, b2⟩ := hE.solve i (z, t + δ) a1
      refine ⟨d, b1, (a3 d b2).trans ?_⟩
      have hz0 := norm_nonneg (z - y (t + δ))
      have : C * ‖z - y (t + δ)‖ ≤ 1 / 2 := by
        calc C * ‖z - y (t + δ)‖ ≤ C * (2 * ρ) := by gcongr
          _ ≤ 1 / 2 := by linarith
      nlinarith) cfg.maxNewton 0 q hmin (by dsimp only; omega) hq
  refine ⟨q, p, by rw [hp1, e1]; rfl, ?_, by linarith⟩
  unfold correctAt correct
  dsimp only
  rw [c1]

/-- **C85.**  Let `y` be a nonsingular solution path of the homotopy `H` from `t0` to `t1`, predicted with
any table.  For every tracking tolerance and every `ε` there are a step size `h0` and a radius `ρ ≤ ε`
such that: a fixed-precision tracker whose linear solves are exact near the path, started within `ρ` of
the path with a step size at most `h0` (not below the minimum step size), with at least one Newton
iteration per step, enough steps allowed to cover the segment and no truncation, never fails a step,
stays within `ε` of the path all the time, and returns `Success` with a point within `ε` of the path
at the end time (up to the tolerance on times). -/
theorem C85_follows [CompleteSpace V] {H : V × ℂ → V} {t0 t1 : ℂ} {y : ℂ → V}
    (P : NonsingularPath H t0 t1 y) (T : Table) {U : Set (V × ℂ)} (hU : IsOpen U)
    (hyU : ∀ s ∈ segment ℝ t0 t1, (y s, s) ∈ U) (tol ε : ℝ) (htol : 0 < tol) (hε : 0 < ε) :
    ∃ h0 > 0, ∃ ρ > 0, ρ ≤ ε ∧ ∀ (cfg : Cfg) (env : Env V) (s0 : St V), ExactOn H T U env →
      cfg.tol = tol → 1 ≤ cfg.minNewton → cfg.minNewton ≤ cfg.maxNewton → cfg.maxNewton < 2 ^ 32 →
      cfg.truncate = false → 0 < s0.step → cfg.minStep ≤ s0.step → s0.step ≤ h0 →
      s0.time = t0 → s0.endtime = t1 → s0.nSucc = 0 → s0.nFail = 0 →
      ‖t1 - t0‖ ≤ cfg.maxNumSteps * s0.step → ‖s0.space - y t0‖ ≤ ρ →
      (∀ n, ‖(fixedRun cfg env s0 n).st.space - y (fixedRun cfg env s0 n).st.time‖ ≤ ε) ∧
      ∃ n s, fixedRun cfg env s0 n = .done .success s (some s.space) ∧
        Close s.time t1 cfg.eps ∧ ‖s.space - y s.time‖ ≤ ε ∧ s.nFail = 0 := by
  obtain ⟨h0, hh0, ρ, hρ, hρε, hstep⟩ := path_step P T hU hyU tol ε htol hε
  refine ⟨h0, hh0, ρ, hρ, hρε, ?_⟩
  intro cfg env s0 hE hct hmin hmm h32 htr hpos hms hle e0 e1 en ef hN hx
  -- the state of the call after `n` passes
  let Good : ℕ → St V → Prop := fun n s =>
    s.time ∈ segment ℝ t0 t1 ∧ s.endtime = t1 ∧ s.step = s0.step ∧ s.nSucc = n ∧ s.nFail = 0 ∧
    ‖s.space - y s.time‖ ≤ ρ ∧ (s.time = t1 ∨ ‖t1 - s.time‖ + n * s0.step ≤ ‖t1 - t0‖)
  have hinv : ∀ n, (∃ s, fixedRun cfg env s0 n = .running n s ∧ Good n s) ∨
      (∃ m s, fixedRun cfg env s0 n = .done .success s (some s.space) ∧ Good m s ∧
        relSmall s.time s.endtime cfg.eps) := by
    intro n
    induction n with
    | zero =>
      refine .inl ⟨s0, rfl, ?_, e1, rfl, en, ef, ?_, .inr ?_⟩
      · rw [e0]; exact left_mem_segment ℝ _ _
      · rw [e0]; exact hx
      · rw [e0]; simp
    | succ n ih =>
      rcases ih with ⟨s, hr, hg⟩ | ⟨m, s, hr, hg⟩
      · obtain ⟨g1, g2, g3, g4, g5, g6, g7⟩ := hg
        unfold fixedRun at hr ⊢
        rw [runAt_succ, hr]
        by_cases hrel : relSmall s.time s.endtime cfg.eps
        · exact .inr ⟨n, s, by simp [loopStep, hrel], ⟨g1, g2, g3, g4, g5, g6, g7⟩, hrel⟩
        · left
          have hne : s.time ≠ s.endtime := fun h => hrel (.inl h)
          have hrem : 0 < ‖t1 - s.time‖ := norm_pos_iff.2 (sub_ne_zero.2 (by rw [← g2]; exact hne.symm))
          have hbound : ‖t1 - s.time‖ + n * s0.step ≤ ‖t1 - t0‖ := by
            rcases g7 with h | h
            · rw [g2] at hne; exact absurd h hne
            · exact h
          have hnlt : n < cfg.maxNumSteps := by
            by_contra hcon
            push Not at hcon
            have : (cfg.maxNumSteps : ℝ) * s0.step ≤ n * s0.step := by
              gcongr
            linarith
          have hpre : fixedPre cfg s = .success := by
            unfold fixedPre
            rw [if_neg (by omega), if_neg (by rw [g3]; linarith)]
          obtain ⟨l, l0, l1, hl⟩ := nextDelta_frac s (by rw [g3]; exact hpos) hne
          have hseg' : s.time ∈ segment ℝ t0 s.endtime := by rw [g2]; exact g1
          obtain ⟨f1, -, -⟩ := frac_segment hseg' l0 l1 hne
          rw [← hl, g2] at f1
          have hdn : ‖nextDelta s‖ ≤ h0 := by
            unfold nextDelta
            split_ifs with hc
            · rw [g3, abs_of_pos hpos] at hc; linarith
            · have hd : 0 < ‖s.endtime - s.time‖ := by rw [g2]; exact hrem
              rw [norm_div, norm_mul, Complex.norm_real, Complex.norm_real, norm_norm,
                mul_div_cancel_right₀ _ hd.ne', g3, Real.norm_of_nonneg hpos.le]
              exact hle
          obtain ⟨q, p, p1, p2, p3⟩ := hstep cfg env hE hct hmin hmm h32 n s.space s.time
            (nextDelta s) g1 f1 hdn g6
          have hiter : fixedIter cfg env n { s with delta := nextDelta s } =
              (.success, { s with delta := nextDelta s, space := p }) := by
            unfold fixedIter
            simp only [p1, p2]
            simp
          refine ⟨baseSuccess { s with delta := nextDelta s, space := p }, ?_, ?_⟩
          · rcases loopStep_cases (cfg := cfg) (env := env) (T := fixedTracker cfg env) n s with
              ⟨h1, e⟩ | ⟨h1, h2, e⟩ | ⟨h1, h2, h3, _, e⟩ | ⟨h1, h2, h3, e⟩ | ⟨h1, h2, h3, e⟩
            · exact absurd h1 hrel
            · exact absurd hpre h2
            · rw [htr] at h3; cases h3
            · rw [e]; simp only [fixedTracker, hiter]
            · simp only [fixedTracker, hiter, ne_eq, not_true_eq_false] at h3
          · refine ⟨f1, g2, g3, by simp [baseSuccess, g4], g5, p3, ?_⟩
            simp only [baseSuccess]
            unfold nextDelta
            split_ifs with hc
            · left; rw [g2]; ring
            · right
              have hd : 0 < ‖s.endtime - s.time‖ := by rw [g2]; exact hrem
              rw [g3, abs_of_pos hpos, not_lt, g2] at hc
              rw [g2, g3]
              have hsplit : t1 - (s.time + (s0.step : ℂ) * (t1 - s.time) / (‖t1 - s.time‖ : ℂ)) =
                  ((1 - s0.step / ‖t1 - s.time‖ : ℝ) : ℂ) * (t1 - s.time) := by
                push_cast; ring
              have hle1 : s0.step / ‖t1 - s.time‖ ≤ 1 := by rw [div_le_one hrem]; exact hc
              rw [hsplit, norm_mul, Complex.norm_real, Real.norm_of_nonneg (by linarith), sub_mul,
                div_mul_cancel₀ _ hrem.ne']
              push_cast
              linarith
      · right
        refine ⟨m, s, ?_, hg⟩
        unfold fixedRun at hr ⊢
        exact runAt_done hr (Nat.le_succ n)
  constructor
  · intro n
    rcases hinv n with ⟨s, hr, hg⟩ | ⟨m, s, hr, hg, -⟩
    · rw [hr]; exact hg.2.2.2.2.2.1.trans hρε
    · rw [hr]; exact hg.2.2.2.2.2.1.trans hρε
  · rcases hinv (cfg.maxNumSteps + 1) with ⟨s, hr, hg⟩ | ⟨m, s, hr, hg, hrel⟩
    · exfalso
      -- the pass before had no steps left
      rcases hinv cfg.maxNumSteps with ⟨s', hr', hg'⟩ | ⟨m', s', hr', -⟩
      · obtain ⟨g1, g2, g3, g4, g5, g6, g7⟩ := hg'
        have ht : s'.time = t1 := by
          rcases g7 with h | h
          · exact h
          · have : ‖t1 - s'.time‖ ≤ 0 := by linarith
            exact (sub_eq_zero.1 (norm_le_zero_iff.1 this)).symm
        have hrel : relSmall s'.time s'.endtime cfg.eps := .inl (by rw [ht, g2])
        unfold fixedRun at hr hr'
        rw [runAt_succ, hr'] at hr
        simp [loopStep, hrel] at hr
      · unfold fixedRun at hr hr'
        rw [runAt_done hr' (Nat.le_succ _)] at hr
        cases hr
    · refine ⟨_, s, hr, ?_, hg.2.2.2.2.2.1.trans hρε, hg.2.2.2.2.1⟩
      have := relSmall_close hrel
      rwa [hg.2.1] at this

/-! A concrete case: the homotopy `v² - s²`, path `y s = s` from time 1 to time 1/2; the linear solves
fail at `v = 0`. -/

theorem half_segment {s : ℂ} (hs : s ∈ segment ℝ (1 : ℂ) (1 / 2)) : s ≠ 0 := by
  obtain ⟨a, b, ha, hb, hab, rfl⟩ := hs
  intro h
  have := congrArg Complex.re h
  simp at this
  linarith

theorem sqPath : NonsingularPath sqH 1 (1 / 2) id where
  cont := continuousOn_id
  analytic := fun _ _ => sqH_analytic _
  solution := fun s _ => by simp [sqH]
  nonsingular := fun s hs => sqH_unit _ (half_segment hs)

/-- The environment: exact solves wherever `v ≠ 0`. -/
noncomputable def sqEnv : Env ℂ where
  predict := fun _ x t δ =>
    toPredicted (fullStep rkf45T (fun v s => if v = 0 then none else some (s / v)) x t δ)
  solve := fun _ t z => if z = 0 then none else some (-(z ^ 2 - t ^ 2) / (2 * z))
  norm := norm
  crit := fun _ _ _ _ _ => true
  digitsB := fun _ => 16
  digitsC := fun _ => 16
  size := norm

theorem sqEnv_exact : ExactOn sqH rkf45T {r | r.1 ≠ 0} sqEnv where
  predict := by
    refine ⟨fun _ v s => if v = 0 then none else some (s / v), fun _ _ _ _ => rfl, ?_⟩
    rintro i r hr
    refine ⟨r.2 / r.1, if_neg hr, ?_⟩
    rw [sqH_jacV, sqH_jacT]
    have : r.1 ≠ 0 := hr
    field_simp
  solve := by
    rintro i r hr
    refine ⟨-(r.1 ^ 2 - r.2 ^ 2) / (2 * r.1), if_neg hr, ?_⟩
    rw [sqH_jacV, sqH]
    have : r.1 ≠ 0 := hr
    field_simp
  norm := rfl

example : ∃ h0 > 0, ∃ ρ > 0, ρ ≤ (1 / 100 : ℝ) ∧ ∀ (cfg : Cfg) (env : Env ℂ) (s0 : St ℂ),
    ExactOn sqH rkf45T {r | r.1 ≠ 0} env →
      cfg.tol = 1 / 1000 → 1 ≤ cfg.minNewton → cfg.minNewton ≤ cfg.maxNewton →
      cfg.maxNewton < 2 ^ 32 →
      cfg.truncate = false → 0 < s0.step → cfg.minStep ≤ s0.step → s0.step ≤ h0 →
      s0.time = 1 → s0.endtime = 1 / 2 → s0.nSucc = 0 → s0.nFail = 0 →
      ‖(1 / 2 : ℂ) - 1‖ ≤ cfg.maxNumSteps * s0.step → ‖s0.space - id 1‖ ≤ ρ →
      (∀ n, ‖(fixedRun cfg env s0 n).st.space - id (fixedRun cfg env s0 n).st.time‖ ≤ 1 / 100) ∧
      ∃ n s, fixedRun cfg env s0 n = .done .success s (some s.space) ∧
        Close s.time (1 / 2) cfg.eps ∧ ‖s.space - id s.time‖ ≤ 1 / 100 ∧ s.nFail = 0 :=
  C85_follows sqPath rkf45T (isOpen_ne_fun continuous_fst continuous_const)
    (fun _ hs => half_segment hs) (1 / 1000) (1 / 100) (by norm_num) (by norm_num)

end B2.Track
