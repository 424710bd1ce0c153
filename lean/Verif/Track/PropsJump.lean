/-
C86: with a small enough step size no tracker jumps to another path, whatever fails on the way.
-/
import Verif.Track.PropsPath
import Verif.Track.PropsAMP

namespace B2.Track
open Filter Topology B2.Predict Finset

variable {V : Type} [NormedAddCommGroup V] [NormedSpace ℂ V]

/-- The environment of a tracker evaluates the homotopy `H` and predicts with the table `T`; linear solves
at points of `U` may fail, but when they succeed they are exact. -/
structure SoundOn (H : V × ℂ → V) (T : Table) (U : Set (V × ℂ)) (env : Env V) : Prop where
  predict : ∃ f : ℕ → V → ℂ → Option V,
    (∀ i x t δ, env.predict i x t δ = toPredicted (fullStep T (f i) x t δ)) ∧
    ∀ i, ∀ r ∈ U, ∀ k, f i r.1 r.2 = some k → jacV H r k = - jacT H r
  solve : ∀ i, ∀ r ∈ U, ∀ d, env.solve i r.2 r.1 = some d → jacV H r d = - H r

theorem stageLoop_bound' (T : Table) (f : V → ℂ → Option V) (x : V) (t δ : ℂ) (B A : ℝ) (hB : 0 ≤ B)
    (hA : ∀ i < T.s, ∑ j ∈ range i, ‖(T.a i j : ℂ)‖ ≤ A) (hc : ∀ i < T.s, ‖(T.c i : ℂ)‖ ≤ A)
    (hf : ∀ v s, ‖v - x‖ ≤ ‖δ‖ * (A * B) → ‖s - t‖ ≤ ‖δ‖ * A → ∀ k, f v s = some k → ‖k‖ ≤ B) :
    ∀ n ii Kc Kc', ii + n ≤ T.s → (∀ j < ii, ‖Kc j‖ ≤ B) → stageLoop T f x t δ n ii Kc = some Kc' →
      ∀ j < ii + n, ‖Kc' j‖ ≤ B := by
  intro n
  induction n with
  | zero => intro ii Kc Kc' _ h e; cases e; simpa using h
  | succ n ih =>
    intro ii Kc Kc' hle h e
    have h1 : ‖∑ jj ∈ range ii, (T.a ii jj : ℂ) • Kc jj‖ ≤ A * B := by
      calc ‖∑ jj ∈ range ii, (T.a ii jj : ℂ) • Kc jj‖
          ≤ ∑ jj ∈ range ii, ‖(T.a ii jj : ℂ) • Kc jj‖ := norm_sum_le _ _
        _ ≤ ∑ jj ∈ range ii, ‖(T.a ii jj : ℂ)‖ * B := by
            refine sum_le_sum fun j hj => ?_
            rw [norm_smul]
            exact mul_le_mul_of_nonneg_left (h j (mem_range.1 hj)) (norm_nonneg _)
        _ = (∑ jj ∈ range ii, ‖(T.a ii jj : ℂ)‖) * B := by rw [sum_mul]
        _ ≤ A * B := mul_le_mul_of_nonneg_right (hA ii (by omega)) hB
    have hk := hf (x + δ • ∑ jj ∈ range ii, (T.a ii jj : ℂ) • Kc jj)
      (t + (T.c ii : ℂ) * δ)
      (by rw [add_sub_cancel_left, norm_smul]; exact mul_le_mul_of_nonneg_left h1 (norm_nonneg _))
      (by
        rw [add_sub_cancel_left, norm_mul, mul_comm]
        exact mul_le_mul_of_nonneg_left (hc ii (by omega)) (norm_nonneg _))
    rw [stageLoop] at e
    cases hfe : f (x + δ • ∑ jj ∈ range ii, (T.a ii jj : ℂ) • Kc jj) (t + (T.c ii : ℂ) * δ) with
    | none => rw [hfe] at e; cases e
    | some k =>
      rw [hfe] at e
      intro j hj
      refine ih (ii + 1) (Function.update Kc ii k) Kc' (by omega) (fun j hj => ?_) e j (by omega)
      by_cases hji : j = ii
      · subst hji; simpa using hk k hfe
      · rw [Function.update_of_ne hji]; exact h j (by omega)

theorem fullStep_bound' (T : Table) (f : V → ℂ → Option V) (x : V) (t δ : ℂ) (B : ℝ) (hB : 0 ≤ B)
    (hf : ∀ v s, ‖v - x‖ ≤ ‖δ‖ * (Table.bd T * B) → ‖s - t‖ ≤ ‖δ‖ * Table.bd T →
      ∀ k, f v s = some k → ‖k‖ ≤ B) (q : V) (Kc : ℕ → V) (hq : fullStep T f x t δ = .ok (q, Kc)) :
    ‖q - x‖ ≤ ‖δ‖ * (Table.bd T * B) := by
  have hbd0 : 0 ≤ Table.bd T := sum_nonneg fun _ _ => by positivity
  obtain ⟨hA, hc, hb⟩ := bd_bounds T
  unfold fullStep at hq
  by_cases hs : T.s = 0
  · rw [if_pos hs] at hq
    cases hq
    rw [sub_self, norm_zero]; positivity
  · rw [if_neg hs] at hq
    cases hk0 : f x t with
    | none => rw [hk0] at hq; cases hq
    | some k0 =>
      rw [hk0] at hq
      have hk0B := hf x t (by rw [sub_self, norm_zero]; positivity)
        (by rw [sub_self, norm_zero]; positivity) k0 hk0
      dsimp only at hq
      cases hl : stageLoop T f x t δ (T.s - 1) 1 (Function.update (fun _ => 0) 0 k0) with
      | none => rw [hl] at hq; cases hq
      | some Kc' =>
        rw [hl] at hq
        cases hq
        have h2 := stageLoop_bound' T f x t δ B (Table.bd T) hB hA hc hf (T.s - 1) 1
          (Function.update (fun _ => 0) 0 k0) Kc (by omega) (by
            intro j hj
            obtain rfl : j = 0 := by omega
            simpa using hk0B) hl
        rw [add_sub_cancel_left, norm_smul]
        refine mul_le_mul_of_nonneg_left ?_ (norm_nonneg _)
        calc ‖∑ ii ∈ range T.s, (T.b ii : ℂ) • Kc ii‖
            ≤ ∑ ii ∈ range T.s, ‖(T.b ii : ℂ) • Kc ii‖ := norm_sum_le _ _
          _ ≤ ∑ ii ∈ range T.s, ‖(T.b ii : ℂ)‖ * B := by
              refine sum_le_sum fun j hj => ?_
              rw [norm_smul]
              exact mul_le_mul_of_nonneg_left (h2 j (by have := mem_range.1 hj; omega))
                (norm_nonneg _)
          _ = (∑ ii ∈ range T.s, ‖(T.b ii : ℂ)‖) * B := by rw [sum_mul]
          _ ≤ _ := mul_le_mul_of_nonneg_right hb hB

/-- A successful correction ends closer to the attracting point. -/
theorem newtonLoop_near (a : NewtonArgs V ℝ) (w : V) (e : ℝ)
    (hs : ∀ z d, ‖z - w‖ ≤ e → a.solve z = some d → ‖z + d - w‖ ≤ ‖z - w‖ / 2) :
    ∀ fuel ii z p n, ‖z - w‖ ≤ e → newtonLoop a fuel ii z = (.success, p, n) →
      ‖p - w‖ ≤ ‖z - w‖ / 2 := by
  intro fuel
  induction fuel with
  | zero => intro ii z p n _ h; cases h
  | succ fuel ih =>
    intro ii z p n hz h
    rw [newtonLoop] at h
    cases hd : a.solve z with
    | none => rw [hd] at h; cases h
    | some d =>
      rw [hd] at h
      have h1 := hs z d hz hd
      have h0 := norm_nonneg (z - w)
      dsimp only at h
      split_ifs at h with c1 c2
      · cases h; exact h1
      · have := ih (ii + 1) (z + d) p n (by linarith) h
        linarith
      · cases h

/-- One accepted step. -/
theorem path_step_sound [CompleteSpace V] {H : V × ℂ → V} {t0 t1 : ℂ} {y : ℂ → V}
    (P : NonsingularPath H t0 t1 y) (T : Table) {U : Set (V × ℂ)} (hU : IsOpen U)
    (hyU : ∀ s ∈ segment ℝ t0 t1, (y s, s) ∈ U) (ε : ℝ) (hε : 0 < ε) :
    ∃ h0 > 0, ∃ ρ > 0, ρ ≤ ε ∧ ∀ (cfg : Cfg) (env : Env V), SoundOn H T U env →
      ∀ crit i x t δ q p, t ∈ segment ℝ t0 t1 → t + δ ∈ segment ℝ t0 t1 → ‖δ‖ ≤ h0 → ‖x - y t‖ ≤ ρ →
      env.predict i x t δ = .ok q → correctAt cfg env crit i q (t + δ) = (.success, p) →
      ‖p - y (t + δ)‖ ≤ ρ := by
  obtain ⟨R, hR, C, hC, hest⟩ := path_estimates P hU hyU
  obtain ⟨h0, hh0, ρ, hρ, r1, r2, r4, q2, q3, huc⟩ := path_constants P T R C ε hR hC hε
  refine ⟨h0, hh0, ρ, hρ, r1, ?_⟩
  intro cfg env hE crit i x t δ q p ht htδ hδ hx hpred hcorr
  have hbd0 : 0 ≤ Table.bd T := sum_nonneg fun _ _ => by positivity
  obtain ⟨f, hp1, hp2⟩ := hE.predict
  have hδ1 : ‖δ‖ * (Table.bd T * C) ≤ ρ / 2 := le_trans (by gcongr) q2
  have hδ2 : ‖δ‖ * Table.bd T ≤ ρ := le_trans (by gcongr) q3
  obtain ⟨Kc, e1⟩ : ∃ Kc, fullStep T (f i) x t δ = .ok (q, Kc) := by
    rw [hp1] at hpred
    unfold toPredicted at hpred
    split at hpred
    · rename_i z Kc heq
      cases hpred
      exact ⟨Kc, heq⟩
    all_goals cases hpred
  have e2 := fullStep_bound' T (f i) x t δ C hC (by
    intro v s hv hs k hk
    have hv' : ‖v - y t‖ < R := by
      have := norm_add_le (v - x) (x - y t)
      rw [sub_add_sub_cancel] at this
      linarith
    obtain ⟨a1, a2, -⟩ := hest t ht v s hv' (by linarith)
    exact a2 k (hp2 i (v, s) a1 k hk)) q Kc e1
  have hq : ‖q - y (t + δ)‖ ≤ 2 * ρ := by
    have h1 := huc t ht (t + δ) htδ (by rw [sub_add_cancel_left, norm_neg]; exact hδ)
    have h2 := norm_add_le (q - x) (x - y t)
    rw [sub_add_sub_cancel] at h2
    have h3 := norm_add_le (q - y t) (y t - y (t + δ))
    rw [sub_add_sub_cancel] at h3
    linarith
  unfold correctAt correct at hcorr
  dsimp only at hcorr
  obtain ⟨c, p', n, hloop⟩ : ∃ c p' n, newtonLoop (⟨env.solve i (t + δ), env.norm, cfg.tol,
    cfg.minNewton, cfg.maxNewton, crit⟩ : NewtonArgs V ℝ) cfg.maxNewton 0 q = (c, p', n) :=
    ⟨_, _, _, rfl⟩
  rw [hloop] at hcorr
  cases hcorr
  have := newtonLoop_near _ (y (t + δ)) (2 * ρ) (by
      intro z d hz hd
      obtain ⟨a1, -, a3⟩ := hest (t + δ) htδ z (t + δ) (by linarith) (by
        rw [sub_self, norm_zero]; exact hR)
      refine (a3 d (hE.solve i (z, t + δ) a1 d hd)).trans ?_
      have hz0 := norm_nonneg (z - y (t + δ))
      have : C * ‖z - y (t + δ)‖ ≤ 1 / 2 := by
        calc C * ‖z - y (t + δ)‖ ≤ C * (2 * ρ) := by gcongr
          _ ≤ 1 / 2 := by linarith
      nlinarith) _ _ _ _ _ hq hloop
  linarith

/-- The loop, for any tracker. -/
theorem no_jump_generic [CompleteSpace V] {H : V × ℂ → V} {t0 t1 : ℂ} {y : ℂ → V}
    (P : NonsingularPath H t0 t1 y) (T : Table) {U : Set (V × ℂ)} (hU : IsOpen U)
    (hyU : ∀ s ∈ segment ℝ t0 t1, (y s, s) ∈ U) (ε : ℝ) (hε : 0 < ε) :
    ∃ h0 > 0, ∃ ρ > 0, ρ ≤ ε ∧ ∀ (cfg : Cfg) (env : Env V) (Tr : Tracker V) crit (s0 : St V),
      Faithful cfg env Tr crit → SoundOn H T U env →
      s0.time = t0 → s0.endtime = t1 → ‖s0.space - y t0‖ ≤ ρ →
      (∀ n s, runAt cfg env Tr s0 n = .running n s → Tr.pre s = .success →
        0 < s.step ∧ s.step ≤ h0) →
      ∀ n, (∀ s o, runAt cfg env Tr s0 n ≠ .done .goingToInfinity s o) →
        (runAt cfg env Tr s0 n).st.time ∈ segment ℝ t0 t1 ∧
        (runAt cfg env Tr s0 n).st.endtime = t1 ∧
        ‖(runAt cfg env Tr s0 n).st.space - y (runAt cfg env Tr s0 n).st.time‖ ≤ ε := by
  obtain ⟨h0, hh0, ρ, hρ, hρε, hstep⟩ := path_step_sound P T hU hyU ε hε
  refine ⟨h0, hh0, ρ, hρ, hρε, ?_⟩
  intro cfg env Tr crit s0 F hE e0 e1 hx hsz n hn
  have key : ∀ n, (∀ s o, runAt cfg env Tr s0 n ≠ .done .goingToInfinity s o) →
      (runAt cfg env Tr s0 n).st.time ∈ segment ℝ t0 t1 ∧
      (runAt cfg env Tr s0 n).st.endtime = t1 ∧
      ‖(runAt cfg env Tr s0 n).st.space - y (runAt cfg env Tr s0 n).st.time‖ ≤ ρ := by
    intro n
    induction n with
    | zero =>
      intro _
      refine ⟨?_, e1, ?_⟩
      · show s0.time ∈ _; rw [e0]; exact left_mem_segment ℝ _ _
      · show ‖s0.space - y s0.time‖ ≤ ρ; rw [e0]; exact hx
    | succ n ih =>
      intro hn
      have ih' := ih (fun s o h => hn s o (runAt_done h (Nat.le_succ n)))
      cases hr : runAt cfg env Tr s0 n with
      | done c s o =>
        rw [runAt_done hr (Nat.le_succ n)]
        rw [hr] at ih'
        exact ih'
      | running i s =>
        have := runAt_index hr
        subst this
        rw [hr] at ih'
        obtain ⟨g1, g2, g3⟩ := ih'
        simp only [Run.st] at g1 g2 g3
        rw [runAt_succ, hr] at hn ⊢
        obtain ⟨u1, u2, u3⟩ := F.times i { s with delta := nextDelta s }
        rcases loopStep_cases (cfg := cfg) (env := env) (T := Tr) i s with
          ⟨h1, e⟩ | ⟨h1, h2, e⟩ | ⟨h1, h2, _, _, e⟩ | ⟨h1, h2, h3, e⟩ | ⟨h1, h2, h3, e⟩
        · rw [e]; exact ⟨g1, g2, g3⟩
        · rw [e]; exact ⟨g1, g2, g3⟩
        · exact absurd e (hn _ _)
        · rw [e]
          simp only [Run.st, baseSuccess, u1, u2, u3]
          obtain ⟨q, a1, a2⟩ := F.ok i _ h3
          have hne : s.time ≠ s.endtime := fun h => h1 (Or.inl h)
          obtain ⟨hs0, hs1⟩ := hsz i s hr h2
          obtain ⟨l, l0, l1, hl⟩ := nextDelta_frac s hs0 hne
          have hseg' : s.time ∈ segment ℝ t0 s.endtime := by rw [g2]; exact g1
          obtain ⟨f1, -, -⟩ := frac_segment hseg' l0 l1 hne
          rw [← hl, g2] at f1
          have hdn : ‖nextDelta s‖ ≤ h0 := by
            unfold nextDelta
            split_ifs with hc
            · rw [abs_of_pos hs0] at hc; linarith
            · have hd : 0 < ‖s.endtime - s.time‖ := norm_pos_iff.2 (sub_ne_zero.2 hne.symm)
              rw [norm_div, norm_mul, Complex.norm_real, Complex.norm_real, norm_norm,
                mul_div_cancel_right₀ _ hd.ne', Real.norm_of_nonneg hs0.le]
              exact hs1
          exact ⟨f1, g2, hstep cfg env hE _ i s.space s.time (nextDelta s) q _ g1 f1 hdn g3 a1 a2⟩
        · rw [e]
          obtain ⟨f1, f2, f3⟩ := F.onFail (baseFail (Tr.iter i { s with delta := nextDelta s }).2)
          have hb := F.bad i _ h3
          have k1 := f1.trans u1
          have k2 := f2.trans u2
          have k3 := f3.trans hb
          simp only [Run.st]
          rw [k1, k2, k3]
          exact ⟨g1, g2, g3⟩
  obtain ⟨k1, k2, k3⟩ := key n hn
  exact ⟨k1, k2, k3.trans hρε⟩

/-- **C86, fixed precision.**  Let `y` be a nonsingular path of `H`.  For every `ε` there are `h0` and `ρ`
such that a fixed-precision tracker started within `ρ` of the path with a positive step size at most `h0`
never leaves the `ε`-neighbourhood of this path: whatever steps fail, whatever the settings, at every
moment (and in particular in the result of a successful call) the current point is within `ε` of `y` at the
current time.  Linear solves may fail but are exact when they succeed. -/
theorem C86_fixed [CompleteSpace V] {H : V × ℂ → V} {t0 t1 : ℂ} {y : ℂ → V}
    (P : NonsingularPath H t0 t1 y) (T : Table) {U : Set (V × ℂ)} (hU : IsOpen U)
    (hyU : ∀ s ∈ segment ℝ t0 t1, (y s, s) ∈ U) (ε : ℝ) (hε : 0 < ε) :
    ∃ h0 > 0, ∃ ρ > 0, ρ ≤ ε ∧ ∀ (cfg : Cfg) (env : Env V) (s0 : St V), SoundOn H T U env →
      0 < cfg.failFactor → cfg.failFactor < 1 → 0 < s0.step → s0.step ≤ h0 →
      s0.time = t0 → s0.endtime = t1 → s0.nSucc = 0 → s0.nFail = 0 → ‖s0.space - y t0‖ ≤ ρ →
      ∀ n, (∀ s o, fixedRun cfg env s0 n ≠ .done .goingToInfinity s o) →
        ‖(fixedRun cfg env s0 n).st.space - y (fixedRun cfg env s0 n).st.time‖ ≤ ε := by
  obtain ⟨h0, hh0, ρ, hρ, hρε, hmain⟩ := no_jump_generic P T hU hyU ε hε
  refine ⟨h0, hh0, ρ, hρ, hρε, ?_⟩
  intro cfg env s0 hE hf0 hf1 hp hle e0 e1 en ef hx n hn
  refine (hmain cfg env (fixedTracker cfg env) _ s0 (fixed_faithful cfg env) hE e0 e1 hx ?_ n hn).2.2
  intro m s hr _
  obtain ⟨-, k⟩ := fixed_counts cfg env s0 en ef m s hr
  rw [k]
  refine ⟨by positivity, ?_⟩
  have : cfg.failFactor ^ s.nFail ≤ 1 := pow_le_one₀ hf0.le hf1.le
  nlinarith

/-- Bound on the step sizes of the adaptive tracker. -/
theorem amp_step_le (cfg : Cfg) (ac : AmpCfg) (env : Env V) (s0 : St V) (h0 L : ℝ)
    (hf0 : 0 < cfg.failFactor) (hf1 : cfg.failFactor < 1) (hmin : 0 < cfg.minStep)
    (hmax : ac.maxPrec ≤ 1000) (hL : ‖s0.endtime - s0.time‖ ≤ L) (h1 : s0.step ≤ h0)
    (h2 : cfg.maxStep ≤ h0)
    (h3 : (10 : ℝ) ^ (-13 : ℤ) * L ≤ h0) (h4 : (10 : ℝ) ^ (-150 : ℤ) ≤ h0) (hp : 16 ≤ s0.prec) :
    ∀ n s, ampRun cfg ac env s0 n = .running n s → s.step ≤ h0 ∧ 16 ≤ s.prec := by
  have hpos0 : 0 < h0 := lt_of_lt_of_le (by positivity) h4
  have hms : ∀ p togo, 16 ≤ p → 0 ≤ togo → togo ≤ L → minStepFor p togo ≤ h0 := by
    intro p togo hp16 ht0 htL
    unfold minStepFor
    dsimp only
    split_ifs with hc
    · exact h4
    · refine le_trans ?_ h3
      have : (10 : ℝ) ^ (3 - (p : ℤ)) ≤ (10 : ℝ) ^ (-13 : ℤ) :=
        zpow_le_zpow_right₀ (by norm_num) (by omega)
      have hz : (0 : ℝ) ≤ (10 : ℝ) ^ (3 - (p : ℤ)) := by positivity
      exact mul_le_mul this htL ht0 (by positivity)
  intro n
  induction n with
  | zero => intro s hr; simp [ampRun, runAt] at hr; subst hr; exact ⟨h1, hp⟩
  | succ n ih =>
    intro s' hr
    unfold ampRun at hr ih
    rw [runAt_succ] at hr
    cases hr0 : runAt cfg env (ampTracker cfg ac env) s0 n with
    | done c s o => rw [hr0] at hr; cases hr
    | running i s =>
      have := runAt_index hr0
      subst this
      obtain ⟨k1, k2⟩ := ih s hr0
      rw [hr0] at hr
      have htime := (C38_amp_time cfg ac env s0 hmin i).1
      have hend := (C38_amp_time cfg ac env s0 hmin i).2.1
      unfold ampRun at htime hend
      rw [hr0] at htime hend
      simp only [Run.st] at htime hend
      have htogo : ‖s.time - s.endtime‖ ≤ L := by
        obtain ⟨a, b, ha, hb, hab, hc⟩ := htime
        refine le_trans ?_ hL
        rw [hend, ← hc, show a • s0.time + b • s0.endtime - s0.endtime =
          (a : ℂ) * (s0.time - s0.endtime) by
            have hb' : (b : ℂ) = 1 - a := by rw [← Complex.ofReal_one, ← Complex.ofReal_sub]; congr 1; linarith
            simp only [Complex.real_smul]; rw [hb']; ring]
        rw [norm_mul, Complex.norm_real, Real.norm_of_nonneg ha, norm_sub_rev]
        have : a ≤ 1 := by linarith
        have hh := norm_nonneg (s0.endtime - s0.time)
        nlinarith
      have hpre : ampPre cfg ac s = .success ∨ ampPre cfg ac s ≠ .success := em _
      rcases loopStep_cases (cfg := cfg) (env := env) (T := ampTracker cfg ac env) i s with
        ⟨_, e⟩ | ⟨_, _, e⟩ | ⟨_, _, _, _, e⟩ | ⟨_, hp2, hp3, e⟩ | ⟨_, hp2, hp3, e⟩
      · rw [e] at hr; cases hr
      · rw [e] at hr; cases hr
      · rw [e] at hr; cases hr
      all_goals
        have hprec := amp_prec16 cfg ac env i s k2 hmax hp2
        have hspos : 0 < s.step := by
          have hp2' : ampPre cfg ac s = .success := hp2
          unfold ampPre at hp2'
          split_ifs at hp2' with c1 c2
          push Not at c2
          linarith
        have hstep : ((ampTracker cfg ac env).iter i { s with delta := nextDelta s }).2.step ≤ h0 := by
          simp only [ampTracker]
          rcases ampIter_cases cfg ac env i { s with delta := nextDelta s } with
            ⟨q', p', h1', h2', h3'⟩ | ⟨_, _, h3 | h3 | ⟨_, h3⟩⟩
          · rw [h3']
            simp only [adjustSuccess]
            have hmn : s.step * cfg.failFactor ≤ s.step := by nlinarith
            rcases minimize_cases _ _ _ _ _ _ _ with e' | ⟨p, _, e'⟩
            · rw [e']; exact hmn.trans k1
            · rw [e']
              refine (min_le_right _ _).trans ?_
              split_ifs
              · exact k1
              · exact (min_le_right _ _).trans h2
          · rw [h3]; exact k1
          · rw [h3]
            simp only [newtonConvergenceError]
            nlinarith
          · rw [h3]
            have hm := hms s.prec ‖s.time - s.endtime‖ k2 (norm_nonneg _) htogo
            unfold ampCriterionError
            dsimp only
            by_cases hc : s.step * cfg.failFactor < minStepFor s.prec ‖s.time - s.endtime‖
            · rw [if_pos hc]
              refine max_le ?_ hm
              nlinarith
            · rw [if_neg hc]
              rcases minimize_cases _ _ _ _ _ _ _ with e' | ⟨p, _, e'⟩
              · rw [e']; exact hm
              · rw [e']
                refine (min_le_right _ _).trans ?_
                nlinarith
        rw [e] at hr
        simp only [Run.running.injEq] at hr
        rw [← hr.2]
        exact ⟨hstep, hprec⟩

/-- **C86, adaptive precision.**  The same for the adaptive tracker, for all precision settings up to 1000
digits and all outcomes of the precision criteria, when the maximal step size, the initial step size and
`10⁻¹³` times the length of the segment are at most `h0`. -/
theorem C86_amp [CompleteSpace V] {H : V × ℂ → V} {t0 t1 : ℂ} {y : ℂ → V}
    (P : NonsingularPath H t0 t1 y) (T : Table) {U : Set (V × ℂ)} (hU : IsOpen U)
    (hyU : ∀ s ∈ segment ℝ t0 t1, (y s, s) ∈ U) (ε : ℝ) (hε : 0 < ε) :
    ∃ h0 > 0, ∃ ρ > 0, ρ ≤ ε ∧ ∀ (cfg : Cfg) (ac : AmpCfg) (env : Env V) (s0 : St V),
      SoundOn H T U env → 0 < cfg.failFactor → cfg.failFactor < 1 → 0 < cfg.minStep →
      ac.maxPrec ≤ 1000 → 16 ≤ s0.prec → s0.step ≤ h0 → cfg.maxStep ≤ h0 →
      (10 : ℝ) ^ (-13 : ℤ) * ‖t1 - t0‖ ≤ h0 → (10 : ℝ) ^ (-150 : ℤ) ≤ h0 →
      s0.time = t0 → s0.endtime = t1 → ‖s0.space - y t0‖ ≤ ρ →
      ∀ n, (∀ s o, ampRun cfg ac env s0 n ≠ .done .goingToInfinity s o) →
        ‖(ampRun cfg ac env s0 n).st.space - y (ampRun cfg ac env s0 n).st.time‖ ≤ ε := by
  obtain ⟨h0, hh0, ρ, hρ, hρε, hmain⟩ := no_jump_generic P T hU hyU ε hε
  refine ⟨h0, hh0, ρ, hρ, hρε, ?_⟩
  intro cfg ac env s0 hE hf0 hf1 hmin hmax hp16 hs hms h13 h150 e0 e1 hx n hn
  refine (hmain cfg env (ampTracker cfg ac env) _ s0 (amp_faithful cfg ac env) hE e0 e1 hx ?_ n
    hn).2.2
  intro m s hr hpre
  refine ⟨?_, (amp_step_le cfg ac env s0 h0 ‖t1 - t0‖ hf0 hf1 hmin hmax (by rw [e0, e1]) hs hms h13
    h150 hp16 m s hr).1⟩
  have hp2' : ampPre cfg ac s = .success := hpre
  unfold ampPre at hp2'
  split_ifs at hp2' with c1 c2
  push Not at c2
  linarith

/-- A tracker whose linear solves fail now and then (here: at odd calls), and are exact otherwise. -/
noncomputable def flakyEnv : Env ℂ :=
  { sqEnv with solve := fun i t z => if i % 2 = 1 then none else sqEnv.solve i t z }

theorem flakyEnv_sound : SoundOn sqH rkf45T {r | r.1 ≠ 0} flakyEnv where
  predict := by
    obtain ⟨f, h1, h2⟩ := sqEnv_exact.predict
    refine ⟨f, h1, fun i r hr k hk => ?_⟩
    obtain ⟨k', e1, e2⟩ := h2 i r hr
    rw [e1] at hk
    cases hk
    exact e2
  solve := by
    intro i r hr d hd
    obtain ⟨d', e1, e2⟩ := sqEnv_exact.solve i r hr
    simp only [flakyEnv] at hd
    split_ifs at hd
    rw [e1] at hd
    cases hd
    exact e2

/-- The path `y t = t` of `y² - t² = 0`: the other path `y t = -t` is never reached, and the tracker may
fail in every other correction. -/
example : ∃ h0 > 0, ∃ ρ > 0, ρ ≤ (1 / 100 : ℝ) ∧ ∀ (cfg : Cfg) (s0 : St ℂ),
      0 < cfg.failFactor → cfg.failFactor < 1 → 0 < s0.step → s0.step ≤ h0 →
      s0.time = 1 → s0.endtime = 1 / 2 → s0.nSucc = 0 → s0.nFail = 0 → ‖s0.space - 1‖ ≤ ρ →
      ∀ n, (∀ s o, fixedRun cfg flakyEnv s0 n ≠ .done .goingToInfinity s o) →
        ‖(fixedRun cfg flakyEnv s0 n).st.space - (fixedRun cfg flakyEnv s0 n).st.time‖ ≤ 1 / 100 := by
  obtain ⟨h0, hh, ρ, hρ, hle, h⟩ := C86_fixed sqPath rkf45T
    (isOpen_ne_fun continuous_fst continuous_const) (fun _ hs => half_segment hs) (1 / 100)
    (by norm_num)
  exact ⟨h0, hh, ρ, hρ, hle, fun cfg s0 => h cfg flakyEnv s0 flakyEnv_sound⟩

end B2.Track
