import Verif.Alg.PropsGamma
import Verif.Alg.PropsMidpath
import Verif.Alg.PropsZeroDim

/-!
# Property C149: a whole zero-dimensional solve

`ZeroDim::Solve` on the homotopy of a total degree solve (C147), with fine tracks to the endgame boundary
(C148) and an accurate endgame.
-/

namespace B2.Alg.Htp

open B2.Sys B2.Start B2.Cont B2.Predict B2.Track Set Filter Topology

/-- The tracker of a solve: called on a start point with tolerance `tol` it answers what the
fixed-precision tracker answers, with steps at most `hm`, times compared up to `η`, exact linear solves. -/
def FineTracker {m : ℕ} (H : (Fin m → ℂ) × ℂ → Fin m → ℂ) (T : Table) (E : ZEnv m) (N : ℕ)
    (tol hm η te : ℝ) : Prop :=
  ∀ k i, i < N → ∃ (cfg : Cfg) (env : Track.Env (Fin m → ℂ)) (s0 : St (Fin m → ℂ)),
    ExactOn H T (Solvable H) env ∧ FineTrack cfg s0 tol hm te ∧ cfg.eps ≤ η ∧ s0.space = E.start i ∧
    ∀ n code s p, fixedRun cfg env s0 n = .done code s (some p) → E.track k tol (E.start i) = (code, p)

/-- The endgame of a solve: started within `δ` of a path at time `te`, it succeeds and its result is
within `ε` of the limit of that path at time 0. -/
def AccurateEndgame {m : ℕ} (H : (Fin m → ℂ) × ℂ → Fin m → ℂ) (E : ZEnv m) (te δ ε : ℝ) : Prop :=
  ∀ k x y z, OpenPath H y → Tendsto y (𝓝[>] 0) (𝓝 z) → ‖x - y te‖ ≤ δ →
    (E.endgame k x).1 = .success ∧ ‖(E.endgame k x).2 - z‖ ≤ ε

/-- Times close to `te`. -/
theorem close_norm {a : ℂ} {te e : ℝ} (h0 : 0 < te) (he : 0 ≤ e) (he' : e ≤ 1 / 2) (h : Close a te e) :
    ‖a - te‖ ≤ 2 * e * te := by
  have hn : ‖(te : ℂ)‖ = te := by rw [Complex.norm_real, Real.norm_eq_abs, abs_of_pos h0]
  rcases h with h | h | h
  · rw [h, sub_self, norm_zero]
    positivity
  · have h1 : ‖a‖ ≤ ‖a - te‖ + te := by
      have := norm_add_le (a - te) (te : ℂ)
      rwa [sub_add_cancel, hn] at this
    have h2 := mul_le_mul_of_nonneg_left h1 he
    have h3 := mul_le_mul_of_nonneg_right he' (norm_nonneg (a - te))
    linarith
  · rw [hn] at h
    nlinarith [norm_nonneg (a - te)]

theorem duringSingle_checker {d : ℕ} (E : ZEnv d) (s : ZSt d) (i : ℕ) :
    (duringSingle E s i).checker = s.checker := by
  unfold duringSingle
  split
  · split_ifs <;> rfl
  · rfl

theorem trackDuring_checker {d : ℕ} (N : ℕ) (E : ZEnv d) (s : ZSt d) :
    (trackDuring N E s).checker = s.checker := by
  unfold trackDuring
  generalize List.range N = L
  induction L generalizing s with
  | nil => rfl
  | cons i L ih => rw [List.foldl_cons, ih, duringSingle_checker]

/-- A solve whose boundary points do not meet: no path is tracked twice. -/
theorem solve_no_rerun {d N : ℕ} (E : ZEnv d) (cfg : ZCfg)
    (h : ∀ (D : List (Bdry d)), D.length = N →
      (∀ i b, D[i]? = some b → ∃ k, E.track k cfg.newtonBefore (E.start i) = (b.code, b.pt)) →
      ∀ i j, ¬ Meet cfg.midTol D i j) :
    (solve N E cfg (ZSt.init d)).checker.passed = true ∧
    (solve N E cfg (ZSt.init d)).log =
      (List.range N).map (fun i => .before i cfg.newtonBefore) ++
        (List.range N).filterMap (egEvent (solve N E cfg (ZSt.init d)).bdry) ∧
    ∀ i b, (solve N E cfg (ZSt.init d)).bdry[i]? = some b →
      ∃ k, E.track k cfg.newtonBefore (E.start i) = (b.code, b.pt) := by
  have hall : ∀ (L : List ℕ) (s : ZSt d) (done : List ℕ), Sized N s → (∀ i ∈ L, i < N) →
      (∀ i ∈ done, ∀ b, s.bdry[i]? = some b → ∃ k, E.track k cfg.newtonBefore (E.start i) = (b.code, b.pt)) →
      ∀ i ∈ done ++ L, ∀ b, (L.foldl (trackSingle E cfg.newtonBefore) s).bdry[i]? = some b →
        ∃ k, E.track k cfg.newtonBefore (E.start i) = (b.code, b.pt) := by
    intro L
    induction L with
    | nil =>
      intro s done _ _ hd i hi
      rw [List.append_nil] at hi
      exact hd i hi
    | cons a L ih =>
      intro s done hs hL hd i hi
      rw [List.foldl_cons]
      refine ih (trackSingle E cfg.newtonBefore s a) (done ++ [a])
        (trackSingle_spec E _ s a hs (hL a (by simp))).1 (fun i hi => hL i (by simp [hi])) ?_ i (by simpa using hi)
      intro j hj b hb
      have hb' : (s.bdry.set a ⟨(E.track s.k cfg.newtonBefore (E.start a)).2,
        (E.track s.k cfg.newtonBefore (E.start a)).1⟩)[j]? = some b := hb
      rw [List.getElem?_set] at hb'
      split_ifs at hb' with h1 h2
      · subst h1
        simp only [Option.some.injEq] at hb'
        subst hb'
        exact ⟨s.k, rfl⟩
      · simp only [List.mem_append, List.mem_singleton] at hj
        rcases hj with hj | hj
        · exact hd j hj b hb'
        · exact absurd hj.symm h1
  have hsz := setup_sized cfg (ZSt.init d) (checkerOk_fresh N)
  obtain ⟨s1, e1, a1, a2, a3, a4, a5, a6, -⟩ := trackMany_spec E cfg.newtonBefore (List.range N)
    (setup N cfg (ZSt.init d)) hsz (by simp)
  have hb1 : ∀ i b, s1.bdry[i]? = some b → ∃ k, E.track k cfg.newtonBefore (E.start i) = (b.code, b.pt) := by
    intro i b hb
    have hi : i < N := by
      have := (List.getElem?_eq_some_iff.1 hb).1
      rwa [a1.bdry] at this
    refine hall (List.range N) (setup N cfg (ZSt.init d)) [] hsz (by simp) (by simp) i (by simpa using hi) b ?_
    rw [e1]
    exact hb
  have hpass : (recheck E cfg s1).checker.passed = true := by
    have h1 := (C54_partial cfg.midTol E.start [s1.bdry]).1
    have h2 : after cfg.midTol E.start [s1.bdry] = (recheck E cfg s1).checker := by
      unfold after recheck
      rw [a3]
      rfl
    rw [h2] at h1
    rw [h1]
    intro D hD i j
    rw [List.mem_singleton] at hD
    subst hD
    exact h _ a1.bdry hb1 i j
  have hbd : boundary E cfg s1 = recheck E cfg s1 := by
    unfold boundary
    cases cfg.maxAttempts with
    | zero => rfl
    | succ n => rw [resolveLoop, if_pos hpass]
  have hsolve : solve N E cfg (ZSt.init d) = multiplicities N cfg (trackDuring N E (recheck E cfg s1)) := by
    unfold solve trackBefore
    rw [e1, hbd]
  have hsz1 : Sized N (recheck E cfg s1) :=
    ⟨a1.md, a1.bdry, a1.sols, checkerOk_check a1.chk _ _ _ (le_of_eq a1.bdry)⟩
  obtain ⟨s3, e3, c1, c2, c3, c4, -⟩ := during_spec E (List.range N) (recheck E cfg s1) List.nodup_range hsz1
    (by simp) fun i hi => a6 i (List.mem_range.2 hi)
  have hb3 : (solve N E cfg (ZSt.init d)).bdry = s1.bdry := by
    rw [hsolve]
    show (trackDuring N E (recheck E cfg s1)).bdry = _
    unfold trackDuring
    rw [e3, c3]
    rfl
  refine ⟨?_, ?_, ?_⟩
  · rw [hsolve]
    show (trackDuring N E (recheck E cfg s1)).checker.passed = true
    rw [trackDuring_checker, hpass]
  · rw [hb3, hsolve]
    show (trackDuring N E (recheck E cfg s1)).log = _
    unfold trackDuring
    rw [e3, c4]
    show s1.log ++ (List.range N).filterMap (egEvent s1.bdry) = _
    rw [a5]
    rfl
  · rw [hb3]
    exact hb1

theorem norm_le_eDist {m : ℕ} (a b : Pt m) : ‖a - b‖ ≤ eDist a b := by
  rw [← dist2_eq]
  unfold dist2
  rw [pi_norm_le_iff_of_nonneg (Real.sqrt_nonneg _)]
  intro i
  apply Real.le_sqrt_of_sq_le
  exact Finset.single_le_sum (f := fun i => ‖a i - b i‖ ^ 2) (fun _ _ => sq_nonneg _) (Finset.mem_univ i)

theorem eDist_le {m : ℕ} (a b : Pt m) : eDist a b ≤ √m * ‖a - b‖ := by
  rw [← dist2_eq]
  unfold dist2
  rw [Real.sqrt_le_left (by positivity), mul_pow, Real.sq_sqrt (Nat.cast_nonneg m)]
  calc ∑ i, ‖a i - b i‖ ^ 2 ≤ ∑ _i : Fin m, ‖a - b‖ ^ 2 :=
        Finset.sum_le_sum fun i _ => by
          have := norm_le_pi_norm (a - b) i
          rw [Pi.sub_apply] at this
          gcongr
    _ = m * ‖a - b‖ ^ 2 := by simp

theorem exists_pos_le {ι : Type*} (S : Finset ι) (f : ι → ℝ) (h : ∀ i ∈ S, 0 < f i) :
    ∃ g > 0, ∀ i ∈ S, g ≤ f i := by
  classical
  induction S using Finset.induction with
  | empty => exact ⟨1, one_pos, by simp⟩
  | insert a S ha ih =>
    obtain ⟨g, hg, h1⟩ := ih fun i hi => h i (by simp [hi])
    refine ⟨min g (f a), lt_min hg (h a (by simp)), fun i hi => ?_⟩
    rcases Finset.mem_insert.1 hi with rfl | hi
    · exact min_le_right _ _
    · exact (min_le_left _ _).trans (h1 i hi)

theorem exists_bound {ι : Type*} (S : Finset ι) (f : ι → ℝ) : ∃ M, ∀ i ∈ S, f i ≤ M := by
  obtain ⟨M, hM⟩ := S.finite_toSet.image f |>.bddAbove
  exact ⟨M, fun i hi => hM ⟨i, hi, rfl⟩⟩

open Classical in
/-- **C149.** A whole solve. Let the homotopy be regular, with no zero of the target at
infinity for the patch. There is a tolerance for multiplicities, and for every endgame boundary `te` a
tolerance of the midpath check, such that the following holds for all smaller tolerances, every radius `δ`
and accuracy `ε` of the endgame (small against the tolerance for multiplicities), and fine enough tracks to
the endgame boundary.
Each path is tracked once, the midpath check passes, the endgame is run on each path, and every path ends
with success and within `ε` of the limit `z i` of the path of zeros through start point `i`, a zero of the
homotopy at time 0. The multiplicity reported is the number of paths with the same limit. Every nonsingular
solution of the user's system (not at infinity for the patch) is, dehomogenized, the limit of exactly one of
the paths, and is reported with multiplicity 1. -/
theorem C149 {simp : Node → Node} {w w' : World} {i0 k0 h : ℕ} {g : List Var} {r : Choices}
    {H : (Fin (g.length + 1) → ℂ) × ℂ → Fin (g.length + 1) → ℂ}
    (hreg : RegularSolve simp w w' i0 k0 h g r H)
    (hinf : ∀ x, x ≠ 0 → (∀ j : Fin g.length, H (x, 0) j.castSucc = 0) → H (x, 0) (Fin.last _) ≠ -1)
    (T : Table) (tol : ℝ) (htol : 0 < tol) :
    ∃ post > 0, ∀ te : ℝ, 0 < te → te < 1 → ∃ mid > 0, ∀ δ ε : ℝ, 0 < δ → 0 ≤ ε → ∃ hm > 0, ∃ η > 0, ∀ (E : ZEnv (g.length + 1)) (cfg : ZCfg),
      (∀ i < (degsOf w i0 g).prod, IsStart w w' i0 k0 g r i (E.start i)) →
      FineTracker H T E (degsOf w i0 g).prod tol hm η te → AccurateEndgame H E te δ ε →
      cfg.newtonBefore = tol → cfg.midTol ≤ mid → cfg.postTol ≤ post → 2 * √(g.length + 1 : ℕ) * ε < cfg.postTol →
      let N := (degsOf w i0 g).prod
      let s := solve N E cfg (ZSt.init _)
      ∃ z : ℕ → Fin (g.length + 1) → ℂ,
        (∀ i < N, H (z i, 0) = 0 ∧ ∃ y, OpenPath H y ∧ y 1 = E.start i ∧ Tendsto y (𝓝[>] 0) (𝓝 (z i))) ∧
        s.checker.passed = true ∧
        (∃ x : ℕ → Fin (g.length + 1) → ℂ, s.log = (List.range N).map (fun i => .before i tol) ++
          (List.range N).map fun i => .endgame i (x i)) ∧
        (∀ i < N, ∃ m x, s.md[i]? = some m ∧ s.sols[i]? = some x ∧ m.pre = .success ∧ m.post = .success ∧
          ‖x - z i‖ ≤ ε ∧ m.mult = (((Finset.range N).filter fun j => z j = z i).card : ℤ)) ∧
        ∀ f, ComputesFun simp w i0 g.length f → ∀ y, f y = 0 → IsUnit (fderiv ℂ f y) →
          Patch.dot (1 :: List.ofFn y) ((List.range (g.length + 1)).map (r.coef 0)) ≠ 0 →
          ∃ i < N, (w'.objs h).vs.dehomogenize (List.ofFn (z i)) = some (List.ofFn y) ∧
            (∀ j < N, z j = z i → j = i) ∧ ∃ m, s.md[i]? = some m ∧ m.mult = 1 := by
  set N := (degsOf w i0 g).prod with hN
  have hex : ∀ i, ∃ x Y z, i < N → IsStart w w' i0 k0 g r i x ∧ OpenPath H Y ∧ Y 1 = x ∧ H (z, 0) = 0 ∧
      Tendsto Y (𝓝[>] 0) (𝓝 z) := by
    intro i
    by_cases hi : i < N
    swap
    · exact ⟨0, fun _ => 0, 0, fun h => absurd h hi⟩
    obtain ⟨x, hx⟩ := hreg.numbered i hi
    obtain ⟨Y, hY, hY1⟩ := hreg.through 1 ⟨one_pos, le_rfl⟩ x
      (by rw [Complex.ofReal_one]; exact (hreg.starts x).2 ⟨i, hi, hx⟩)
    obtain ⟨z, hz, hl⟩ := hreg.converges hinf hY
    exact ⟨x, Y, z, fun _ => ⟨hx, hY, hY1, hz, hl⟩⟩
  choose x Y z hP using hex
  let S' : Finset (ℕ × ℕ) := (Finset.range N ×ˢ Finset.range N).filter fun p => z p.1 ≠ z p.2
  obtain ⟨gz, hgz, hgz'⟩ := exists_pos_le S' (fun p => ‖z p.1 - z p.2‖) (by
    rintro ⟨i, j⟩ hp
    simp only [S', Finset.mem_filter, Finset.mem_product, Finset.mem_range] at hp
    exact norm_pos_iff.2 (sub_ne_zero.2 hp.2))
  have hgz2 : ∀ i < N, ∀ j < N, z i ≠ z j → gz ≤ ‖z i - z j‖ := fun i hi j hj hij =>
    hgz' (i, j) (by simp [S', hi, hj, hij])
  refine ⟨gz / 2, by positivity, fun te h0 h1 => ?_⟩
  have hte : te ∈ Ioc (0 : ℝ) 1 := ⟨h0, h1.le⟩
  have hone : (1 : ℝ) ∈ Ioc (0 : ℝ) 1 := ⟨one_pos, le_rfl⟩
  have hapart : ∀ i < N, ∀ j < N, i ≠ j → Y i te ≠ Y j te := by
    intro i hi j hj hij he
    obtain ⟨a1, a2, a3, -⟩ := hP i hi
    obtain ⟨b1, b2, b3, -⟩ := hP j hj
    have := hreg.disjoint _ _ a2 b2 te hte he 1 hone
    rw [a3, b3] at this
    rw [this] at a1
    exact hij (hreg.distinct _ _ _ a1 b1)
  let S : Finset (ℕ × ℕ) := (Finset.range N ×ˢ Finset.range N).filter fun p => p.1 ≠ p.2
  obtain ⟨gap, hgap, hgap'⟩ := exists_pos_le S (fun p => ‖Y p.1 te - Y p.2 te‖) (by
    rintro ⟨i, j⟩ hp
    simp only [S, Finset.mem_filter, Finset.mem_product, Finset.mem_range] at hp
    exact norm_pos_iff.2 (sub_ne_zero.2 (hapart i hp.1.1 j hp.1.2 hp.2)))
  have hgap2 : ∀ i < N, ∀ j < N, i ≠ j → gap ≤ ‖Y i te - Y j te‖ := fun i hi j hj hij =>
    hgap' (i, j) (by simp [S, hi, hj, hij])
  obtain ⟨M0, hM0⟩ := exists_bound (Finset.range N) fun i => ‖Y i te‖
  obtain ⟨M, hM, hMM⟩ : ∃ M > 0, ∀ i < N, ‖Y i te‖ + 1 ≤ M :=
    ⟨max M0 0 + 1, by positivity, fun i hi => by
      have := (hM0 i (by simpa using hi)).trans (le_max_left M0 0)
      linarith⟩
  refine ⟨gap / (2 * M), by positivity, fun δ ε hδ hε => ?_⟩
  obtain ⟨ρ, hρ, hρδ, hρg, hρ1⟩ : ∃ ρ > 0, ρ ≤ δ ∧ ρ ≤ gap / 4 ∧ ρ ≤ 1 :=
    ⟨min δ (min (gap / 4) 1), by positivity, min_le_left _ _, (min_le_right _ _).trans (min_le_left _ _),
      (min_le_right _ _).trans (min_le_right _ _)⟩
  obtain ⟨hm, hhm, htrack⟩ := C148_all hreg T te tol (ρ / 2) h0 h1.le htol (half_pos hρ)
  have hcont : ∀ i, ∃ κ > 0, i < N → ∀ s : ℝ, |s - te| < κ → ‖Y i s - Y i te‖ ≤ ρ / 2 := by
    intro i
    by_cases hi : i < N
    swap
    · exact ⟨1, one_pos, fun h => absurd h hi⟩
    have hc : ContinuousAt (Y i) te := (hP i hi).2.1.cont.continuousAt (Ioc_mem_nhds h0 h1)
    obtain ⟨κ, hκ, h2⟩ := Metric.continuousAt_iff.1 hc (ρ / 2) (half_pos hρ)
    refine ⟨κ, hκ, fun _ s hs => ?_⟩
    have := h2 (x := s) (by rwa [Real.dist_eq])
    rw [dist_eq_norm] at this
    exact this.le
  choose κ0 hκ0 hκ using hcont
  obtain ⟨κ1, hκ1, hκ1'⟩ := exists_pos_le (Finset.range N) κ0 fun i _ => hκ0 i
  obtain ⟨κ, hκp, hκa, hκb, hκc⟩ : ∃ κ > 0, κ ≤ κ1 ∧ κ ≤ te ∧ κ ≤ 1 - te :=
    ⟨min κ1 (min te (1 - te)), lt_min hκ1 (lt_min h0 (by linarith)), min_le_left _ _,
      (min_le_right _ _).trans (min_le_left _ _), (min_le_right _ _).trans (min_le_right _ _)⟩
  obtain ⟨η, hη, hη1, hη2⟩ : ∃ η > 0, η ≤ 1 / 2 ∧ 2 * η * te < κ :=
    ⟨min (1 / 2) (κ / (4 * te)), by positivity, min_le_left _ _, by
      have : min (1 / 2) (κ / (4 * te)) ≤ κ / (4 * te) := min_le_right _ _
      calc 2 * min (1 / 2) (κ / (4 * te)) * te ≤ 2 * (κ / (4 * te)) * te := by gcongr
        _ = κ / 2 := by field_simp; norm_num
        _ < κ := by linarith⟩
  refine ⟨hm, hhm, η, hη, fun E cfg hstart htr heg ecfg emid epost eacc => ?_⟩
  intro N' s
  have hsx : ∀ i < N, E.start i = x i := by
    intro i hi
    have a := hstart i hi
    have b := (hP i hi).1
    unfold IsStart at a b
    rw [a, Option.some.injEq] at b
    exact List.ofFn_injective b
  -- every track ends well
  have hgood : ∀ i < N, ∀ k c p, E.track k cfg.newtonBefore (E.start i) = (c, p) →
      c = .success ∧ ‖p - Y i te‖ ≤ ρ := by
    intro i hi k c p hcp
    rw [ecfg] at hcp
    obtain ⟨tc, env, s0, t1, t2, t3, t4, t5⟩ := htr k i hi
    obtain ⟨y, n, st, u1, u2, u3, -, u5, u6⟩ := htrack tc env s0 i hi t1 t2 (by rw [t4]; exact hstart i hi)
    rw [t5 n _ _ _ u3, Prod.mk.injEq] at hcp
    refine ⟨hcp.1.symm, ?_⟩
    rw [← hcp.2]
    have hcl : Close st.time te η := by
      rcases u5 with u5 | u5 | u5
      · exact Or.inl u5
      · exact Or.inr (Or.inl (u5.trans (by gcongr)))
      · exact Or.inr (Or.inr (u5.trans (by gcongr)))
    have hd := (close_norm h0 hη.le hη1 hcl).trans_lt hη2
    have hre : |st.time.re - te| < κ := by
      have := (Complex.abs_re_le_norm (st.time - te)).trans_lt hd
      simpa using this
    obtain ⟨hl, hr⟩ := abs_lt.1 hre
    have hyY : y st.time.re = Y i st.time.re := by
      refine hreg.disjoint _ _ u1 (hP i hi).2.1 1 hone ?_ _ ⟨by linarith, by linarith⟩
      rw [u2, t4, hsx i hi, (hP i hi).2.2.1]
    rw [hyY] at u6
    have := hκ i hi st.time.re (hre.trans_le (hκa.trans (hκ1' i (by simpa using hi))))
    calc ‖st.space - Y i te‖ = ‖(st.space - Y i st.time.re) + (Y i st.time.re - Y i te)‖ := by rw [sub_add_sub_cancel]
      _ ≤ _ := norm_add_le _ _
      _ ≤ ρ := by linarith
  have hnorerun := solve_no_rerun (N := N) E cfg (by
    rintro D hD hall i j ⟨hij, a, b, ha, hb, -, -, hlt⟩
    have hj : j < N := by rw [← hD]; exact (List.getElem?_eq_some_iff.1 hb).1
    have hi : i < N := hij.trans hj
    obtain ⟨ka, hka⟩ := hall i a ha
    obtain ⟨kb, hkb⟩ := hall j b hb
    have e1 := (hgood i hi _ _ _ hka).2
    have e2 := (hgood j hj _ _ _ hkb).2
    have e3 := hgap2 i hi j hj hij.ne
    have e4 := hMM i hi
    have e5 : ‖a.pt‖ ≤ M := by
      have := norm_add_le (a.pt - Y i te) (Y i te)
      rw [sub_add_cancel] at this
      linarith
    have e6 : gap / 2 ≤ ‖a.pt - b.pt‖ := by
      have h3 : Y i te - Y j te = (a.pt - b.pt) - (a.pt - Y i te) + (b.pt - Y j te) := by abel
      have h4 := norm_add_le ((a.pt - b.pt) - (a.pt - Y i te)) (b.pt - Y j te)
      have h5 := norm_sub_le (a.pt - b.pt) (a.pt - Y i te)
      rw [← h3] at h4
      linarith
    have e7 : cfg.midTol * ‖a.pt‖ ≤ gap / 2 := by
      rcases le_or_gt 0 cfg.midTol with hz | hz
      · calc cfg.midTol * ‖a.pt‖ ≤ gap / (2 * M) * M := by gcongr
          _ = gap / 2 := by field_simp
      · have := mul_nonpos_of_nonpos_of_nonneg hz.le (norm_nonneg a.pt)
        linarith
    linarith)
  obtain ⟨g1, g2, g3⟩ := hnorerun
  obtain ⟨s', -, e, -, -, -, hml, hbl, hxl, hall⟩ := C56 (N := N) E cfg (ZSt.init _) Reach.init
  have hs' : s = s' := e
  rw [← hs'] at hml hbl hxl hall
  have hend : ∀ i < N, ∃ m b x, s.md[i]? = some m ∧ s.bdry[i]? = some b ∧ s.sols[i]? = some x ∧
      b.code = .success ∧ m.pre = .success ∧ m.post = .success ∧ ‖x - z i‖ ≤ ε := by
    intro i hi
    obtain ⟨m, b, x, q1, q2, q3, -, q5, -, q7⟩ := hall i hi
    obtain ⟨k, hk⟩ := g3 i b q2
    obtain ⟨r1, r2⟩ := hgood i hi _ _ _ hk
    obtain ⟨ke, hke⟩ := q7 r1
    have := heg ke b.pt (Y i) (z i) (hP i hi).2.1 (hP i hi).2.2.2.2 (r2.trans hρδ)
    rw [hke] at this
    exact ⟨m, b, x, q1, q2, q3, r1, by rw [q5, r1], this.1, this.2⟩
  have hcoinc : ∀ i < N, ∀ j < N, Coinc cfg.postTol s i j ↔ z j = z i := by
    intro i hi j hj
    obtain ⟨mi, -, xi, i1, -, i3, -, -, i6, i7⟩ := hend i hi
    obtain ⟨mj, -, xj, j1, -, j3, -, -, j6, j7⟩ := hend j hj
    constructor
    · rintro ⟨mi', mj', xi', xj', q1, q2, q3, q4, -, -, q7⟩
      rw [i3, Option.some.injEq] at q3
      rw [j3, Option.some.injEq] at q4
      subst q3 q4
      by_contra hne
      have h2 := hgz2 i hi j hj (Ne.symm hne)
      have h3 := (norm_le_eDist xi xj).trans_lt q7
      have h4 : z i - z j = (xi - xj) - (xi - z i) + (xj - z j) := by abel
      have h5 := norm_add_le ((xi - xj) - (xi - z i)) (xj - z j)
      have h6 := norm_sub_le (xi - xj) (xi - z i)
      rw [← h4] at h5
      have h7 : 1 ≤ √(g.length + 1 : ℕ) := by
        rw [Real.one_le_sqrt]
        push_cast
        linarith [Nat.cast_nonneg (α := ℝ) g.length]
      have h8 : 2 * ε ≤ 2 * √(g.length + 1 : ℕ) * ε := by nlinarith
      linarith
    · intro hz
      refine ⟨mi, mj, xi, xj, i1, j1, i3, j3, i6, j6, ?_⟩
      have h3 : ‖xi - xj‖ ≤ 2 * ε := by
        have h4 : xi - xj = (xi - z i) - (xj - z j) := by rw [hz]; abel
        rw [h4]
        have := norm_sub_le (xi - z i) (xj - z j)
        linarith
      calc eDist xi xj ≤ √(g.length + 1 : ℕ) * ‖xi - xj‖ := eDist_le _ _
        _ ≤ √(g.length + 1 : ℕ) * (2 * ε) := by gcongr
        _ = 2 * √(g.length + 1 : ℕ) * ε := by ring
        _ < _ := eacc
  have hmult : ∀ i < N, ∀ m, s.md[i]? = some m →
      m.mult = (((Finset.range N).filter fun j => z j = z i).card : ℤ) := by
    intro i hi m hm'
    obtain ⟨m', q1, q2⟩ := (C55_partial (N := N) E cfg).1 i hi
    have hm2 : some m = some m' := hm'.symm.trans q1
    rw [Option.some.injEq] at hm2
    rw [hm2, q2]
    have hset : (Finset.range N).filter (fun j => z j = z i) =
        insert i ((Finset.range N).filter fun j => j ≠ i ∧ Coinc cfg.postTol s i j) := by
      ext j
      simp only [Finset.mem_filter, Finset.mem_range, Finset.mem_insert]
      constructor
      · rintro ⟨h2, h3⟩
        by_cases hji : j = i
        · exact Or.inl hji
        · exact Or.inr ⟨h2, hji, (hcoinc i hi j h2).2 h3⟩
      · rintro (rfl | ⟨h2, -, h3⟩)
        · exact ⟨hi, rfl⟩
        · exact ⟨h2, (hcoinc i hi j h2).1 h3⟩
    rw [hset, Finset.card_insert_of_notMem (by simp)]
    unfold twins
    push_cast
    rw [add_comm]
  refine ⟨z, fun i hi => ⟨(hP i hi).2.2.2.1, Y i, (hP i hi).2.1, ?_, (hP i hi).2.2.2.2⟩, g1, ?_, ?_, ?_⟩
  · rw [hsx i hi, (hP i hi).2.2.1]
  · refine ⟨fun i => ((s.bdry[i]?).map Bdry.pt).getD 0, ?_⟩
    have : s.log = _ := g2
    rw [this, ecfg]
    congr 1
    rw [← List.filterMap_eq_map]
    apply List.filterMap_congr
    intro i hi
    obtain ⟨m, b, x, -, q2, -, q4, -⟩ := hend i (List.mem_range.1 hi)
    have q2' : (solve N E cfg (ZSt.init (g.length + 1))).bdry[i]? = some b := q2
    simp [egEvent, q2', q2, q4]
  · intro i hi
    obtain ⟨m, b, x, q1, -, q3, -, q5, q6, q7⟩ := hend i hi
    exact ⟨m, x, q1, q3, q5, q6, q7, hmult i hi m q1⟩
  · intro f hf y hy hu hp
    obtain ⟨W, i, hW, hi, hst, hW0, hdeh⟩ := hreg.reached f hf y hy hu hp
    have hseg : ∀ t : ℝ, t ∈ Icc (0 : ℝ) 1 → (t : ℂ) ∈ segment ℝ (1 : ℂ) 0 := by
      intro t ht
      refine ⟨t, 1 - t, ht.1, by linarith [ht.2], by ring, by simp⟩
    have hcW : ContinuousOn (fun t : ℝ => W t) (Icc 0 1) :=
      hW.cont.comp Complex.continuous_ofReal.continuousOn fun t ht => hseg t ht
    have hoW : OpenPath H fun t : ℝ => W t :=
      ⟨hcW.mono fun t ht => ⟨ht.1.le, ht.2⟩, fun t ht => hW.solution t (hseg t ⟨ht.1.le, ht.2⟩)⟩
    have hlW : Tendsto (fun t : ℝ => W t) (𝓝[>] 0) (𝓝 (W 0)) := by
      have h2 := hcW 0 ⟨le_rfl, zero_le_one⟩
      have h3 : Tendsto (fun t : ℝ => W t) (𝓝[Icc 0 1] 0) (𝓝 (W 0)) := by simpa using h2.tendsto
      refine h3.mono_left ?_
      rw [← nhdsWithin_Ioc_eq_nhdsGT (show (0 : ℝ) < 1 from one_pos)]
      exact nhdsWithin_mono _ fun t ht => ⟨ht.1.le, ht.2⟩
    have hxi : W 1 = x i := by
      have b := (hP i hi).1
      unfold IsStart at hst b
      rw [hst, Option.some.injEq] at b
      exact List.ofFn_injective b
    have hzi : z i = W 0 := by
      refine tendsto_nhds_unique (hP i hi).2.2.2.2 (hlW.congr' ?_)
      filter_upwards [Ioc_mem_nhdsGT (show (0 : ℝ) < 1 from one_pos)] with t ht
      refine hreg.disjoint _ _ hoW (hP i hi).2.1 1 hone ?_ t ht
      simp only [Complex.ofReal_one]
      rw [hxi, (hP i hi).2.2.1]
    have huniq : ∀ j < N, z j = z i → j = i := by
      intro j hj hz
      obtain ⟨b1, b2, b3, b4, b5⟩ := hP j hj
      -- extend path `j` to time 0
      let V : ℂ → Fin (g.length + 1) → ℂ := fun c => if c.re ≤ 0 then z j else Y j c.re
      have hV0 : V 0 = z j := by simp [V]
      have hVpos : ∀ c : ℂ, 0 < c.re → V c = Y j c.re := fun c hc => by simp [V, not_le.2 hc]
      have hsegc : ∀ c ∈ segment ℝ (1 : ℂ) 0, c.re ∈ Icc (0 : ℝ) 1 ∧ c = (c.re : ℂ) := by
        rintro c ⟨a, b, ha, hb, hab, rfl⟩
        refine ⟨⟨by simpa using ha, by simp; linarith⟩, by simp⟩
      have hcj : ContinuousOn (fun t : ℝ => if t ≤ 0 then z j else Y j t) (Icc 0 1) := by
        intro t ht
        rcases eq_or_lt_of_le ht.1 with e0 | e0
        · rw [← e0]
          unfold ContinuousWithinAt
          simp only [le_refl, if_true]
          have hsub : Icc (0 : ℝ) 1 ⊆ {0} ∪ Ioi 0 := by
            intro u hu'
            rcases eq_or_lt_of_le hu'.1 with e1 | e1
            · exact Or.inl e1.symm
            · exact Or.inr e1
          refine Tendsto.mono_left ?_ (nhdsWithin_mono _ hsub)
          rw [nhdsWithin_union, nhdsWithin_singleton, tendsto_sup]
          refine ⟨by simpa using tendsto_pure_nhds (fun t : ℝ => if t ≤ 0 then z j else Y j t) 0, ?_⟩
          refine b5.congr' ?_
          filter_upwards [self_mem_nhdsWithin] with u hu'
          rw [if_neg (not_le.2 hu')]
        · have hct := b2.cont t ⟨e0, ht.2⟩
          have hev : (fun t : ℝ => if t ≤ 0 then z j else Y j t) =ᶠ[𝓝 t] Y j := by
            filter_upwards [lt_mem_nhds e0] with u hu'
            rw [if_neg (not_le.2 hu')]
          have hm2 : 𝓝[Icc 0 1] t = 𝓝[Ioc 0 1] t := by
            rw [show Ioc (0 : ℝ) 1 = Icc 0 1 ∩ Ioi 0 by
              ext u
              simp only [mem_Ioc, mem_inter_iff, mem_Icc, mem_Ioi]
              exact ⟨fun q => ⟨⟨q.1.le, q.2⟩, q.1⟩, fun q => ⟨q.2, q.1.2⟩⟩]
            exact (nhdsWithin_inter_of_mem' (mem_nhdsWithin_of_mem_nhds (Ioi_mem_nhds e0))).symm
          unfold ContinuousWithinAt at hct ⊢
          rw [hm2]
          have hval : (if t ≤ 0 then z j else Y j t) = Y j t := if_neg (not_le.2 e0)
          beta_reduce
          rw [hval]
          exact hct.congr' ((hev.filter_mono nhdsWithin_le_nhds).mono fun u hu' => hu'.symm)
      have hVp : NonsingularPath H 1 0 V := by
        refine ⟨?_, fun _ _ => hreg.analytic _, ?_, ?_⟩
        · exact hcj.comp Complex.continuous_re.continuousOn fun c hc => (hsegc c hc).1
        · intro c hc
          obtain ⟨q1, q2⟩ := hsegc c hc
          rcases eq_or_lt_of_le q1.1 with e0 | e0
          · have hc0 : c = 0 := by rw [q2, ← e0]; rfl
            rw [hc0, hV0]
            exact b4
          · rw [hVpos c e0]
            have := b2.zero c.re ⟨e0, q1.2⟩
            rwa [← q2] at this
        · intro c hc
          obtain ⟨q1, q2⟩ := hsegc c hc
          rcases eq_or_lt_of_le q1.1 with e0 | e0
          · have hc0 : c = 0 := by rw [q2, ← e0]; rfl
            rw [hc0, hV0, hz, hzi]
            exact hW.nonsingular 0 (right_mem_segment ℝ _ _)
          · rw [hVpos c e0]
            have := hreg.nonsingular c.re ⟨e0, q1.2⟩ _ (b2.zero c.re ⟨e0, q1.2⟩)
            rwa [← q2] at this
      have h3 := hreg.oneStart V W hVp hW (by rw [hV0, hz, hzi])
      rw [hVpos 1 (by simp), Complex.one_re, b3, hxi] at h3
      rw [h3] at b1
      exact hreg.distinct _ _ _ b1 (hP i hi).1
    obtain ⟨m, -, -, q1, -⟩ := hend i hi
    refine ⟨i, hi, by rw [hzi]; exact hdeh, huniq, m, q1, ?_⟩
    rw [hmult i hi m q1]
    have : (Finset.range N).filter (fun j => z j = z i) = {i} := by
      ext j
      simp only [Finset.mem_filter, Finset.mem_range, Finset.mem_singleton]
      exact ⟨fun q => huniq j q.1 q.2, fun q => by rw [q]; exact ⟨hi, rfl⟩⟩
    rw [this]
    simp

/-! ### Trackers and endgames as asked for exist -/

open Classical in
/-- Exact linear solves where possible. -/
noncomputable def exactEnv {m : ℕ} (H : (Fin m → ℂ) × ℂ → Fin m → ℂ) (T : Table) : Track.Env (Fin m → ℂ) where
  predict := fun _ x t δ => toPredicted (fullStep T
    (fun x t => if IsUnit (jacV H (x, t)) then some (- Ring.inverse (jacV H (x, t)) (jacT H (x, t))) else none) x t δ)
  solve := fun _ t x => if IsUnit (jacV H (x, t)) then some (- Ring.inverse (jacV H (x, t)) (H (x, t))) else none
  norm := norm
  crit := fun _ _ _ _ _ => true
  digitsB := fun _ => 0
  digitsC := fun _ => 0
  size := norm

theorem exactEnv_exact {m : ℕ} (H : (Fin m → ℂ) × ℂ → Fin m → ℂ) (T : Table) :
    ExactOn H T (Solvable H) (exactEnv H T) := by
  have key : ∀ (q : (Fin m → ℂ) × ℂ) (v : Fin m → ℂ), IsUnit (jacV H q) →
      jacV H q (- Ring.inverse (jacV H q) v) = - v := by
    intro q v hq
    rw [map_neg]
    have := congrArg (fun L : (Fin m → ℂ) →L[ℂ] (Fin m → ℂ) => L v) (Ring.mul_inverse_cancel _ hq)
    exact congrArg Neg.neg this
  exact ⟨⟨_, fun _ _ _ _ => rfl, fun _ q hq => ⟨_, if_pos hq, key q _ hq⟩⟩, fun _ q hq => ⟨_, if_pos hq, key q _ hq⟩, rfl⟩

/-- Settings with the step size `hm`. -/
noncomputable def fineCfg (tol hm η te : ℝ) : Cfg where
  initialStep := hm
  maxStep := hm
  minStep := 0
  successFactor := 2
  failFactor := 1 / 2
  stepsForIncrease := 5
  minNumSteps := 1
  maxNumSteps := ⌈‖(te : ℂ) - 1‖ / hm⌉₊
  minNewton := 1
  maxNewton := 2
  tol := tol
  eps := min η (1 / 2)
  truncate := false
  threshold := 1

noncomputable def fineSt {m : ℕ} (hm te : ℝ) (x : Fin m → ℂ) : St (Fin m → ℂ) :=
  { time := 1, endtime := te, delta := 0, step := hm, space := x }

theorem fine_fine {m : ℕ} (tol hm η te : ℝ) (x : Fin m → ℂ) (hh : 0 < hm) :
    FineTrack (fineCfg tol hm η te) (fineSt hm te x) tol hm te where
  tol := rfl
  newton := by simp [fineCfg]
  noTruncation := rfl
  eps := (min_le_right _ _).trans_lt (by norm_num)
  stepPos := hh
  stepMin := hh.le
  stepMax := le_rfl
  time := rfl
  endtime := rfl
  counters := ⟨rfl, rfl⟩
  steps := by
    have := Nat.le_ceil (‖(te : ℂ) - 1‖ / hm)
    rwa [div_le_iff₀ hh] at this

open Classical in
/-- A solve as asked for in C149: the exact tracker, and an endgame that returns the limit. -/
noncomputable def fineEnv {m : ℕ} (H : (Fin m → ℂ) × ℂ → Fin m → ℂ) (T : Table) (hm η te δ : ℝ)
    (start : ℕ → Fin m → ℂ) : ZEnv m where
  start := start
  track := fun _ tol x =>
    if h : ∃ r : Code × (Fin m → ℂ), ∃ n s,
      fixedRun (fineCfg tol hm η te) (exactEnv H T) (fineSt hm te x) n = .done r.1 s (some r.2)
    then h.choose else (.neverStarted, 0)
  endgame := fun _ x =>
    if h : ∃ z, ∃ y, OpenPath H y ∧ Tendsto y (𝓝[>] 0) (𝓝 z) ∧ ‖x - y te‖ ≤ δ then (.success, h.choose)
    else (.neverStarted, 0)

theorem fineEnv_fine {m : ℕ} (H : (Fin m → ℂ) × ℂ → Fin m → ℂ) (T : Table) (N : ℕ) (tol hm η te δ : ℝ)
    (start : ℕ → Fin m → ℂ) (hh : 0 < hm) : FineTracker H T (fineEnv H T hm η te δ start) N tol hm η te := by
  intro k i _
  refine ⟨_, _, fineSt hm te (start i), exactEnv_exact H T, fine_fine tol hm η te _ hh, min_le_left _ _, rfl, ?_⟩
  intro n c s p h
  have hex : ∃ r : Code × (Fin m → ℂ), ∃ n s,
      fixedRun (fineCfg tol hm η te) (exactEnv H T) (fineSt hm te (start i)) n = .done r.1 s (some r.2) :=
    ⟨(c, p), n, s, h⟩
  show (fineEnv H T hm η te δ start).track k tol (start i) = (c, p)
  simp only [fineEnv]
  rw [dif_pos hex]
  obtain ⟨n', s', h'⟩ := hex.choose_spec
  have e1 := runAt_done h (le_max_left n n')
  have e2 := runAt_done h' (le_max_right n n')
  rw [e1] at e2
  simp only [Run.done.injEq, Option.some.injEq] at e2
  exact Prod.ext e2.1.symm e2.2.2.symm

/-- The endgame of `fineEnv` is exact, for a radius less than half the distance of any two paths. -/
theorem fineEnv_accurate {m : ℕ} (H : (Fin m → ℂ) × ℂ → Fin m → ℂ) (T : Table) (hm η te δ : ℝ)
    (start : ℕ → Fin m → ℂ)
    (hδ : ∀ y y', OpenPath H y → OpenPath H y' → ‖y te - y' te‖ ≤ 2 * δ → ∀ s ∈ Ioc (0 : ℝ) 1, y s = y' s) :
    AccurateEndgame H (fineEnv H T hm η te δ start) te δ 0 := by
  intro k x y z hy hz hx
  have hex : ∃ z, ∃ y, OpenPath H y ∧ Tendsto y (𝓝[>] 0) (𝓝 z) ∧ ‖x - y te‖ ≤ δ := ⟨z, y, hy, hz, hx⟩
  simp only [fineEnv]
  rw [dif_pos hex]
  obtain ⟨y', hy', hz', hx'⟩ := hex.choose_spec
  refine ⟨rfl, ?_⟩
  have h1 : ‖y' te - y te‖ ≤ 2 * δ := by
    have : y' te - y te = (x - y te) - (x - y' te) := by abel
    rw [this]
    linarith [norm_sub_le (x - y te) (x - y' te)]
  have h2 := tendsto_nhds_unique (hz'.congr' (by
    filter_upwards [Ioc_mem_nhdsGT (show (0 : ℝ) < 1 from one_pos)] with s hs
    exact hδ _ _ hy' hy h1 s hs)) hz
  rw [h2, sub_self, norm_zero]

/-- For every regular solve there is such a radius. -/
theorem radius {simp : Node → Node} {w w' : World} {i0 k0 h : ℕ} {g : List Var} {r : Choices}
    {H : (Fin (g.length + 1) → ℂ) × ℂ → Fin (g.length + 1) → ℂ}
    (hreg : RegularSolve simp w w' i0 k0 h g r H) (te : ℝ) (h0 : 0 < te) (h1 : te < 1) :
    ∃ δ > 0, ∀ y y', OpenPath H y → OpenPath H y' → ‖y te - y' te‖ ≤ 2 * δ → ∀ s ∈ Ioc (0 : ℝ) 1, y s = y' s := by
  classical
  set N := (degsOf w i0 g).prod with hN
  have hte : te ∈ Ioc (0 : ℝ) 1 := ⟨h0, h1.le⟩
  have hone : (1 : ℝ) ∈ Ioc (0 : ℝ) 1 := ⟨one_pos, le_rfl⟩
  have hex : ∀ i, ∃ Y : ℝ → Fin (g.length + 1) → ℂ, i < N → IsStart w w' i0 k0 g r i (Y 1) ∧ OpenPath H Y := by
    intro i
    by_cases hi : i < N
    swap
    · exact ⟨fun _ => 0, fun h => absurd h hi⟩
    obtain ⟨x, hx⟩ := hreg.numbered i hi
    obtain ⟨Y, hY, hY1⟩ := hreg.through 1 ⟨one_pos, le_rfl⟩ x
      (by rw [Complex.ofReal_one]; exact (hreg.starts x).2 ⟨i, hi, hx⟩)
    exact ⟨Y, fun _ => ⟨by rwa [hY1], hY⟩⟩
  choose Y hP using hex
  let S : Finset (ℕ × ℕ) := (Finset.range N ×ˢ Finset.range N).filter fun p => Y p.1 te ≠ Y p.2 te
  obtain ⟨gap, hgap, hgap'⟩ := exists_pos_le S (fun p => ‖Y p.1 te - Y p.2 te‖) (by
    rintro ⟨i, j⟩ hp
    simp only [S, Finset.mem_filter, Finset.mem_product, Finset.mem_range] at hp
    exact norm_pos_iff.2 (sub_ne_zero.2 hp.2))
  have hnum : ∀ y, OpenPath H y → ∃ i < N, ∀ s ∈ Ioc (0 : ℝ) 1, y s = Y i s := by
    intro y hy
    have h2 := hy.zero 1 hone
    rw [Complex.ofReal_one] at h2
    obtain ⟨i, hi, hs⟩ := (hreg.starts _).1 h2
    refine ⟨i, hi, fun s hs' => hreg.disjoint _ _ hy (hP i hi).2 1 hone ?_ s hs'⟩
    have := (hP i hi).1
    unfold IsStart at hs this
    rw [hs, Option.some.injEq] at this
    exact List.ofFn_injective this
  refine ⟨gap / 4, by positivity, fun y y' hy hy' hle => ?_⟩
  obtain ⟨i, hi, e1⟩ := hnum y hy
  obtain ⟨j, hj, e2⟩ := hnum y' hy'
  refine hreg.disjoint _ _ hy hy' te hte ?_
  rw [e1 te hte, e2 te hte] at hle ⊢
  by_contra hne
  have := hgap' (i, j) (by simp [S, hi, hj, hne])
  simp only at this
  linarith

/-- The hypotheses of C149 on tracker, endgame and settings can be met for every regular solve, whatever the
bounds. -/
theorem C149_inhabited {simp : Node → Node} {w w' : World} {i0 k0 h : ℕ} {g : List Var} {r : Choices}
    {H : (Fin (g.length + 1) → ℂ) × ℂ → Fin (g.length + 1) → ℂ}
    (hreg : RegularSolve simp w w' i0 k0 h g r H) (T : Table) (te tol mid post : ℝ) (h0 : 0 < te) (h1 : te < 1)
    (hmid : 0 < mid) (hpost : 0 < post) :
    ∃ δ > 0, ∀ hm η : ℝ, 0 < hm → ∃ (E : ZEnv (g.length + 1)) (cfg : ZCfg),
      (∀ i < (degsOf w i0 g).prod, IsStart w w' i0 k0 g r i (E.start i)) ∧
      FineTracker H T E (degsOf w i0 g).prod tol hm η te ∧ AccurateEndgame H E te δ 0 ∧
      cfg.newtonBefore = tol ∧ 0 < cfg.midTol ∧ cfg.midTol ≤ mid ∧ cfg.postTol ≤ post ∧
      2 * √(g.length + 1 : ℕ) * 0 < cfg.postTol := by
  obtain ⟨δ, hδ, hrad⟩ := radius hreg te h0 h1
  have hex : ∀ i, ∃ x, i < (degsOf w i0 g).prod → IsStart w w' i0 k0 g r i x := by
    intro i
    by_cases hi : i < (degsOf w i0 g).prod
    · obtain ⟨x, hx⟩ := hreg.numbered i hi
      exact ⟨x, fun _ => hx⟩
    · exact ⟨0, fun h => absurd h hi⟩
  choose x hx using hex
  refine ⟨δ, hδ, fun hm η hh => ⟨fineEnv H T hm η te δ x, ⟨tol, mid, post, 2, 1 / 2⟩, hx, fineEnv_fine _ _ _ _ _ _ _ _ _ hh,
    fineEnv_accurate _ _ _ _ _ _ _ hrad, rfl, hmid, le_rfl, le_rfl, by simpa using hpost⟩⟩

/-- The solve of `x^2 - 1` is regular for some `γ`, and has no zero at infinity for the patch. -/
theorem sqm_regular (simp : Node → Node) : ∃ (γ : ℚ × ℚ) (w' : World),
    systemSetup simp (choices γ) 9 0 1 2 3 4 5 (ww sqm) = some w' ∧ Computes simp w' 5 2 (sqLine γ) ∧
    RegularSolve simp (ww sqm) w' 0 1 5 [0] (choices (0, 0)) (sqLine γ) ∧
    ∀ x, x ≠ 0 → (∀ j : Fin 1, sqLine γ (x, 0) j.castSucc = 0) → sqLine γ (x, 0) (Fin.last 1) ≠ -1 := by
  obtain ⟨B, -, hB⟩ := C147 simp _ (ww sqm) (by simp [SafeRun, Safe]) (run_ww simp sqm) (choices (0, 0)) 9
    0 1 2 3 4 5 _ [0] (by simp) (by simp [choices]) squareTarget_sqm (generic_sqm _)
  obtain ⟨γ, h1, h2⟩ := exists_gamma B
  obtain ⟨w', H, h3, h4, h5⟩ := hB γ h1 h2
  obtain ⟨w'', h6, h7⟩ := setup_sqm simp γ
  have hw : w' = w'' := by
    have : some w' = some w'' := h3.symm.trans h6
    exact Option.some.inj this
  subst hw
  obtain rfl : H = sqLine γ := Computes.unique h4 h7
  have hz : ∀ x : Fin 2 → ℂ, sqLine γ (x, 0) = ![x 1 ^ 2 - x 0 ^ 2, 2 * x 0 + x 1 - 1] := by
    intro x
    funext j
    refine Fin.lastCases ?_ (fun j => ?_) j
    · unfold sqLine line
      rw [Fin.lastCases_last]
      simp [dotProduct, Fin.sum_univ_succ]
    · obtain rfl : j = 0 := Subsingleton.elim (α := Fin 1) _ _
      unfold sqLine line
      rw [Fin.lastCases_castSucc]
      simp [sqF]
  have hinf : ∀ x, x ≠ 0 → (∀ j : Fin 1, sqLine γ (x, 0) j.castSucc = 0) → sqLine γ (x, 0) (Fin.last 1) ≠ -1 := by
    intro x hx hj hc
    rw [hz] at hc
    have e1 := hj 0
    rw [hz] at e1
    have e1 : x 1 ^ 2 - x 0 ^ 2 = 0 := e1
    have e2 : 2 * x 0 + x 1 - 1 = -1 := hc
    have e3 : x 0 = 0 := by
      have : x 0 ^ 2 = 0 := by linear_combination (e1 - (x 1 - 2 * x 0) * e2) / 3
      exact pow_eq_zero_iff two_ne_zero |>.1 this
    have e4 : x 1 = 0 := by linear_combination e2 - 2 * e3
    apply hx
    ext j
    fin_cases j
    · exact e3
    · exact e4
  exact ⟨γ, w', h3, h4, h5, hinf⟩

/-- C149 for `x^2 - 1`: the homotopy is regular for some `γ`, with no zero at infinity for the patch; both solutions are reported with multiplicity 1. -/
example (simp : Node → Node) (T : Table) : ∃ (w' : World) (E : ZEnv 2) (cfg : ZCfg), ∀ y : Fin 1 → ℂ, y 0 = 1 ∨ y 0 = -1 →
    ∃ i < 2, ∃ z : Fin 2 → ℂ, (w'.objs 5).vs.dehomogenize (List.ofFn z) = some (List.ofFn y) ∧
      ∃ m x, (solve 2 E cfg (ZSt.init 2)).md[i]? = some m ∧ (solve 2 E cfg (ZSt.init 2)).sols[i]? = some x ∧
        m.post = .success ∧ m.mult = 1 ∧ x = z := by
  obtain ⟨γ, w', -, -, h5, hinf⟩ := sqm_regular simp
  obtain ⟨post, hpost, hmain⟩ := C149 h5 hinf T 1 one_pos
  obtain ⟨mid, hmid, hmain⟩ := hmain (1 / 10) (by norm_num) (by norm_num)
  obtain ⟨δ, hδ, hE⟩ := C149_inhabited h5 T (1 / 10) 1 mid post (by norm_num) (by norm_num) hmid hpost
  obtain ⟨hm, hhm, η, -, hall⟩ := hmain δ 0 hδ le_rfl
  obtain ⟨E, cfg, g1, g2, g3, g4, -, g6, g7, g8⟩ := hE hm η hhm
  obtain ⟨z, -, -, -, k4, k5⟩ := hall E cfg g1 g2 g3 g4 g6 g7 g8
  have hprod : (degsOf (ww sqm) 0 [0]).prod = 2 := by rw [degsOf_sqm]; rfl
  rw [hprod] at k4 k5
  refine ⟨w', E, cfg, fun y hy => ?_⟩
  have hy2 : y 0 ^ 2 = 1 := by rcases hy with e | e <;> rw [e] <;> norm_num
  have hder : IsUnit (fderiv ℂ (fun (y : Fin 1 → ℂ) (_ : Fin 1) => y 0 ^ 2 - 1) y) := fderiv_sqm y (by
    rcases hy with e | e <;> rw [e] <;> norm_num)
  obtain ⟨i, hi, e1, -, m, e3, e4⟩ := k5 _ (computes_sqm simp) y (by funext j; simp [hy2]) hder (by
    rcases hy with e | e <;> simp [Patch.dot, choices, List.range_succ, e] <;> norm_num)
  obtain ⟨m', x, f1, f2, -, f4, f5, -⟩ := k4 i hi
  rw [e3, Option.some.injEq] at f1
  subst f1
  refine ⟨i, hi, z i, e1, m, x, e3, f2, f4, e4, ?_⟩
  exact sub_eq_zero.1 (norm_le_zero_iff.1 f5)

end B2.Alg.Htp
