import Verif.Alg.PropsEndgameC
import Verif.Alg.PropsWiring
import Verif.Cont.Perturb

/-!
# Property C161: solving with a homotopy supplied by the user

`policy::RefToGiven` (`nag_algorithms/common/policies.hpp:258-323`): the target, the start system and the homotopy
are the user's own objects; how the solver refers to them is in `Alg/Wiring.lean`.
-/

namespace B2.Alg.UserH

open B2.Sys B2.Start B2.Cont B2.Predict B2.Track B2.Endgame B2.Alg.Htp Set Filter Topology

/-! ### What is asked of the homotopy -/

/-- A homotopy `H` in `m` variables with `N` start points `p`. Its zeros at times in `(0, 1]`, and at complex times
near 0 other than 0, are nonsingular; they are bounded; the start points are different zeros at time 1. -/
structure GoodHom {m : ℕ} (H : (Fin m → ℂ) × ℂ → Fin m → ℂ) (N : ℕ) (p : ℕ → Fin m → ℂ) : Prop where
  regular : ∀ ε : ℝ, 0 < ε → Regular H ε 1
  near : ∃ ρ, Punctured H ρ
  starts : ∀ i < N, H (p i, 1) = 0
  distinct : ∀ i < N, ∀ j < N, p i = p j → i = j

section
variable {m : ℕ} {H : (Fin m → ℂ) × ℂ → Fin m → ℂ} {N : ℕ} {p : ℕ → Fin m → ℂ}

theorem one_mem : (1 : ℝ) ∈ Ioc (0 : ℝ) 1 := ⟨one_pos, le_rfl⟩

/-- At each time there are finitely many zeros. -/
theorem zeros_finite (hr : ∀ ε : ℝ, 0 < ε → Regular H ε 1) {s : ℝ} (hs : s ∈ Ioc (0 : ℝ) 1) :
    {x | H (x, (s : ℂ)) = 0}.Finite := by
  have h := hr s hs.1
  haveI := h.compact
  have hs' : s ∈ Icc s 1 := ⟨le_rfl, hs.2⟩
  have hd := (h.covering ⟨s, hs'⟩).discreteTopology_fiber
  have hpc : Continuous (proj : Zeros H s 1 → Icc s 1) := continuous_snd.comp continuous_subtype_val
  have hc : IsCompact ((proj : Zeros H s 1 → Icc s 1) ⁻¹' {⟨s, hs'⟩}) :=
    (isClosed_singleton.preimage hpc).isCompact
  have hf := hc.finite ⟨hd⟩
  refine (hf.image fun z => z.1.1).subset ?_
  intro x hx
  exact ⟨⟨(x, ⟨s, hs'⟩), hx⟩, rfl, rfl⟩

/-- At each time there are at most as many zeros as at time 1. -/
theorem zeros_le (hr : ∀ ε : ℝ, 0 < ε → Regular H ε 1) {s : ℝ} (hs : s ∈ Ioc (0 : ℝ) 1) :
    {x | H (x, (s : ℂ)) = 0}.ncard ≤ {x | H (x, 1) = 0}.ncard := by
  have hex : ∀ x, ∃ y, H (x, (s : ℂ)) = 0 → OpenPath H y ∧ y s = x := by
    intro x
    by_cases hx : H (x, (s : ℂ)) = 0
    · obtain ⟨y, hy⟩ := open_exists hr hs hx
      exact ⟨y, fun _ => hy⟩
    · exact ⟨fun _ => 0, fun h => absurd h hx⟩
  choose Y hY using hex
  refine Set.ncard_le_ncard_of_injOn (fun x => Y x 1) (fun x hx => ?_) (fun x hx x' hx' he => ?_) ?_
  · have := (hY x hx).1.zero 1 one_mem
    rwa [Complex.ofReal_one] at this
  · have := open_unique hr (hY x hx).1 (hY x' hx').1 one_mem he s hs
    rwa [(hY x hx).2, (hY x' hx').2] at this
  · have := zeros_finite hr one_mem
    rwa [Complex.ofReal_one] at this

/-- The points of a path over `[te, 1]`. -/
theorem path_of_open {m : ℕ} {H : (Fin m → ℂ) × ℂ → Fin m → ℂ}
    (hr : ∀ ε : ℝ, 0 < ε → Regular H ε 1) {y : ℝ → Fin m → ℂ} (hy : OpenPath H y)
    {te : ℝ} (h0 : 0 < te) (h1 : te ≤ 1) : NonsingularPath H 1 te fun s => y s.re := by
  have hseg : ∀ s ∈ segment ℝ (1 : ℂ) te, s.re ∈ Ioc (0 : ℝ) 1 ∧ s = (s.re : ℂ) := by
    rintro s ⟨a, b, ha, hb, hab, rfl⟩
    have : a • (1 : ℂ) + b • (te : ℂ) = ((a + b * te : ℝ) : ℂ) := by push_cast; simp
    rw [this]
    refine ⟨?_, by simp⟩
    simp only [Complex.ofReal_re]
    constructor
    · rcases eq_or_lt_of_le ha with e | e
      · subst e
        have : b = 1 := by linarith
        subst this
        linarith
      · nlinarith
    · nlinarith
  refine ⟨hy.cont.comp Complex.continuous_re.continuousOn fun s hs => (hseg s hs).1, fun _ _ => (hr 1 one_pos).analytic _,
    fun s hs => ?_, fun s hs => ?_⟩
  · obtain ⟨e1, e2⟩ := hseg s hs
    have := hy.zero s.re e1
    rwa [← e2] at this
  · obtain ⟨e1, e2⟩ := hseg s hs
    have := (hr s.re e1.1).nonsingular _ s.re ⟨le_rfl, e1.2⟩ (hy.zero s.re e1)
    rwa [← e2] at this


/-- A path with its limit is a path over the closed interval. -/
theorem closed_path {y : ℝ → Fin m → ℂ} (hy : OpenPath H y) {z : Fin m → ℂ} (hz : H (z, 0) = 0)
    (hl : Tendsto y (𝓝[>] 0) (𝓝 z)) : ZeroPath H 0 1 fun t => if t ≤ 0 then z else y t where
  cont := by
    intro t ht
    rcases eq_or_lt_of_le ht.1 with e0 | e0
    · rw [← e0]
      unfold ContinuousWithinAt
      simp only [le_refl, if_true]
      have hsub : Icc (0 : ℝ) 1 ⊆ {0} ∪ Ioi 0 := by
        intro u hu'
        rcases eq_or_lt_of_le hu'.1 with e1 | e1
        · exact Or.inl e1.symm
        · exact Or.inr e1
      refine Tendsto.mono_left ?_ (nhdsWithin_mono _ hsub)
      rw [nhdsWithin_union, nhdsWithin_singleton, tendsto_sup]
      refine ⟨by simpa using tendsto_pure_nhds (fun t : ℝ => if t ≤ 0 then z else y t) 0, ?_⟩
      refine hl.congr' ?_
      filter_upwards [self_mem_nhdsWithin] with u hu'
      rw [if_neg (not_le.2 hu')]
    · have hct := hy.cont t ⟨e0, ht.2⟩
      have hev : (fun t : ℝ => if t ≤ 0 then z else y t) =ᶠ[𝓝 t] y := by
        filter_upwards [lt_mem_nhds e0] with u hu'
        rw [if_neg (not_le.2 hu')]
      have hm2 : 𝓝[Icc 0 1] t = 𝓝[Ioc 0 1] t := by
        rw [show Ioc (0 : ℝ) 1 = Icc 0 1 ∩ Ioi 0 by
          ext u
          simp only [mem_Ioc, mem_inter_iff, mem_Icc, mem_Ioi]
          exact ⟨fun q => ⟨⟨q.1.le, q.2⟩, q.1⟩, fun q => ⟨q.2, q.1.2⟩⟩]
        exact (nhdsWithin_inter_of_mem' (mem_nhdsWithin_of_mem_nhds (Ioi_mem_nhds e0))).symm
      unfold ContinuousWithinAt at hct ⊢
      rw [hm2]
      have hval : (if t ≤ 0 then z else y t) = y t := if_neg (not_le.2 e0)
      beta_reduce
      rw [hval]
      exact hct.congr' ((hev.filter_mono nhdsWithin_le_nhds).mono fun u hu' => hu'.symm)
  zero t ht := by
    rcases eq_or_lt_of_le ht.1 with e0 | e0
    · rw [← e0, if_pos le_rfl, Complex.ofReal_zero]
      exact hz
    · beta_reduce
      rw [if_neg (not_le.2 e0)]
      exact hy.zero t ⟨e0, ht.2⟩

/-- Fine tracks from the start points. -/
theorem tracks (hu : GoodHom H N p) (T : Table) (te tol ε : ℝ) (h0 : 0 < te) (h1 : te ≤ 1)
    (htol : 0 < tol) (hε : 0 < ε) :
    ∃ hm > 0, ∀ (cfg : Cfg) (env : Track.Env (Fin m → ℂ)) (s0 : St (Fin m → ℂ))
      (index : ℕ), index < N → ExactOn H T (Solvable H) env → FineTrack cfg s0 tol hm te →
      s0.space = p index →
      ∃ y n s, OpenPath H y ∧ y 1 = s0.space ∧ fixedRun cfg env s0 n = .done .success s (some s.space) ∧
        s.nFail = 0 ∧ Close s.time te cfg.eps ∧ ‖s.space - y s.time.re‖ ≤ ε := by
  have hex : ∀ index, ∃ hm > 0, ∀ (cfg : Cfg) (env : Track.Env (Fin m → ℂ))
      (s0 : St (Fin m → ℂ)), index < N → ExactOn H T (Solvable H) env →
      FineTrack cfg s0 tol hm te → s0.space = p index →
      ∃ y n s, OpenPath H y ∧ y 1 = s0.space ∧ fixedRun cfg env s0 n = .done .success s (some s.space) ∧
        s.nFail = 0 ∧ Close s.time te cfg.eps ∧ ‖s.space - y s.time.re‖ ≤ ε := by
    intro index
    by_cases hi : index < N
    swap
    · exact ⟨1, one_pos, fun _ _ _ h => (hi h).elim⟩
    obtain ⟨y, hy, hy1⟩ := open_exists hu.regular one_mem (x := p index)
      (by rw [Complex.ofReal_one]; exact hu.starts index hi)
    have P := path_of_open hu.regular hy h0 h1
    obtain ⟨hm, hhm, ρ, hρ, -, hmain⟩ := C85_follows P T (solvable_open (hu.regular 1 one_pos).analytic)
      (fun s hs => P.nonsingular s hs) tol ε htol hε
    refine ⟨hm, hhm, fun cfg env s0 _ hE hc hsp => ?_⟩
    obtain ⟨-, n, s, e1, e2, e3, e4⟩ := hmain cfg env s0 hE hc.tol hc.newton.1 hc.newton.2.1 hc.newton.2.2
      hc.noTruncation hc.stepPos hc.stepMin hc.stepMax hc.time hc.endtime hc.counters.1 hc.counters.2 hc.steps
      (by simp only [Complex.one_re]; rw [hsp, hy1, sub_self, norm_zero]; exact hρ.le)
    exact ⟨y, n, s, hy, by rw [hy1, hsp], e1, e4, e2, e3⟩
  choose hm hpos hmain using hex
  have hmin : ∀ N : ℕ, ∃ m > 0, ∀ index < N, m ≤ hm index := by
    intro N
    induction N with
    | zero => exact ⟨1, one_pos, fun _ h => (Nat.not_lt_zero _ h).elim⟩
    | succ N ih =>
      obtain ⟨m, hm0, hmm⟩ := ih
      refine ⟨min m (hm N), lt_min hm0 (hpos N), fun index hi => ?_⟩
      rcases Nat.lt_succ_iff_lt_or_eq.1 hi with h | h
      · exact (min_le_left _ _).trans (hmm index h)
      · rw [h]; exact min_le_right _ _
  obtain ⟨m, hm0, hmm⟩ := hmin N
  refine ⟨m, hm0, fun cfg env s0 index hi hE hc hs => ?_⟩
  exact hmain index cfg env s0 hi hE { hc with stepMax := hc.stepMax.trans (hmm index hi) } hs

open Classical in
/-- A whole solve with an accurate endgame. -/
theorem solve_good (hu : GoodHom H N p) (T : Table) (tol : ℝ) (htol : 0 < tol) :
    ∃ post > 0, ∀ te : ℝ, 0 < te → te < 1 → ∃ mid > 0, ∀ δ ε : ℝ, 0 < δ → 0 ≤ ε → ∃ hm > 0, ∃ η > 0,
      ∀ (E : ZEnv m) (cfg : ZCfg), (∀ i < N, E.start i = p i) →
      FineTracker H T E N tol hm η te → AccurateEndgame H E te δ ε →
      cfg.newtonBefore = tol → cfg.midTol ≤ mid → cfg.postTol ≤ post → 2 * √(m : ℝ) * ε < cfg.postTol →
      let s := solve N E cfg (ZSt.init _)
      ∃ z : ℕ → Fin m → ℂ,
        (∀ i < N, H (z i, 0) = 0 ∧ ∃ y, OpenPath H y ∧ y 1 = p i ∧ Tendsto y (𝓝[>] 0) (𝓝 (z i))) ∧
        s.checker.passed = true ∧
        (∃ x : ℕ → Fin m → ℂ, s.log = (List.range N).map (fun i => .before i tol) ++
          (List.range N).map fun i => .endgame i (x i)) ∧
        (∀ i < N, ∃ m x, s.md[i]? = some m ∧ s.sols[i]? = some x ∧ m.pre = .success ∧ m.post = .success ∧
          ‖x - z i‖ ≤ ε ∧ m.mult = (((Finset.range N).filter fun j => z j = z i).card : ℤ)) ∧
        (∀ i < N, IsUnit (jacV H (z i, 0)) → (∀ j < N, z j = z i → j = i) ∧ ∃ m, s.md[i]? = some m ∧ m.mult = 1) ∧
        ((∀ x, H (x, 1) = 0 → ∃ i < N, p i = x) → ∀ x, H (x, 0) = 0 → IsUnit (jacV H (x, 0)) → ∃ i < N, z i = x) := by
  have hex : ∀ i, ∃ Y z, i < N → OpenPath H Y ∧ Y 1 = p i ∧ H (z, 0) = 0 ∧ Tendsto Y (𝓝[>] 0) (𝓝 z) := by
    intro i
    by_cases hi : i < N
    swap
    · exact ⟨fun _ => 0, 0, fun h => absurd h hi⟩
    obtain ⟨Y, hY, hY1⟩ := open_exists hu.regular one_mem (x := p i)
      (by rw [Complex.ofReal_one]; exact hu.starts i hi)
    obtain ⟨ρ, hρ⟩ := hu.near
    obtain ⟨z, hz, hl⟩ := hρ.limit hY
    exact ⟨Y, z, fun _ => ⟨hY, hY1, hz, hl⟩⟩
  choose Y z hP using hex
  let S' : Finset (ℕ × ℕ) := (Finset.range N ×ˢ Finset.range N).filter fun p => z p.1 ≠ z p.2
  obtain ⟨gz, hgz, hgz'⟩ := exists_pos_le S' (fun p => ‖z p.1 - z p.2‖) (by
    rintro ⟨i, j⟩ hp
    simp only [S', Finset.mem_filter, Finset.mem_product, Finset.mem_range] at hp
    exact norm_pos_iff.2 (sub_ne_zero.2 hp.2))
  have hgz2 : ∀ i < N, ∀ j < N, z i ≠ z j → gz ≤ ‖z i - z j‖ := fun i hi j hj hij =>
    hgz' (i, j) (by simp [S', hi, hj, hij])
  refine ⟨gz / 2, by positivity, fun te h0 h1 => ?_⟩
  have hte : te ∈ Ioc (0 : ℝ) 1 := ⟨h0, h1.le⟩
  have hone : (1 : ℝ) ∈ Ioc (0 : ℝ) 1 := ⟨one_pos, le_rfl⟩
  have hapart : ∀ i < N, ∀ j < N, i ≠ j → Y i te ≠ Y j te := by
    intro i hi j hj hij he
    obtain ⟨a2, a3, -⟩ := hP i hi
    obtain ⟨b2, b3, -⟩ := hP j hj
    have := open_unique hu.regular a2 b2 hte he 1 hone
    rw [a3, b3] at this
    exact hij (hu.distinct i hi j hj this)
  let S : Finset (ℕ × ℕ) := (Finset.range N ×ˢ Finset.range N).filter fun p => p.1 ≠ p.2
  obtain ⟨gap, hgap, hgap'⟩ := exists_pos_le S (fun p => ‖Y p.1 te - Y p.2 te‖) (by
    rintro ⟨i, j⟩ hp
    simp only [S, Finset.mem_filter, Finset.mem_product, Finset.mem_range] at hp
    exact norm_pos_iff.2 (sub_ne_zero.2 (hapart i hp.1.1 j hp.1.2 hp.2)))
  have hgap2 : ∀ i < N, ∀ j < N, i ≠ j → gap ≤ ‖Y i te - Y j te‖ := fun i hi j hj hij =>
    hgap' (i, j) (by simp [S, hi, hj, hij])
  obtain ⟨M0, hM0⟩ := exists_bound (Finset.range N) fun i => ‖Y i te‖
  obtain ⟨M, hM, hMM⟩ : ∃ M > 0, ∀ i < N, ‖Y i te‖ + 1 ≤ M :=
    ⟨max M0 0 + 1, by positivity, fun i hi => by
      have := (hM0 i (by simpa using hi)).trans (le_max_left M0 0)
      linarith⟩
  refine ⟨gap / (2 * M), by positivity, fun δ ε hδ hε => ?_⟩
  obtain ⟨ρ, hρ, hρδ, hρg, hρ1⟩ : ∃ ρ > 0, ρ ≤ δ ∧ ρ ≤ gap / 4 ∧ ρ ≤ 1 :=
    ⟨min δ (min (gap / 4) 1), by positivity, min_le_left _ _, (min_le_right _ _).trans (min_le_left _ _),
      (min_le_right _ _).trans (min_le_right _ _)⟩
  obtain ⟨hm, hhm, htrack⟩ := tracks hu T te tol (ρ / 2) h0 h1.le htol (half_pos hρ)
  have hcont : ∀ i, ∃ κ > 0, i < N → ∀ s : ℝ, |s - te| < κ → ‖Y i s - Y i te‖ ≤ ρ / 2 := by
    intro i
    by_cases hi : i < N
    swap
    · exact ⟨1, one_pos, fun h => absurd h hi⟩
    have hc : ContinuousAt (Y i) te := (hP i hi).1.cont.continuousAt (Ioc_mem_nhds h0 h1)
    obtain ⟨κ, hκ, h2⟩ := Metric.continuousAt_iff.1 hc (ρ / 2) (half_pos hρ)
    refine ⟨κ, hκ, fun _ s hs => ?_⟩
    have := h2 (x := s) (by rwa [Real.dist_eq])
    rw [dist_eq_norm] at this
    exact this.le
  choose κ0 hκ0 hκ using hcont
  obtain ⟨κ1, hκ1, hκ1'⟩ := exists_pos_le (Finset.range N) κ0 fun i _ => hκ0 i
  obtain ⟨κ, hκp, hκa, hκb, hκc⟩ : ∃ κ > 0, κ ≤ κ1 ∧ κ ≤ te ∧ κ ≤ 1 - te :=
    ⟨min κ1 (min te (1 - te)), lt_min hκ1 (lt_min h0 (by linarith)), min_le_left _ _,
      (min_le_right _ _).trans (min_le_left _ _), (min_le_right _ _).trans (min_le_right _ _)⟩
  obtain ⟨η, hη, hη1, hη2⟩ : ∃ η > 0, η ≤ 1 / 2 ∧ 2 * η * te < κ :=
    ⟨min (1 / 2) (κ / (4 * te)), by positivity, min_le_left _ _, by
      have : min (1 / 2) (κ / (4 * te)) ≤ κ / (4 * te) := min_le_right _ _
      calc 2 * min (1 / 2) (κ / (4 * te)) * te ≤ 2 * (κ / (4 * te)) * te := by gcongr
        _ = κ / 2 := by field_simp; norm_num
        _ < κ := by linarith⟩
  refine ⟨hm, hhm, η, hη, fun E cfg hstart htr heg ecfg emid epost eacc => ?_⟩
  intro s
  -- every track ends well
  have hgood : ∀ i < N, ∀ k c p, E.track k cfg.newtonBefore (E.start i) = (c, p) →
      c = .success ∧ ‖p - Y i te‖ ≤ ρ := by
    intro i hi k c p hcp
    rw [ecfg] at hcp
    obtain ⟨tc, env, s0, t1, t2, t3, t4, t5⟩ := htr k i hi
    obtain ⟨y, n, st, u1, u2, u3, -, u5, u6⟩ := htrack tc env s0 i hi t1 t2 (by rw [t4, hstart i hi])
    rw [t5 n _ _ _ u3, Prod.mk.injEq] at hcp
    refine ⟨hcp.1.symm, ?_⟩
    rw [← hcp.2]
    have hcl : Close st.time te η := by
      rcases u5 with u5 | u5 | u5
      · exact Or.inl u5
      · exact Or.inr (Or.inl (u5.trans (by gcongr)))
      · exact Or.inr (Or.inr (u5.trans (by gcongr)))
    have hd := (close_norm h0 hη.le hη1 hcl).trans_lt hη2
    have hre : |st.time.re - te| < κ := by
      have := (Complex.abs_re_le_norm (st.time - te)).trans_lt hd
      simpa using this
    obtain ⟨hl, hr⟩ := abs_lt.1 hre
    have hyY : y st.time.re = Y i st.time.re := by
      refine open_unique hu.regular u1 (hP i hi).1 hone ?_ _ ⟨by linarith, by linarith⟩
      rw [u2, t4, hstart i hi, (hP i hi).2.1]
    rw [hyY] at u6
    have := hκ i hi st.time.re (hre.trans_le (hκa.trans (hκ1' i (by simpa using hi))))
    calc ‖st.space - Y i te‖ = ‖(st.space - Y i st.time.re) + (Y i st.time.re - Y i te)‖ := by rw [sub_add_sub_cancel]
      _ ≤ _ := norm_add_le _ _
      _ ≤ ρ := by linarith
  have hnorerun := solve_no_rerun (N := N) E cfg (by
    rintro D hD hall i j ⟨hij, a, b, ha, hb, -, -, hlt⟩
    have hj : j < N := by rw [← hD]; exact (List.getElem?_eq_some_iff.1 hb).1
    have hi : i < N := hij.trans hj
    obtain ⟨ka, hka⟩ := hall i a ha
    obtain ⟨kb, hkb⟩ := hall j b hb
    have e1 := (hgood i hi _ _ _ hka).2
    have e2 := (hgood j hj _ _ _ hkb).2
    have e3 := hgap2 i hi j hj hij.ne
    have e4 := hMM i hi
    have e5 : ‖a.pt‖ ≤ M := by
      have := norm_add_le (a.pt - Y i te) (Y i te)
      rw [sub_add_cancel] at this
      linarith
    have e6 : gap / 2 ≤ ‖a.pt - b.pt‖ := by
      have h3 : Y i te - Y j te = (a.pt - b.pt) - (a.pt - Y i te) + (b.pt - Y j te) := by abel
      have h4 := norm_add_le ((a.pt - b.pt) - (a.pt - Y i te)) (b.pt - Y j te)
      have h5 := norm_sub_le (a.pt - b.pt) (a.pt - Y i te)
      rw [← h3] at h4
      linarith
    have e7 : cfg.midTol * ‖a.pt‖ ≤ gap / 2 := by
      rcases le_or_gt 0 cfg.midTol with hz | hz
      · calc cfg.midTol * ‖a.pt‖ ≤ gap / (2 * M) * M := by gcongr
          _ = gap / 2 := by field_simp
      · have := mul_nonpos_of_nonpos_of_nonneg hz.le (norm_nonneg a.pt)
        linarith
    linarith)
  obtain ⟨g1, g2, g3⟩ := hnorerun
  obtain ⟨s', -, e, -, -, -, hml, hbl, hxl, hall⟩ := C56 (N := N) E cfg (ZSt.init _) Reach.init
  have hs' : s = s' := e
  rw [← hs'] at hml hbl hxl hall
  have hend : ∀ i < N, ∃ m b x, s.md[i]? = some m ∧ s.bdry[i]? = some b ∧ s.sols[i]? = some x ∧
      b.code = .success ∧ m.pre = .success ∧ m.post = .success ∧ ‖x - z i‖ ≤ ε := by
    intro i hi
    obtain ⟨m, b, x, q1, q2, q3, -, q5, -, q7⟩ := hall i hi
    obtain ⟨k, hk⟩ := g3 i b q2
    obtain ⟨r1, r2⟩ := hgood i hi _ _ _ hk
    obtain ⟨ke, hke⟩ := q7 r1
    have := heg ke b.pt (Y i) (z i) (hP i hi).1 (hP i hi).2.2.2 (r2.trans hρδ)
    rw [hke] at this
    exact ⟨m, b, x, q1, q2, q3, r1, by rw [q5, r1], this.1, this.2⟩
  have hcoinc : ∀ i < N, ∀ j < N, Coinc cfg.postTol s i j ↔ z j = z i := by
    intro i hi j hj
    obtain ⟨mi, -, xi, i1, -, i3, -, -, i6, i7⟩ := hend i hi
    obtain ⟨mj, -, xj, j1, -, j3, -, -, j6, j7⟩ := hend j hj
    constructor
    · rintro ⟨mi', mj', xi', xj', q1, q2, q3, q4, -, -, q7⟩
      rw [i3, Option.some.injEq] at q3
      rw [j3, Option.some.injEq] at q4
      subst q3 q4
      by_contra hne
      have h2 := hgz2 i hi j hj (Ne.symm hne)
      have h3 := (norm_le_eDist xi xj).trans_lt q7
      have h4 : z i - z j = (xi - xj) - (xi - z i) + (xj - z j) := by abel
      have h5 := norm_add_le ((xi - xj) - (xi - z i)) (xj - z j)
      have h6 := norm_sub_le (xi - xj) (xi - z i)
      rw [← h4] at h5
      have hm0 : m ≠ 0 := by
        rintro rfl
        exact hne (Subsingleton.elim _ _)
      have h7 : 1 ≤ √(m : ℝ) := by
        rw [Real.one_le_sqrt]
        exact_mod_cast Nat.one_le_iff_ne_zero.2 hm0
      have h8 : 2 * ε ≤ 2 * √(m : ℝ) * ε := by nlinarith
      linarith
    · intro hz
      refine ⟨mi, mj, xi, xj, i1, j1, i3, j3, i6, j6, ?_⟩
      have h3 : ‖xi - xj‖ ≤ 2 * ε := by
        have h4 : xi - xj = (xi - z i) - (xj - z j) := by rw [hz]; abel
        rw [h4]
        have := norm_sub_le (xi - z i) (xj - z j)
        linarith
      calc eDist xi xj ≤ √(m : ℝ) * ‖xi - xj‖ := eDist_le _ _
        _ ≤ √(m : ℝ) * (2 * ε) := by gcongr
        _ = 2 * √(m : ℝ) * ε := by ring
        _ < _ := eacc
  have hmult : ∀ i < N, ∀ m, s.md[i]? = some m →
      m.mult = (((Finset.range N).filter fun j => z j = z i).card : ℤ) := by
    intro i hi m hm'
    obtain ⟨m', q1, q2⟩ := (C55_partial (N := N) E cfg).1 i hi
    have hm2 : some m = some m' := hm'.symm.trans q1
    rw [Option.some.injEq] at hm2
    rw [hm2, q2]
    have hset : (Finset.range N).filter (fun j => z j = z i) =
        insert i ((Finset.range N).filter fun j => j ≠ i ∧ Coinc cfg.postTol s i j) := by
      ext j
      simp only [Finset.mem_filter, Finset.mem_range, Finset.mem_insert]
      constructor
      · rintro ⟨h2, h3⟩
        by_cases hji : j = i
        · exact Or.inl hji
        · exact Or.inr ⟨h2, hji, (hcoinc i hi j h2).2 h3⟩
      · rintro (rfl | ⟨h2, -, h3⟩)
        · exact ⟨hi, rfl⟩
        · exact ⟨h2, (hcoinc i hi j h2).1 h3⟩
    rw [hset, Finset.card_insert_of_notMem (by simp)]
    unfold twins
    push_cast
    rw [add_comm]
  refine ⟨z, fun i hi => ⟨(hP i hi).2.2.1, Y i, (hP i hi).1, (hP i hi).2.1, (hP i hi).2.2.2⟩, g1, ?_, ?_, ?_, ?_⟩
  · refine ⟨fun i => ((s.bdry[i]?).map Bdry.pt).getD 0, ?_⟩
    have : s.log = _ := g2
    rw [this, ecfg]
    congr 1
    rw [← List.filterMap_eq_map]
    apply List.filterMap_congr
    intro i hi
    obtain ⟨m, b, x, -, q2, -, q4, -⟩ := hend i (List.mem_range.1 hi)
    have q2' : (solve N E cfg (ZSt.init _)).bdry[i]? = some b := q2
    simp [egEvent, q2', q2, q4]
  · intro i hi
    obtain ⟨m, b, x, q1, -, q3, -, q5, q6, q7⟩ := hend i hi
    exact ⟨m, x, q1, q3, q5, q6, q7, hmult i hi m q1⟩
  · intro i hi hJ
    have huniq : ∀ j < N, z j = z i → j = i := by
      intro j hj hz
      obtain ⟨a1, a2, a3, a4⟩ := hP i hi
      obtain ⟨b1, b2, b3, b4⟩ := hP j hj
      have h3 := start_unique hu.regular (closed_path a1 a3 a4) (closed_path b1 b3 b4)
        (by simpa using hJ) (by simpa using hz.symm)
      norm_num at h3
      rw [a2, b2] at h3
      exact hu.distinct j hj i hi h3.symm
    obtain ⟨m, -, -, q1, -⟩ := hend i hi
    refine ⟨huniq, m, q1, ?_⟩
    rw [hmult i hi m q1]
    have : (Finset.range N).filter (fun j => z j = z i) = {i} := by
      ext j
      simp only [Finset.mem_filter, Finset.mem_range, Finset.mem_singleton]
      exact ⟨fun q => huniq j q.1 q.2, fun q => by rw [q]; exact ⟨hi, rfl⟩⟩
    rw [this]
    simp
  · intro hall x hx hJ
    obtain ⟨y, hy, hy0⟩ := reaches hu.regular hx hJ
    have hy1 := hy.zero 1 ⟨zero_le_one, le_rfl⟩
    rw [Complex.ofReal_one] at hy1
    obtain ⟨i, hi, hpi⟩ := hall _ hy1
    obtain ⟨a1, a2, a3, a4⟩ := hP i hi
    refine ⟨i, hi, ?_⟩
    have h3 := end_unique hu.regular (closed_path a1 a3 a4) hy (by norm_num; rw [a2, hpi])
    rw [hy0] at h3
    simpa using h3


/-- All paths, by their points at time 1. -/
theorem all_paths (hr : ∀ ε : ℝ, 0 < ε → Regular H ε 1) : ∃ (S : Finset (Fin m → ℂ)) (Y : (Fin m → ℂ) → ℝ → Fin m → ℂ),
    (∀ x ∈ S, OpenPath H (Y x) ∧ Y x 1 = x) ∧
    ∀ y, OpenPath H y → ∃ x ∈ S, ∀ s ∈ Ioc (0 : ℝ) 1, y s = Y x s := by
  have hf := zeros_finite hr one_mem
  have hex : ∀ x, ∃ Y, H (x, ((1 : ℝ) : ℂ)) = 0 → OpenPath H Y ∧ Y 1 = x := by
    intro x
    by_cases hx : H (x, ((1 : ℝ) : ℂ)) = 0
    · obtain ⟨y, hy⟩ := open_exists hr one_mem hx
      exact ⟨y, fun _ => hy⟩
    · exact ⟨fun _ => 0, fun h => absurd h hx⟩
  choose Y hY using hex
  refine ⟨hf.toFinset, Y, fun x hx => hY x (by simpa using hx), fun y hy => ?_⟩
  have h1 := hy.zero 1 one_mem
  exact ⟨y 1, by simpa using h1, fun s hs => open_unique hr hy (hY _ h1).1 one_mem (hY _ h1).2.symm s hs⟩

/-- The Cauchy endgame is accurate on every path. -/
theorem cauchy_accurate (hu : GoodHom H N p) (cfg : CCfg) (hn : 3 ≤ cfg.n) (hf0 : 0 < cfg.factor)
    (hf1 : cfg.factor < 1) (htt : 0 < cfg.trackTol) (hfs : {x | H (x, 1) = 0}.ncard ≤ cfg.failsafe)
    (htol : 0 < cfg.finalTol) (hcut : 0 < cfg.cycleCutoff) (hrat : 0 < cfg.ratioCutoff) {ε : ℝ} (hε : 0 < ε) :
    ∃ ρ > 0, ρ ≤ 1 ∧ ∀ te, 0 < te → te < ρ → ∀ m ≤ te * cfg.factor ^ (cfg.n - 1) * (1 - cfg.factor) ^ cfg.needed,
      ∀ δ E, δ ≤ cfg.finalTol / 8 → CauchyEndgame H E { cfg with minTrack := m } te δ → AccurateEndgame H E te δ ε := by
  obtain ⟨ρp, hp⟩ := hu.near
  obtain ⟨R, hR, hR1, hRp, hser⟩ := hp.series'
  obtain ⟨S, Y, hY, hall⟩ := all_paths hu.regular
  have hex : ∀ x0, ∃ z ρ, 0 < ρ ∧ (x0 ∈ S → Tendsto (Y x0) (𝓝[>] 0) (𝓝 z) ∧
      ∀ te : ℝ, 0 < te → te < ρ → te < 1 → ∀ m ≤ te * cfg.factor ^ (cfg.n - 1) * (1 - cfg.factor) ^ cfg.needed,
        ∀ δ Eg, δ ≤ cfg.finalTol / 8 → FollowsSeg H Eg te δ → ∀ x, ‖x - Y x0 te‖ ≤ δ →
          ∃ s, runC Eg { cfg with minTrack := m } te 0 x 1 = .done .success s ∧ ‖s.latest - z‖ ≤ ε) := by
    intro x0
    by_cases hi : x0 ∈ S
    swap
    · exact ⟨0, 1, one_pos, fun h => absurd h hi⟩
    obtain ⟨φ, c, hc, hcN, ha, -, hz, hv⟩ := hser (Y x0) (hY x0 hi).1
    have hcf : c ≤ cfg.failsafe := (hcN.trans (zeros_le hu.regular ⟨hR, hR1⟩)).trans hfs
    have hs : FracSeries (Y x0) (fun t => tangent H (Y x0 t, (t : ℂ))) φ c R :=
      ⟨hc, hR, fun j => (analyticAt_pi_iff.1 ha) j, fun t h0 h1 => (hv t h0 h1).1, fun t h0 h1 => (hv t h0 h1).2⟩
    obtain ⟨ρ, h1, h2, h3⟩ := cauchy_near hc hR ha.continuousAt hε htol hcut hrat
    refine ⟨φ 0, ρ, h1, fun _ => ⟨fracSeries_tendsto hs, fun te a b b1 m hm δ Eg hδ hE x hx => ?_⟩⟩
    have hc0 : (c : ℝ) ≠ 0 := by exact_mod_cast (by omega : c ≠ 0)
    set u : ℂ := ((te ^ (1 / (c : ℝ)) : ℝ) : ℂ) with hu
    have hupos : (0 : ℝ) < te ^ (1 / (c : ℝ)) := Real.rpow_pos_of_pos a _
    have hu0 : u ≠ 0 := by rw [hu]; exact_mod_cast hupos.ne'
    have huc : u ^ c = te := by
      rw [hu, ← Complex.ofReal_pow, ← Real.rpow_natCast, ← Real.rpow_mul a.le, one_div_mul_cancel hc0, Real.rpow_one]
    have hun : ‖u‖ ^ c = te := by rw [← norm_pow, huc, Complex.norm_real, Real.norm_of_nonneg a.le]
    have hyu : Y x0 te = φ u := (hv te a (b.trans_le h2)).1
    have hroot : φ (u * rootOf c cfg.factor) = Y x0 (te * cfg.factor) := by
      rw [(hv (te * cfg.factor) (by positivity) (by nlinarith)).1]
      congr 1
      rw [Real.mul_rpow a.le hf0.le, Complex.ofReal_mul, ← hu]
      congr 1
      unfold rootOf
      rw [Complex.ofReal_cpow hf0.le]
      push_cast
      rw [one_div]
    have hex := hE.exactC hp hRp hc hz
    obtain ⟨s, e1, e2⟩ := h3 { cfg with minTrack := m } Eg hex hn hf0 hf1 htt hcf le_rfl le_rfl le_rfl u x hu0 (by rwa [hun])
      (fun k => by
        have := hE.attract (Y x0) (hY x0 hi).1 x hx k (te * cfg.factor) (by positivity) (by nlinarith)
        rw [huc]
        show Eg.track k te (te * (cfg.factor : ℂ)) x = (.success, φ (u * rootOf c cfg.factor))
        rw [hroot, ← this]
        push_cast
        rfl) (by rw [← hyu]; exact hx.trans hδ) (by rw [hun]; exact hm) 1 le_rfl
    rw [huc] at e1
    exact ⟨s, e1, e2⟩
  choose z ρ0 hρ0 hP using hex
  obtain ⟨ρ, hρ, hρ'⟩ := exists_pos_le S ρ0 fun i _ => hρ0 i
  refine ⟨min ρ 1, lt_min hρ one_pos, min_le_right _ _, fun te h0 h1 m hm δ E hδ hE k x y z' hy hz hx => ?_⟩
  have hte1 := h1.trans_le (min_le_right _ _)
  obtain ⟨Eg, e1, e3⟩ := hE k
  obtain ⟨x0, hi, hyi⟩ := hall y hy
  obtain ⟨hl, hrun⟩ := hP x0 hi
  have hz' : z x0 = z' := tendsto_nhds_unique hl (hz.congr' (by
    filter_upwards [Ioc_mem_nhdsGT (show (0 : ℝ) < 1 from one_pos)] with s hs
    exact hyi s hs))
  rw [hyi te ⟨h0, hte1.le⟩] at hx
  obtain ⟨s, f1, f2⟩ := hrun te h0 (h1.trans_le ((min_le_left _ _).trans (hρ' x0 hi))) hte1 m hm δ Eg hδ e1 x hx
  rw [e3 _ _ _ _ f1]
  exact ⟨rfl, by rw [← hz']; exact f2⟩

/-- The power-series endgame is accurate on every path. -/
theorem ps_accurate (hu : GoodHom H N p) (cfg : EgCfg) (ccfg : CycCfg) (rand : Fin m → ℂ) (hcn : ccfg.n = cfg.n)
    (hcf : ccfg.factor = cfg.factor) (hn : 3 ≤ cfg.n) (hf0 : 0 < cfg.factor) (hf1 : cfg.factor < 1) (htop : 0 < ccfg.top)
    (hmc : 1 ≤ ccfg.maxCycle) (htol : 0 < cfg.finalTol) {ε : ℝ} (hε : 0 < ε) :
    ∃ ρ > 0, ρ ≤ 1 ∧ ∀ te, 0 < te → te < ρ → ∀ m ≤ te * cfg.factor ^ cfg.n, ∀ δ E, 0 ≤ δ →
      PSEndgame H E { cfg with minTrack := m } ccfg rand te δ ε → AccurateEndgame H E te δ ε := by
  obtain ⟨ρp, hp⟩ := hu.near
  obtain ⟨R, hR, hR1, -, hser⟩ := hp.series'
  obtain ⟨S, Y, hY, hall⟩ := all_paths hu.regular
  have hex : ∀ x0, ∃ z ρ, 0 < ρ ∧ (x0 ∈ S → Tendsto (Y x0) (𝓝[>] 0) (𝓝 z) ∧
      ∀ Eg, ExactEg Eg ccfg rand (Y x0) (fun t => tangent H (Y x0 t, (t : ℂ))) R →
        (0 < cfg.level ∨ ∀ a, ‖a - z‖ ≤ ε → Eg.dehomNorm a ≤ cfg.maxNorm) →
        ∀ te : ℝ, 0 < te → te < ρ → ∀ m ≤ te * cfg.factor ^ cfg.n,
          ∃ s, runPS Eg { cfg with minTrack := m } te 0 (Y x0 te) 2 = .done .success s ∧ ‖s.latest - z‖ ≤ ε) := by
    intro x0
    by_cases hi : x0 ∈ S
    swap
    · exact ⟨0, 1, one_pos, fun h => absurd h hi⟩
    obtain ⟨φ, c, hc, -, ha, -, -, hv⟩ := hser (Y x0) (hY x0 hi).1
    have hs : FracSeries (Y x0) (fun t => tangent H (Y x0 t, (t : ℂ))) φ c R :=
      ⟨hc, hR, fun j => (analyticAt_pi_iff.1 ha) j, fun t h0 h1 => (hv t h0 h1).1, fun t h0 h1 => (hv t h0 h1).2⟩
    obtain ⟨ρ, h1, -, h3⟩ := C150_accurate_partial hs cfg ccfg rand hcn hcf hn hf0 hf1 htop hmc htol hε
    exact ⟨φ 0, ρ, h1, fun _ => ⟨fracSeries_tendsto hs, fun Eg hE hsec te a b m hm => h3 Eg hE hsec te a b m hm 2 le_rfl⟩⟩
  choose z ρ0 hρ0 hP using hex
  obtain ⟨ρ, hρ, hρ'⟩ := exists_pos_le S ρ0 fun i _ => hρ0 i
  refine ⟨min ρ 1, lt_min hρ one_pos, min_le_right _ _, fun te h0 h1 m hm δ E hδ hE k x y z' hy hz hx => ?_⟩
  have hte1 := h1.trans_le (min_le_right _ _)
  obtain ⟨Eg, e1, e2, e3⟩ := hE k
  obtain ⟨x0, hi, hyi⟩ := hall y hy
  obtain ⟨hl, hrun⟩ := hP x0 hi
  have hz' : z x0 = z' := tendsto_nhds_unique hl (hz.congr' (by
    filter_upwards [Ioc_mem_nhdsGT (show (0 : ℝ) < 1 from one_pos)] with s hs
    exact hyi s hs))
  obtain ⟨s, f1, f2⟩ := hrun Eg (exactEg_mono (e1.exact _ (hY x0 hi).1) hR1) (e2.imp id fun h a ha =>
    h (Y x0) (z x0) (hY x0 hi).1 hl a ha) te h0
    (h1.trans_le ((min_le_left _ _).trans (hρ' x0 hi))) m hm
  rw [hyi te ⟨h0, hte1.le⟩] at hx
  rw [← runPS_near e1 hδ { cfg with minTrack := m } (by show 2 ≤ cfg.n; omega) hf0 hf1 h0 hte1 (hY x0 hi).1 hx] at f1
  rw [e3 _ _ _ _ f1]
  exact ⟨rfl, by rw [← hz']; exact f2⟩

/-! ### C161 -/

/-- What a solve with the homotopy `H` from the start points `p` is to report, with accuracy `ε`, in its state `s`
at the end: each path is tracked once, to the endgame boundary with tolerance `tol` and then by the endgame; the
midpath check passes; every path ends with success, its solution within `ε` of the limit at time 0 of the path of
zeros through its start point, which is a zero at time 0; the multiplicity reported is the number of tracked paths
with that limit. A path that ends at a nonsingular zero shares it with no other and is reported with multiplicity 1.
If the start points are all zeros at time 1, every nonsingular zero at time 0 is reported. -/
structure Reported {m : ℕ} (H : (Fin m → ℂ) × ℂ → Fin m → ℂ) (N : ℕ) (p : ℕ → Fin m → ℂ) (tol ε : ℝ) (s : ZSt m)
    (z : ℕ → Fin m → ℂ) : Prop where
  limit : ∀ i < N, H (z i, 0) = 0 ∧ ∃ y, OpenPath H y ∧ y 1 = p i ∧ Tendsto y (𝓝[>] 0) (𝓝 (z i))
  passed : s.checker.passed = true
  once : ∃ x : ℕ → Fin m → ℂ, s.log = (List.range N).map (fun i => .before i tol) ++
    (List.range N).map fun i => .endgame i (x i)
  result : ∀ i < N, ∃ md x, s.md[i]? = some md ∧ s.sols[i]? = some x ∧ md.pre = .success ∧ md.post = .success ∧
    ‖x - z i‖ ≤ ε ∧ md.mult = ({j | j < N ∧ z j = z i}.ncard : ℤ)
  nonsingular : ∀ i < N, IsUnit (jacV H (z i, 0)) → (∀ j < N, z j = z i → j = i) ∧ ∃ md, s.md[i]? = some md ∧ md.mult = 1
  complete : (∀ x, H (x, 1) = 0 → ∃ i < N, p i = x) → ∀ x, H (x, 0) = 0 → IsUnit (jacV H (x, 0)) → ∃ i < N, z i = x

/-- **C161.** A whole solve with a homotopy supplied by the user (policy `RefToGiven`), here with the Cauchy
endgame. Let the solver be set up for its systems (C162) and let the system its tracker tracks compute `H`; let the
start points `p` of its start system be different zeros of `H` at time 1, the zeros of `H` at times in `(0, 1]` and at
complex times near 0 be nonsingular and bounded, and let the configured maximal cycle number be at least the number of
zeros at time 1. There is a bound such that for every tolerance `post` for multiplicities below it and every accuracy
`ε` small against it there is a radius such that for every endgame boundary inside it, a small enough tolerance of the
midpath check and fine enough tracks, the solve reports what it should for the homotopy and the start points given; and
if the homotopy at time 0 is the target given, the points reported are near solutions of the target. -/
theorem C161 (simp : Node → Node) (w : World) (e : Wire.Env) (heap : Wire.Heap) (zd hom : ℕ) (sv : Wire.Solver)
    (hsv : heap.solvers zd = some sv) (hw : Wire.Wired e heap zd) (hg : Wire.getSystem heap (.member zd) = some hom)
    (hH : Computes simp w hom m H)
    (hu : GoodHom H (e.count sv.start) p) (T : Table) (tol : ℝ) (ht : 0 < tol) (ecfg : CCfg) (hn : 3 ≤ ecfg.n) (hf0 : 0 < ecfg.factor)
    (hf1 : ecfg.factor < 1) (htt : 0 < ecfg.trackTol) (hfs : {x | H (x, 1) = 0}.ncard ≤ ecfg.failsafe)
    (htol : 0 < ecfg.finalTol) (hcut : 0 < ecfg.cycleCutoff) (hrat : 0 < ecfg.ratioCutoff) :
    Computes simp w sv.homotopy m H ∧
    ∃ bound > 0, ∀ post ε : ℝ, post ≤ bound → 0 < ε → 2 * √(m : ℝ) * ε < post → ∃ ρ > 0,
      ∀ te : ℝ, 0 < te → te < ρ → ∃ mid > 0, ∀ δ : ℝ, 0 < δ → δ ≤ ecfg.finalTol / 8 → ∃ hm > 0, ∃ η > 0,
      ∀ (E : ZEnv m) (cfg : ZCfg) (minTrack : ℝ),
      minTrack ≤ te * ecfg.factor ^ (ecfg.n - 1) * (1 - ecfg.factor) ^ ecfg.needed →
      (∀ i < sv.numStart, E.start i = p i) → FineTracker H T E sv.numStart tol hm η te →
      CauchyEndgame H E { ecfg with minTrack := minTrack } te δ →
      cfg.newtonBefore = tol → cfg.midTol ≤ mid → cfg.postTol = post →
      ∃ z, Reported H (e.count sv.start) p tol ε (solve sv.numStart E cfg (ZSt.init _)) z ∧
        ∀ f, ComputesFun simp w sv.target m f → (∀ x, f x = H (x, 0)) → ∀ i < e.count sv.start, f (z i) = 0 := by
  obtain ⟨s', a1, a2, -, a4⟩ := hw
  rw [hsv, Option.some.injEq] at a1
  subst a1
  rw [hg, Option.some.injEq] at a2
  subst a2
  refine ⟨hH, ?_⟩
  rw [a4]
  clear hsv a4
  generalize e.count sv.start = N at hu ⊢
  obtain ⟨bound, hb, hmain⟩ := solve_good hu T tol ht
  refine ⟨bound, hb, fun post ε hpost hε hacc => ?_⟩
  obtain ⟨ρ, hρ, hρ1, heg⟩ := cauchy_accurate hu ecfg hn hf0 hf1 htt hfs htol hcut hrat hε
  refine ⟨ρ, hρ, fun te h0 h1 => ?_⟩
  obtain ⟨mid, hmid, hmain⟩ := hmain te h0 (h1.trans_le hρ1)
  refine ⟨mid, hmid, fun δ hδ hδ8 => ?_⟩
  obtain ⟨hm, hhm, η, hη, hmain⟩ := hmain δ ε hδ hε.le
  refine ⟨hm, hhm, η, hη, fun E cfg mt hmt hs ht he c1 c2 c3 => ?_⟩
  obtain ⟨z, r1, r2, r3, r4, r5, r6⟩ :=
    hmain E cfg hs ht (heg te h0 h1 mt hmt δ E hδ8 he) c1 c2 (c3.le.trans hpost) (by rwa [c3])
  refine ⟨z, ⟨r1, r2, r3, fun i hi => ?_, r5, r6⟩, fun f _ hf i hi => by rw [hf]; exact (r1 i hi).1⟩
  obtain ⟨md, x, q1, q2, q3, q4, q5, q6⟩ := r4 i hi
  refine ⟨md, x, q1, q2, q3, q4, q5, ?_⟩
  rw [q6, ← Set.ncard_coe_finset]
  congr 2
  ext j
  simp

/-- **C161 (power series).** The same with the power-series endgame, without a condition on cycle numbers. -/
theorem C161_ps (simp : Node → Node) (w : World) (e : Wire.Env) (heap : Wire.Heap) (zd hom : ℕ) (sv : Wire.Solver)
    (hsv : heap.solvers zd = some sv) (hw : Wire.Wired e heap zd) (hg : Wire.getSystem heap (.member zd) = some hom)
    (hH : Computes simp w hom m H)
    (hu : GoodHom H (e.count sv.start) p) (T : Table) (tol : ℝ) (ht : 0 < tol) (ecfg : EgCfg) (ccfg : CycCfg) (rand : Fin m → ℂ)
    (hcn : ccfg.n = ecfg.n) (hcf : ccfg.factor = ecfg.factor) (hn : 3 ≤ ecfg.n) (hf0 : 0 < ecfg.factor)
    (hf1 : ecfg.factor < 1) (htop : 0 < ccfg.top) (hmc : 1 ≤ ccfg.maxCycle) (htol : 0 < ecfg.finalTol) :
    Computes simp w sv.homotopy m H ∧
    ∃ bound > 0, ∀ post ε : ℝ, post ≤ bound → 0 < ε → 2 * √(m : ℝ) * ε < post → ∃ ρ > 0,
      ∀ te : ℝ, 0 < te → te < ρ → ∃ mid > 0, ∀ δ : ℝ, 0 < δ → ∃ hm > 0, ∃ η > 0,
      ∀ (E : ZEnv m) (cfg : ZCfg) (minTrack : ℝ), minTrack ≤ te * ecfg.factor ^ ecfg.n →
      (∀ i < sv.numStart, E.start i = p i) → FineTracker H T E sv.numStart tol hm η te →
      PSEndgame H E { ecfg with minTrack := minTrack } ccfg rand te δ ε →
      cfg.newtonBefore = tol → cfg.midTol ≤ mid → cfg.postTol = post →
      ∃ z, Reported H (e.count sv.start) p tol ε (solve sv.numStart E cfg (ZSt.init _)) z ∧
        ∀ f, ComputesFun simp w sv.target m f → (∀ x, f x = H (x, 0)) → ∀ i < e.count sv.start, f (z i) = 0 := by
  obtain ⟨s', a1, a2, -, a4⟩ := hw
  rw [hsv, Option.some.injEq] at a1
  subst a1
  rw [hg, Option.some.injEq] at a2
  subst a2
  refine ⟨hH, ?_⟩
  rw [a4]
  clear hsv a4
  generalize e.count sv.start = N at hu ⊢
  obtain ⟨bound, hb, hmain⟩ := solve_good hu T tol ht
  refine ⟨bound, hb, fun post ε hpost hε hacc => ?_⟩
  obtain ⟨ρ, hρ, hρ1, heg⟩ := ps_accurate hu ecfg ccfg rand hcn hcf hn hf0 hf1 htop hmc htol hε
  refine ⟨ρ, hρ, fun te h0 h1 => ?_⟩
  obtain ⟨mid, hmid, hmain⟩ := hmain te h0 (h1.trans_le hρ1)
  refine ⟨mid, hmid, fun δ hδ => ?_⟩
  obtain ⟨hm, hhm, η, hη, hmain⟩ := hmain δ ε hδ hε.le
  refine ⟨hm, hhm, η, hη, fun E cfg mt hmt hs ht he c1 c2 c3 => ?_⟩
  obtain ⟨z, r1, r2, r3, r4, r5, r6⟩ :=
    hmain E cfg hs ht (heg te h0 h1 mt hmt δ E hδ.le he) c1 c2 (c3.le.trans hpost) (by rwa [c3])
  refine ⟨z, ⟨r1, r2, r3, fun i hi => ?_, r5, r6⟩, fun f _ hf i hi => by rw [hf]; exact (r1 i hi).1⟩
  obtain ⟨md, x, q1, q2, q3, q4, q5, q6⟩ := r4 i hi
  refine ⟨md, x, q1, q2, q3, q4, q5, ?_⟩
  rw [q6, ← Set.ncard_coe_finset]
  congr 2
  ext j
  simp

end

/-! ### Cases -/

/-- The homotopy of a total degree solve meets the conditions. -/
theorem goodHom_of_regular {simp : Node → Node} {w w' : World} {i0 k0 h : ℕ} {g : List Var} {r : Choices}
    {H : (Fin (g.length + 1) → ℂ) × ℂ → Fin (g.length + 1) → ℂ} (hreg : RegularSolve simp w w' i0 k0 h g r H)
    (hinf : ∀ x, x ≠ 0 → (∀ j : Fin g.length, H (x, 0) j.castSucc = 0) → H (x, 0) (Fin.last _) ≠ -1)
    {p : ℕ → Fin (g.length + 1) → ℂ} (hp : ∀ i < (degsOf w i0 g).prod, IsStart w w' i0 k0 g r i (p i)) :
    GoodHom H (degsOf w i0 g).prod p where
  regular ε hε := by
    refine ⟨hreg.analytic, fun x s hs hx => hreg.nonsingular s ⟨hε.trans_le hs.1, hs.2⟩ x hx, ?_⟩
    obtain ⟨Y, hY, hall⟩ := hreg.paths
    have hb : ∀ i, ∃ R, i < (degsOf w i0 g).prod → ∀ s ∈ Icc ε 1, ‖Y i s‖ ≤ R := by
      intro i
      by_cases hi : i < (degsOf w i0 g).prod
      swap
      · exact ⟨0, fun h => absurd h hi⟩
      have hc : ContinuousOn (Y i) (Icc ε 1) := (hY i hi).cont.mono fun s hs => ⟨hε.trans_le hs.1, hs.2⟩
      obtain ⟨R, hR⟩ := isCompact_Icc.exists_bound_of_continuousOn hc
      exact ⟨R, fun _ => hR⟩
    choose R hR using hb
    obtain ⟨M, hM⟩ := exists_bound (Finset.range (degsOf w i0 g).prod) R
    refine ⟨M, fun x s hs hx => ?_⟩
    have hs' : s ∈ Ioc (0 : ℝ) 1 := ⟨hε.trans_le hs.1, hs.2⟩
    obtain ⟨y, hy, hyx⟩ := hreg.through s hs' x hx
    obtain ⟨i, hi, hyi⟩ := hall y hy
    rw [← hyx, hyi s hs']
    exact (hR i hi s hs).trans (hM i (by simpa using hi))
  near := hreg.near hinf
  starts i hi := (hreg.starts _).2 ⟨i, hi, hp i hi⟩
  distinct i hi j hj he := hreg.distinct _ _ _ (hp i hi) (by rw [he]; exact hp j hj)

/-- The parameter homotopy `x^2 - (α + β t)`. -/
def par (α β : ℂ) : (Fin 1 → ℂ) × ℂ → Fin 1 → ℂ := fun q _ => q.1 0 ^ 2 - (α + β * q.2)

theorem par_analytic (α β : ℂ) (q : (Fin 1 → ℂ) × ℂ) : AnalyticAt ℂ (par α β) q := by
  rw [analyticAt_pi_iff]
  intro i
  have h1 : AnalyticAt ℂ (fun q : (Fin 1 → ℂ) × ℂ => q.1 0) q :=
    (ContinuousLinearMap.analyticAt (ContinuousLinearMap.proj (R := ℂ) (φ := fun _ : Fin 1 => ℂ) 0) q.1).comp' analyticAt_fst
  exact (h1.pow 2).sub (analyticAt_const.add (analyticAt_const.mul analyticAt_snd))

theorem par_jac (α β : ℂ) (x : Fin 1 → ℂ) (s : ℂ) (hx : x 0 ≠ 0) : IsUnit (jacV (par α β) (x, s)) := by
  rw [jacV_eq (par_analytic α β _)]
  have h0 := fderiv_sqm x hx
  have h1 : (fun y : Fin 1 → ℂ => par α β (y, s)) =
      fun y => (fun (y : Fin 1 → ℂ) (_ : Fin 1) => y 0 ^ 2 - 1) y + fun _ => 1 - (α + β * s) := by
    funext y i
    simp [par]
  rw [h1, fderiv_add_const]
  exact h0

/-- It meets the conditions, from the two square roots of `α + β`, when `α + β t` is not 0 for `0 < |t| ≤ 1`. -/
theorem par_good (α β r : ℂ) (hne : ∀ s : ℂ, s ≠ 0 → ‖s‖ ≤ 1 → α + β * s ≠ 0) (hr : r ^ 2 = α + β) :
    GoodHom (par α β) 2 fun i _ => if i = 0 then r else -r := by
  have hz : ∀ (x : Fin 1 → ℂ) (s : ℂ), par α β (x, s) = 0 → x 0 ^ 2 = α + β * s := by
    intro x s h
    have := congrFun h 0
    simpa [par, sub_eq_zero] using this
  have hb : ∀ (x : Fin 1 → ℂ) (s : ℂ), ‖s‖ ≤ 1 → par α β (x, s) = 0 → ‖x‖ ≤ 1 + ‖α‖ + ‖β‖ := by
    intro x s hs h
    have h1 := congrArg norm (hz x s h)
    rw [norm_pow] at h1
    have h2 : ‖α + β * s‖ ≤ ‖α‖ + ‖β‖ := by
      refine (norm_add_le _ _).trans ?_
      rw [norm_mul]
      have := mul_le_mul_of_nonneg_left hs (norm_nonneg β)
      linarith
    have h3 : ‖x‖ = ‖x 0‖ := by
      refine le_antisymm ((pi_norm_le_iff_of_nonneg (norm_nonneg _)).2 fun i => ?_) (norm_le_pi_norm x 0)
      rw [Subsingleton.elim i 0]
    rw [h3]
    have := norm_nonneg α
    have := norm_nonneg β
    by_contra hc
    push Not at hc
    nlinarith
  have hns : ∀ (x : Fin 1 → ℂ) (s : ℂ), s ≠ 0 → ‖s‖ ≤ 1 → par α β (x, s) = 0 → IsUnit (jacV (par α β) (x, s)) := by
    intro x s h0 h1 h
    refine par_jac α β x s fun hx => hne s h0 h1 ?_
    rw [← hz x s h, hx]
    norm_num
  have hr0 : r ≠ 0 := by
    rintro rfl
    exact hne 1 one_ne_zero (by simp) (by rw [mul_one, ← hr]; norm_num)
  refine ⟨fun ε hε => ⟨par_analytic α β, fun x s hs h => hns x s ?_ ?_ h, _, fun x s hs h => hb x s ?_ h⟩,
    ⟨1, one_pos, par_analytic α β, fun x s h0 h1 h => hns x s h0 h1.le h, _, fun x s hs h => hb x s hs h⟩, ?_, ?_⟩
  · exact_mod_cast (hε.trans_le hs.1).ne'
  · rw [Complex.norm_real, Real.norm_of_nonneg (hε.trans_le hs.1).le]; exact hs.2
  · rw [Complex.norm_real, Real.norm_of_nonneg (hε.trans_le hs.1).le]; exact hs.2
  · intro i _
    funext j
    by_cases hi : i = 0 <;> simp [par, hi, hr]
  · intro i hi j hj he
    have h1 := congrFun he 0
    have h2 : r ≠ -r := fun hc => hr0 (by linear_combination hc / 2)
    interval_cases i <;> interval_cases j <;> simp_all

/-- `x^2 - t`: its two paths meet at time 0. -/
example : GoodHom (par 0 1) 2 fun i _ => if i = 0 then 1 else -1 :=
  par_good 0 1 1 (fun s hs _ => by simpa using hs) (by norm_num)

/-- `x^2 - (4 - 3t)`, from `±1` to `±2`. -/
example : GoodHom (par 4 (-3)) 2 fun i _ => if i = 0 then 1 else -1 :=
  par_good 4 (-3) 1 (fun s _ hs hc => by
    have h1 : s = 4 / 3 := by linear_combination -hc / 3
    rw [h1] at hs
    norm_num at hs) (by norm_num)

/-- C161 for the homotopy that a solver made for `x^2 - 1`, given to another solver by the user: the solver is
made on objects 0, 1 and 5, and both solutions are reported, with any accuracy. -/
example (simp : Node → Node) (T : Table) (ε : ℝ) (hε : 0 < ε) : ∃ (γ : ℚ × ℚ) (w' : World) (heap : Wire.Heap) (E : ZEnv 2) (cfg : ZCfg),
    Wire.runOps ⟨fun _ => (2, 2), fun _ => 2, fun _ => true, id, 4, 0⟩ [.construct 0 0 1 5] Wire.Heap.empty = some heap ∧
    Computes simp w' 5 2 (sqLine γ) ∧
    ∃ z, ∃ ε' ≤ ε, Reported (sqLine γ) 2 E.start 1 ε' (solve 2 E cfg (ZSt.init 2)) z := by
  obtain ⟨γ, w', -, h4, h5, hinf⟩ := sqm_regular simp
  have hprod : (degsOf (ww sqm) 0 [0]).prod = 2 := by rw [degsOf_sqm]; rfl
  have hex : ∀ i, ∃ x, i < (degsOf (ww sqm) 0 [0]).prod → IsStart (ww sqm) w' 0 1 [0] (choices (0, 0)) i x := by
    intro i
    by_cases hi : i < (degsOf (ww sqm) 0 [0]).prod
    · obtain ⟨x, hx⟩ := h5.numbered i hi
      exact ⟨x, fun _ => hx⟩
    · exact ⟨0, fun h => absurd h hi⟩
  choose p hp using hex
  have hgood := goodHom_of_regular h5 hinf hp
  rw [hprod] at hgood
  let e : Wire.Env := ⟨fun _ => (2, 2), fun _ => 2, fun _ => true, id, 4, 0⟩
  obtain ⟨heap, hheap⟩ : ∃ heap, Wire.runOps e [.construct 0 0 1 5] Wire.Heap.empty = some heap := ⟨_, rfl⟩
  obtain ⟨hw, sv, hsv, q2, q3⟩ := Wire.C162_partial e [] [] 0 0 1 5 heap hheap (by simp)
  obtain ⟨sv', r1, r2, r3, r4⟩ := hw
  rw [hsv, Option.some.injEq] at r1
  subst r1
  have hnum : sv.numStart = 2 := r4
  have hcount : {x | sqLine γ (x, 1) = 0}.ncard ≤ cauchyCfg.failsafe := by
    have h1 := h5.ncard_le one_mem
    rw [Complex.ofReal_one, hprod] at h1
    exact h1.trans (by norm_num [cauchyCfg])
  obtain ⟨-, bound, hbound, hmain⟩ := C161 (p := p) simp w' e heap 0 5 sv hsv ⟨sv, hsv, r2, r3, r4⟩ (by rw [r2, q3]) h4
    hgood T 1 one_pos cauchyCfg (by norm_num [cauchyCfg]) (by norm_num [cauchyCfg])
    (by norm_num [cauchyCfg]) (by norm_num [cauchyCfg]) hcount (by norm_num [cauchyCfg])
    (by norm_num [cauchyCfg]) (by norm_num [cauchyCfg])
  have hs2 : √((([0] : List Var).length + 1 : ℕ) : ℝ) ≤ 2 := by
    rw [Real.sqrt_le_left (by norm_num)]
    norm_num
  obtain ⟨ρ, hρ, hmain⟩ := hmain bound (min ε (bound / 8)) le_rfl (by positivity) (by
    have : min ε (bound / 8) ≤ bound / 8 := min_le_right _ _
    have : 0 < min ε (bound / 8) := by positivity
    nlinarith)
  have hte0 : 0 < min ρ 1 / 2 := by positivity
  have hte1 : min ρ 1 / 2 < ρ := by have := min_le_left ρ 1; linarith
  have hte2 : min ρ 1 / 2 < 1 := by have := min_le_right ρ 1; linarith
  obtain ⟨mid, hmid, hmain⟩ := hmain (min ρ 1 / 2) hte0 hte1
  obtain ⟨δ, hδ, hδ8, hE⟩ := C153_inhabited h5 T (min ρ 1 / 2) 1 mid bound (cauchyCfg.finalTol / 8) hte0 hte2 hmid
    (by norm_num [cauchyCfg]) { cauchyCfg with minTrack := 0 }
  obtain ⟨hm, hhm, η, -, hall⟩ := hmain δ hδ hδ8
  obtain ⟨E, cfg, g1, g2, g3, g4, -, g6, g7⟩ := hE hm η hhm
  rw [hprod] at g1 g2
  have hst : ∀ i < 2, E.start i = p i := by
    intro i hi
    have a := g1 i hi
    have b := hp i (by rw [hprod]; exact hi)
    unfold IsStart at a b
    rw [a, Option.some.injEq] at b
    exact List.ofFn_injective b
  obtain ⟨z, k1, -⟩ := hall E cfg 0 (by
    have : (0 : ℝ) < cauchyCfg.factor := by norm_num [cauchyCfg]
    have : (0 : ℝ) < 1 - cauchyCfg.factor := by norm_num [cauchyCfg]
    positivity) (by rw [hnum]; exact hst) (by rw [hnum]; exact g2) g3 g4 g6 g7
  rw [hnum] at k1
  refine ⟨γ, w', heap, E, cfg, hheap, h4, z, min ε (bound / 8), min_le_left _ _, ?_⟩
  refine ⟨fun i hi => ?_, k1.passed, k1.once, k1.result, k1.nonsingular, fun hc => k1.complete fun x hx => ?_⟩
  · rw [hst i hi]; exact k1.limit i hi
  · obtain ⟨i, hi, hx'⟩ := hc x hx
    exact ⟨i, hi, by rw [← hst i hi, hx']⟩

end B2.Alg.UserH
