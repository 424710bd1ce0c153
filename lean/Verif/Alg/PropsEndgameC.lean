import Verif.Alg.PropsEndgame
import Verif.Endgame.PropsCauchyConverge

/-!
# Property C153: a whole solve with the Cauchy endgame

All paths of a regular total degree solve are fractional power series near time 0 (C151), on which the
Cauchy endgame converges (C152); this replaces the accurate endgame assumed in C149.
-/

namespace B2.Alg.Htp

open B2.Sys B2.Start B2.Cont B2.Predict B2.Track B2.Endgame Set Filter Topology

/-! ### Segments in the time plane -/

section
variable {V : Type} [NormedAddCommGroup V] [NormedSpace ℂ V]

/-- The homotopy over the segment from the time `t` to the time `t'`, with parameter from 0 to 1. -/
noncomputable def seg (H : V × ℂ → V) (t t' : ℂ) : V × ℂ → V := fun q => H (q.1, t + q.2 * (t' - t))

theorem seg_analytic {H : V × ℂ → V} (ha : ∀ q, AnalyticAt ℂ H q) (t t' : ℂ) (q : V × ℂ) :
    AnalyticAt ℂ (seg H t t') q := by
  refine AnalyticAt.comp (g := H) (f := fun q : V × ℂ => (q.1, t + q.2 * (t' - t))) (ha _) ?_
  exact analyticAt_fst.prod (analyticAt_const.add (analyticAt_snd.mul analyticAt_const))

theorem seg_jac {H : V × ℂ → V} (ha : ∀ q, AnalyticAt ℂ H q) (t t' : ℂ) (q : V × ℂ) :
    jacV (seg H t t') q = jacV H (q.1, t + q.2 * (t' - t)) := by
  have h1 : HasFDerivAt (fun q : V × ℂ => (q.1, t + q.2 * (t' - t)))
      ((ContinuousLinearMap.fst ℂ V ℂ).prod ((t' - t) • ContinuousLinearMap.snd ℂ V ℂ)) q := by
    refine HasFDerivAt.prodMk hasFDerivAt_fst ?_
    exact (hasFDerivAt_snd.mul_const (t' - t)).const_add t
  have h2 := (ha (q.1, t + q.2 * (t' - t))).differentiableAt.hasFDerivAt.comp q h1
  have h3 : fderiv ℂ (seg H t t') q = _ := h2.fderiv
  unfold jacV
  rw [h3]
  ext v
  simp

theorem punctured_seg {H : V × ℂ → V} {ρ : ℝ} (h : Punctured H ρ) {t t' : ℂ}
    (hs : ∀ s ∈ Icc (0 : ℝ) 1, t + s * (t' - t) ≠ 0 ∧ ‖t + s * (t' - t)‖ < ρ) : Regular (seg H t t') 0 1 where
  analytic := seg_analytic h.analytic t t'
  nonsingular x s hs' hz := by
    rw [seg_jac h.analytic]
    exact h.nonsingular _ _ (hs s hs').1 (hs s hs').2 hz
  bounded := by
    obtain ⟨M, hM⟩ := h.bounded
    exact ⟨M, fun x s hs' hz => hM x _ (hs s hs').2.le hz⟩

end

/-! ### The calls made by the endgame -/

/-- What the Cauchy endgame of a solve calls: tracking along a segment of times over which the homotopy is
regular follows every continuous family of zeros; refining a nonsingular zero changes nothing; means are means;
and from within `δ` of a path at the endgame boundary `te` tracking leads to that path. -/
structure FollowsSeg {m : ℕ} (H : (Fin m → ℂ) × ℂ → Fin m → ℂ) (Eg : CEnv (Fin m → ℂ)) (te δ : ℝ) : Prop where
  track : ∀ k t t' y, Regular (seg H t t') 0 1 → ZeroPath (seg H t t') 0 1 y → Eg.track k t t' (y 0) = (.success, y 1)
  refine : ∀ k x t, H (x, t) = 0 → IsUnit (jacV H (x, t)) → Eg.refine k x t = (.success, x)
  polish : ∀ k x t, H (x, t) = 0 → IsUnit (jacV H (x, t)) → Eg.polish k x t = x
  mean : Eg.mean = meanV
  dist : ∀ a b, Eg.dist a b = some ‖a - b‖
  attract : ∀ y, OpenPath H y → ∀ x, ‖x - y te‖ ≤ δ → ∀ k (t' : ℝ), 0 < t' → t' ≤ te → Eg.track k te t' x = (.success, y t')

/-- The endgame of a solve is the Cauchy endgame, run from the endgame boundary `te` to time 0, with calls that
follow the zeros. -/
def CauchyEndgame {m : ℕ} (H : (Fin m → ℂ) × ℂ → Fin m → ℂ) (E : ZEnv m) (cfg : CCfg) (te δ : ℝ) : Prop :=
  ∀ k, ∃ Eg, FollowsSeg H Eg te δ ∧
    ∀ x n code s, runC Eg cfg te 0 x n = .done code s → E.endgame k x = (code, s.latest)

theorem slit_segment {q : ℂ} (hq : q ∈ Complex.slitPlane) {s : ℝ} (hs : s ∈ Icc (0 : ℝ) 1) :
    1 + s * (q - 1) ∈ Complex.slitPlane := by
  have := Complex.starConvex_one_slitPlane hq (show (0 : ℝ) ≤ 1 - s by linarith [hs.2]) hs.1 (by ring)
  have e : (1 - s : ℝ) • (1 : ℂ) + s • q = 1 + s * (q - 1) := by
    rw [Complex.real_smul, Complex.real_smul]; push_cast; ring
  rwa [e] at this

/-- Calls that follow the zeros are exact on every fractional power series of zeros. -/
theorem FollowsSeg.exactC {m : ℕ} {H : (Fin m → ℂ) × ℂ → Fin m → ℂ} {Eg : CEnv (Fin m → ℂ)} {te δ : ℝ}
    (hE : FollowsSeg H Eg te δ) {ρ R : ℝ} (h : Punctured H ρ) (hR : R < ρ) {φ : ℂ → Fin m → ℂ} {c : ℕ} (hc : 1 ≤ c)
    (hz : ∀ u : ℂ, u ≠ 0 → ‖u‖ ^ c < R → H (φ u, u ^ c) = 0 ∧ ContinuousAt φ u) : ExactC Eg φ c R where
  track k u t' hu huR hslit hle := by
    set q := t' / u ^ c with hq
    have hu' : u ^ c ≠ 0 := pow_ne_zero c hu
    have ht' : t' = u ^ c * q := by rw [hq, mul_div_cancel₀ _ hu']
    have hn0 : 0 < ‖u‖ ^ c := pow_pos (norm_pos_iff.2 hu) c
    have hq1 : ‖q‖ ≤ 1 := by rw [hq, norm_div, norm_pow]; exact div_le_one_of_le₀ hle hn0.le
    have htime : ∀ s : ℝ, u ^ c + s * (t' - u ^ c) = u ^ c * (1 + s * (q - 1)) := by intro s; rw [ht']; ring
    have hnorm : ∀ s ∈ Icc (0 : ℝ) 1, ‖(1 : ℂ) + s * (q - 1)‖ ≤ 1 := by
      intro s hs
      have e : (1 : ℂ) + s * (q - 1) = ((1 - s : ℝ) : ℂ) + s * q := by push_cast; ring
      rw [e]
      refine (norm_add_le _ _).trans ?_
      rw [norm_mul, Complex.norm_real, Complex.norm_real, Real.norm_of_nonneg hs.1, Real.norm_of_nonneg (by linarith [hs.2])]
      nlinarith [hs.1]
    have hpos : ∀ s ∈ Icc (0 : ℝ) 1, (1 : ℂ) + s * (q - 1) ≠ 0 := fun s hs => Complex.slitPlane_ne_zero (slit_segment hslit hs)
    set v : ℝ → ℂ := fun s => u * (1 + s * (q - 1)) ^ (c : ℂ)⁻¹ with hv
    have hvc : ∀ s, v s ^ c = u ^ c + s * (t' - u ^ c) := by
      intro s
      rw [hv, htime, mul_pow, Complex.cpow_nat_inv_pow _ (by omega)]
    have hv0 : ∀ s ∈ Icc (0 : ℝ) 1, v s ≠ 0 := by
      intro s hs h0
      have := hvc s
      rw [h0, zero_pow (by omega), htime] at this
      exact mul_ne_zero hu' (hpos s hs) this.symm
    have hvR : ∀ s ∈ Icc (0 : ℝ) 1, ‖v s‖ ^ c ≤ ‖u‖ ^ c := by
      intro s hs
      rw [← norm_pow, hvc, htime, norm_mul, norm_pow]
      exact mul_le_of_le_one_right hn0.le (hnorm s hs)
    have hreg : Regular (seg H (u ^ c) t') 0 1 := by
      refine punctured_seg h fun s hs => ?_
      rw [← hvc]
      refine ⟨pow_ne_zero c (hv0 s hs), ?_⟩
      rw [norm_pow]
      linarith [hvR s hs]
    have hpath : ZeroPath (seg H (u ^ c) t') 0 1 fun s => φ (v s) := by
      refine ⟨fun s hs => ?_, fun s hs => ?_⟩
      · refine ContinuousAt.continuousWithinAt ?_
        refine ContinuousAt.comp (g := φ) (hz _ (hv0 s hs) ((hvR s hs).trans_lt huR)).2 ?_
        refine ContinuousAt.mul continuousAt_const ?_
        refine ContinuousAt.cpow (by fun_prop) continuousAt_const (slit_segment hslit hs)
      · have := (hz _ (hv0 s hs) ((hvR s hs).trans_lt huR)).1
        rw [hvc] at this
        exact this
    have := hE.track k (u ^ c) t' (fun s => φ (v s)) hreg hpath
    have e0 : v 0 = u := by simp [hv]
    have e1 : v 1 = u * q ^ (c : ℂ)⁻¹ := by simp [hv]
    rwa [e0, e1] at this
  refine k u hu huR := by
    refine hE.refine k _ _ (hz u hu huR).1 (h.nonsingular _ _ (pow_ne_zero c hu) ?_ (hz u hu huR).1)
    rw [norm_pow]
    linarith
  polish k u hu huR := by
    refine hE.polish k _ _ (hz u hu huR).1 (h.nonsingular _ _ (pow_ne_zero c hu) ?_ (hz u hu huR).1)
    rw [norm_pow]
    linarith
  mean := hE.mean
  dist := hE.dist

section
variable {simp : Node → Node} {w w' : World} {i0 k0 h : ℕ} {g : List Var} {r : Choices}
  {H : (Fin (g.length + 1) → ℂ) × ℂ → Fin (g.length + 1) → ℂ}

/-- **C153 (endgame).** The Cauchy endgame of a regular solve is accurate on every path, whatever its cycle
number: for every required accuracy there is a radius such that from every endgame boundary inside it, started
near any path, it succeeds and its result has that accuracy. -/
theorem C153_endgame (hreg : RegularSolve simp w w' i0 k0 h g r H)
    (hinf : ∀ x, x ≠ 0 → (∀ j : Fin g.length, H (x, 0) j.castSucc = 0) → H (x, 0) (Fin.last _) ≠ -1)
    (cfg : CCfg) (hn : 3 ≤ cfg.n) (hf0 : 0 < cfg.factor) (hf1 : cfg.factor < 1) (htt : 0 < cfg.trackTol)
    (hfs : (degsOf w i0 g).prod ≤ cfg.failsafe) (htol : 0 < cfg.finalTol) (hcut : 0 < cfg.cycleCutoff)
    (hrat : 0 < cfg.ratioCutoff) {ε : ℝ} (hε : 0 < ε) :
    ∃ ρ > 0, ρ ≤ 1 ∧ ∀ te, 0 < te → te < ρ → ∀ m ≤ te * cfg.factor ^ (cfg.n - 1) * (1 - cfg.factor) ^ cfg.needed,
      ∀ δ E, δ ≤ cfg.finalTol / 8 → CauchyEndgame H E { cfg with minTrack := m } te δ → AccurateEndgame H E te δ ε := by
  obtain ⟨ρp, hp⟩ := hreg.near hinf
  obtain ⟨R, hR, hR1, hRp, hser⟩ := hp.series'
  obtain ⟨Y, hY, hall⟩ := hreg.paths
  have hex : ∀ i, ∃ z ρ, 0 < ρ ∧ (i < (degsOf w i0 g).prod → Tendsto (Y i) (𝓝[>] 0) (𝓝 z) ∧
      ∀ te : ℝ, 0 < te → te < ρ → te < 1 → ∀ m ≤ te * cfg.factor ^ (cfg.n - 1) * (1 - cfg.factor) ^ cfg.needed,
        ∀ δ Eg, δ ≤ cfg.finalTol / 8 → FollowsSeg H Eg te δ → ∀ x, ‖x - Y i te‖ ≤ δ →
          ∃ s, runC Eg { cfg with minTrack := m } te 0 x 1 = .done .success s ∧ ‖s.latest - z‖ ≤ ε) := by
    intro i
    by_cases hi : i < (degsOf w i0 g).prod
    swap
    · exact ⟨0, 1, one_pos, fun h => absurd h hi⟩
    obtain ⟨φ, c, hc, hcN, ha, -, hz, hv⟩ := hser (Y i) (hY i hi)
    have hcf : c ≤ cfg.failsafe := (hcN.trans (hreg.ncard_le ⟨hR, hR1⟩)).trans hfs
    have hs : FracSeries (Y i) (fun t => tangent H (Y i t, (t : ℂ))) φ c R :=
      ⟨hc, hR, fun j => (analyticAt_pi_iff.1 ha) j, fun t h0 h1 => (hv t h0 h1).1, fun t h0 h1 => (hv t h0 h1).2⟩
    obtain ⟨ρ, h1, h2, h3⟩ := cauchy_near hc hR ha.continuousAt hε htol hcut hrat
    refine ⟨φ 0, ρ, h1, fun _ => ⟨fracSeries_tendsto hs, fun te a b b1 m hm δ Eg hδ hE x hx => ?_⟩⟩
    have hc0 : (c : ℝ) ≠ 0 := by exact_mod_cast (by omega : c ≠ 0)
    set u : ℂ := ((te ^ (1 / (c : ℝ)) : ℝ) : ℂ) with hu
    have hupos : (0 : ℝ) < te ^ (1 / (c : ℝ)) := Real.rpow_pos_of_pos a _
    have hu0 : u ≠ 0 := by rw [hu]; exact_mod_cast hupos.ne'
    have huc : u ^ c = te := by
      rw [hu, ← Complex.ofReal_pow, ← Real.rpow_natCast, ← Real.rpow_mul a.le, one_div_mul_cancel hc0, Real.rpow_one]
    have hun : ‖u‖ ^ c = te := by rw [← norm_pow, huc, Complex.norm_real, Real.norm_of_nonneg a.le]
    have hyu : Y i te = φ u := (hv te a (b.trans_le h2)).1
    have hroot : φ (u * rootOf c cfg.factor) = Y i (te * cfg.factor) := by
      rw [(hv (te * cfg.factor) (by positivity) (by nlinarith)).1]
      congr 1
      rw [Real.mul_rpow a.le hf0.le, Complex.ofReal_mul, ← hu]
      congr 1
      unfold rootOf
      rw [Complex.ofReal_cpow hf0.le]
      push_cast
      rw [one_div]
    have hex := hE.exactC hp hRp hc hz
    obtain ⟨s, e1, e2⟩ := h3 { cfg with minTrack := m } Eg hex hn hf0 hf1 htt hcf le_rfl le_rfl le_rfl u x hu0 (by rwa [hun])
      (fun k => by
        have := hE.attract (Y i) (hY i hi) x hx k (te * cfg.factor) (by positivity) (by nlinarith)
        rw [huc]
        show Eg.track k te (te * (cfg.factor : ℂ)) x = (.success, φ (u * rootOf c cfg.factor))
        rw [hroot, ← this]
        push_cast
        rfl) (by rw [← hyu]; exact hx.trans hδ) (by rw [hun]; exact hm) 1 le_rfl
    rw [huc] at e1
    exact ⟨s, e1, e2⟩
  choose z ρ0 hρ0 hP using hex
  obtain ⟨ρ, hρ, hρ'⟩ := exists_pos_le (Finset.range (degsOf w i0 g).prod) ρ0 fun i _ => hρ0 i
  refine ⟨min ρ 1, lt_min hρ one_pos, min_le_right _ _, fun te h0 h1 m hm δ E hδ hE k x y z' hy hz hx => ?_⟩
  have hte1 := h1.trans_le (min_le_right _ _)
  obtain ⟨Eg, e1, e3⟩ := hE k
  obtain ⟨i, hi, hyi⟩ := hall y hy
  obtain ⟨hl, hrun⟩ := hP i hi
  have hz' : z i = z' := tendsto_nhds_unique hl (hz.congr' (by
    filter_upwards [Ioc_mem_nhdsGT (show (0 : ℝ) < 1 from one_pos)] with s hs
    exact hyi s hs))
  rw [hyi te ⟨h0, hte1.le⟩] at hx
  obtain ⟨s, f1, f2⟩ := hrun te h0 (h1.trans_le ((min_le_left _ _).trans (hρ' i (by simpa using hi)))) hte1 m hm δ Eg hδ e1 x hx
  rw [e3 _ _ _ _ f1]
  exact ⟨rfl, by rw [← hz']; exact f2⟩

open Classical in
/-- **C153.** A whole solve with the Cauchy endgame. Let the homotopy be regular, with no zero of the target at
infinity for the patch, and let the configured maximal cycle number be at least the number of paths. There is a
bound such that for every tolerance `post` for multiplicities below it, and every accuracy `ε` small against
`post`, there is a radius such that the following holds for every endgame boundary inside it, a small enough
tolerance of the midpath check, and fine enough tracks to the endgame boundary.
Each path is tracked once, the midpath check passes, the endgame is run on each path, and every path ends
with success and within `ε` of the limit `z i` of the path of zeros through start point `i`, a zero of the
homotopy at time 0. The multiplicity reported is the number of paths with the same limit. Every nonsingular
solution of the user's system (not at infinity for the patch) is, dehomogenized, the limit of exactly one of
the paths, and is reported with multiplicity 1. -/
theorem C153 (hreg : RegularSolve simp w w' i0 k0 h g r H)
    (hinf : ∀ x, x ≠ 0 → (∀ j : Fin g.length, H (x, 0) j.castSucc = 0) → H (x, 0) (Fin.last _) ≠ -1)
    (T : Table) (tol : ℝ) (ht : 0 < tol) (ecfg : CCfg) (hn : 3 ≤ ecfg.n) (hf0 : 0 < ecfg.factor)
    (hf1 : ecfg.factor < 1) (htt : 0 < ecfg.trackTol) (hfs : (degsOf w i0 g).prod ≤ ecfg.failsafe) (htol : 0 < ecfg.finalTol)
    (hcut : 0 < ecfg.cycleCutoff) (hrat : 0 < ecfg.ratioCutoff) :
    ∃ bound > 0, ∀ post ε : ℝ, post ≤ bound → 0 < ε → 2 * √(g.length + 1 : ℕ) * ε < post → ∃ ρ > 0,
      ∀ te : ℝ, 0 < te → te < ρ → ∃ mid > 0, ∀ δ : ℝ, 0 < δ → δ ≤ ecfg.finalTol / 8 → ∃ hm > 0, ∃ η > 0,
      ∀ (E : ZEnv (g.length + 1)) (cfg : ZCfg) (minTrack : ℝ),
      minTrack ≤ te * ecfg.factor ^ (ecfg.n - 1) * (1 - ecfg.factor) ^ ecfg.needed →
      (∀ i < (degsOf w i0 g).prod, IsStart w w' i0 k0 g r i (E.start i)) →
      FineTracker H T E (degsOf w i0 g).prod tol hm η te →
      CauchyEndgame H E { ecfg with minTrack := minTrack } te δ →
      cfg.newtonBefore = tol → cfg.midTol ≤ mid → cfg.postTol = post →
      let N := (degsOf w i0 g).prod
      let s := solve N E cfg (ZSt.init _)
      ∃ z : ℕ → Fin (g.length + 1) → ℂ,
        (∀ i < N, H (z i, 0) = 0 ∧ ∃ y, OpenPath H y ∧ y 1 = E.start i ∧ Tendsto y (𝓝[>] 0) (𝓝 (z i))) ∧
        s.checker.passed = true ∧
        (∃ x : ℕ → Fin (g.length + 1) → ℂ, s.log = (List.range N).map (fun i => .before i tol) ++
          (List.range N).map fun i => .endgame i (x i)) ∧
        (∀ i < N, ∃ m x, s.md[i]? = some m ∧ s.sols[i]? = some x ∧ m.pre = .success ∧ m.post = .success ∧
          ‖x - z i‖ ≤ ε ∧ m.mult = (((Finset.range N).filter fun j => z j = z i).card : ℤ)) ∧
        ∀ f, ComputesFun simp w i0 g.length f → ∀ y, f y = 0 → IsUnit (fderiv ℂ f y) →
          Patch.dot (1 :: List.ofFn y) ((List.range (g.length + 1)).map (r.coef 0)) ≠ 0 →
          ∃ i < N, (w'.objs h).vs.dehomogenize (List.ofFn (z i)) = some (List.ofFn y) ∧
            (∀ j < N, z j = z i → j = i) ∧ ∃ m, s.md[i]? = some m ∧ m.mult = 1 := by
  obtain ⟨bound, hb, hmain⟩ := C149 hreg hinf T tol ht
  refine ⟨bound, hb, fun post ε hpost hε hacc => ?_⟩
  obtain ⟨ρ, hρ, hρ1, heg⟩ := C153_endgame hreg hinf ecfg hn hf0 hf1 htt hfs htol hcut hrat hε
  refine ⟨ρ, hρ, fun te h0 h1 => ?_⟩
  obtain ⟨mid, hmid, hmain⟩ := hmain te h0 (h1.trans_le hρ1)
  refine ⟨mid, hmid, fun δ hδ hδ8 => ?_⟩
  obtain ⟨hm, hhm, η, hη, hmain⟩ := hmain δ ε hδ hε.le
  refine ⟨hm, hhm, η, hη, fun E cfg mt hmt hs ht he c1 c2 c3 => ?_⟩
  exact hmain E cfg hs ht (heg te h0 h1 mt hmt δ E hδ8 he) c1 c2 (c3.le.trans hpost) (by rwa [c3])

/-! ### Such an endgame exists -/

open Classical in
/-- Calls that follow the zeros. -/
noncomputable def followC {m : ℕ} (H : (Fin m → ℂ) × ℂ → Fin m → ℂ) (te δ : ℝ) : CEnv (Fin m → ℂ) where
  track _ t t' x :=
    if h : ∃ y, Regular (seg H t t') 0 1 ∧ ZeroPath (seg H t t') 0 1 y ∧ y 0 = x then (.success, h.choose 1)
    else if h : ∃ y, OpenPath H y ∧ ‖x - y te‖ ≤ δ then (.success, h.choose t'.re)
    else (.neverStarted, 0)
  refine _ x _ := (.success, x)
  approx _ _ _ := 0
  dist a b := some ‖a - b‖
  dehomNorm a := ‖a‖
  polish _ x _ := x
  mean := meanV
  cOverK _ _ _ _ := 1
  lowRatio _ _ := false
  sampNorm a := ‖a‖

theorem followC_follows (hreg : RegularSolve simp w w' i0 k0 h g r H) {te δ : ℝ} (h0 : 0 < te) (h1 : te < 1)
    (hrad : ∀ y y', OpenPath H y → OpenPath H y' → ‖y te - y' te‖ ≤ 2 * δ → ∀ s ∈ Ioc (0 : ℝ) 1, y s = y' s)
    (hδ : 0 ≤ δ) : FollowsSeg H (followC H te δ) te δ where
  track k t t' y hr hy := by
    have hex : ∃ y', Regular (seg H t t') 0 1 ∧ ZeroPath (seg H t t') 0 1 y' ∧ y' 0 = y 0 := ⟨y, hr, hy, rfl⟩
    simp only [followC]
    rw [dif_pos hex]
    obtain ⟨-, g2, g3⟩ := hex.choose_spec
    exact Prod.ext rfl (hr.unique_path g2 hy ⟨le_rfl, zero_le_one⟩ g3 1 ⟨zero_le_one, le_rfl⟩)
  refine _ _ _ _ _ := rfl
  polish _ _ _ _ _ := rfl
  mean := rfl
  dist _ _ := rfl
  attract y hy x hx k t' ht0 ht1 := by
    simp only [followC]
    split_ifs with hex hex2
    · obtain ⟨g1, g2, g3⟩ := hex.choose_spec
      set y' := hex.choose
      have hzx : H (x, (te : ℂ)) = 0 := by
        have := g2.zero 0 ⟨le_rfl, zero_le_one⟩
        rw [g3] at this
        simpa [seg] using this
      obtain ⟨y2, hy2, hy2x⟩ := hreg.through te ⟨h0, h1.le⟩ x hzx
      have hsame := hrad y2 y hy2 hy (by rw [hy2x]; linarith)
      have hxy : y te = x := by rw [← hsame te ⟨h0, h1.le⟩, hy2x]
      have hmem : ∀ s ∈ Icc (0 : ℝ) 1, te + s * (t' - te) ∈ Ioc (0 : ℝ) 1 := by
        intro s hs
        have := hs.1; have := hs.2
        constructor <;> nlinarith
      have hp : ZeroPath (seg H te t') 0 1 fun s => y (te + s * (t' - te)) := by
        refine ⟨?_, fun s hs => ?_⟩
        · exact hy.cont.comp (by fun_prop) hmem
        · have := hy.zero _ (hmem s hs)
          unfold seg
          push_cast at this
          exact this
      have := g1.unique_path g2 hp ⟨le_rfl, zero_le_one⟩ (by rw [g3]; simp [hxy]) 1 ⟨zero_le_one, le_rfl⟩
      exact Prod.ext rfl (by rw [this]; simp)
    · obtain ⟨g1, g2⟩ := hex2.choose_spec
      refine Prod.ext rfl (hrad _ y g1 hy ?_ t' ⟨ht0, by linarith⟩)
      have e : hex2.choose te - y te = (x - y te) - (x - hex2.choose te) := by abel
      rw [e]
      linarith [norm_sub_le (x - y te) (x - hex2.choose te)]
    · exact absurd ⟨y, hy, hx⟩ hex2

/-- `r'` ends as `r` does, if `r` ends. -/
def LeR {S : Type} (r r' : Res S) : Prop := ∀ c s, r = .done c s → r' = .done c s

theorem LeR.andThen {S : Type} {r r' : Res S} {f f' : S → Res S} (hr : LeR r r') (hf : ∀ s, LeR (f s) (f' s)) :
    LeR (r.andThen f) (r'.andThen f') := by
  intro c s he
  rcases r with ⟨cd, a⟩ | a | -
  · rw [hr _ _ rfl]
    cases cd <;> first | exact hf a c s he | exact he
  · cases he
  · cases he

theorem LeR.rfl {S : Type} {r : Res S} : LeR r r := fun _ _ => id

theorem zoneFor_mono {X : Type} (E : CEnv X) (cfg : CCfg) (target : ℂ) {f f' : List ℝ → CSt X → Res (CSt X)}
    (hf : ∀ l s, LeR (f l s) (f' l s)) : ∀ rem l s, LeR (zoneFor E cfg target rem l s f) (zoneFor E cfg target rem l s f')
  | 0, l, s => hf l s
  | rem + 1, l, s => by
    rw [zoneFor, zoneFor]
    refine LeR.andThen LeR.rfl fun s1 => ?_
    cases ckOf E s1 with
    | none => exact LeR.rfl
    | some c => exact zoneFor_mono E cfg target hf rem _ _

theorem zoneWhile_mono {X : Type} (E : CEnv X) (cfg : CCfg) (target : ℂ) : ∀ n n' l s, n ≤ n' →
    LeR (zoneWhile E cfg target n l s) (zoneWhile E cfg target n' l s)
  | 0, n', l, s, _ => fun c s' he => by cases he
  | n + 1, 0, l, s, hn => by omega
  | n + 1, n' + 1, l, s, hn => by
    rw [zoneWhile, zoneWhile]
    split_ifs
    · refine LeR.andThen LeR.rfl fun s1 => ?_
      cases ckOf E s1 with
      | none => exact LeR.rfl
      | some c => exact zoneWhile_mono E cfg target n n' _ _ (by omega)
    · exact LeR.rfl

theorem initialLoops_mono {X : Type} (E : CEnv X) (cfg : CCfg) (target : ℂ) : ∀ n n' s, n ≤ n' →
    LeR (initialLoops E cfg target n s) (initialLoops E cfg target n' s)
  | 0, n', s, _ => fun c s' he => by cases he
  | n + 1, 0, s, hn => by omega
  | n + 1, n' + 1, s, hn => by
    rw [initialLoops, initialLoops]
    refine LeR.andThen LeR.rfl fun s1 => ?_
    split_ifs
    · exact LeR.rfl
    · exact LeR.andThen LeR.rfl fun s2 => initialLoops_mono E cfg target n n' s2 (by omega)

theorem loopC_le {X : Type} (E : CEnv X) (cfg : CCfg) (target : ℂ) : ∀ n n' s, n ≤ n' →
    LeR (loopC E cfg target n s) (loopC E cfg target n' s)
  | 0, n', s, _ => fun c s' he => by cases he
  | n + 1, 0, s, hn => by omega
  | n + 1, n' + 1, s, hn => by
    rw [loopC, loopC]
    refine LeR.andThen LeR.rfl fun s1 => ?_
    cases judge E cfg s1 with
    | inl r => exact LeR.rfl
    | inr s2 =>
      exact LeR.andThen LeR.rfl fun s3 => LeR.andThen LeR.rfl fun s4 => loopC_le E cfg target n n' s4 (by omega)

theorem runC_mono {X : Type} (E : CEnv X) (cfg : CCfg) (start target : ℂ) (x : X) {n n' : ℕ} (hn : n ≤ n') :
    LeR (runC E cfg start target x n) (runC E cfg start target x n') := by
  unfold runC
  refine LeR.andThen ?_ fun s1 => LeR.andThen (initialLoops_mono E cfg target n n' s1 hn) fun s2 => loopC_le E cfg target n n' _ hn
  unfold intoZone
  dsimp only
  split_ifs
  · exact LeR.rfl
  · split
    · exact LeR.rfl
    · exact zoneFor_mono E cfg target (fun l s => zoneWhile_mono E cfg target n n' l s hn) _ _ _

theorem runC_done {X : Type} (E : CEnv X) (cfg : CCfg) (start target : ℂ) (x : X) {n n' : ℕ} {c c' : Code}
    {s s' : CSt X} (h : runC E cfg start target x n = .done c s) (h' : runC E cfg start target x n' = .done c' s') :
    c = c' ∧ s = s' := by
  have e1 := runC_mono E cfg start target x (le_max_left n n') _ _ h
  have e2 := runC_mono E cfg start target x (le_max_right n n') _ _ h'
  rw [e1] at e2
  simpa using e2

open Classical in
/-- A solve with the Cauchy endgame. -/
noncomputable def cauchyEnv {m : ℕ} (E : ZEnv m) (Eg : CEnv (Fin m → ℂ)) (cfg : CCfg) (te : ℝ) : ZEnv m :=
  { E with endgame := fun _ x =>
      if h : ∃ r : Code × (Fin m → ℂ), ∃ n s, runC Eg cfg te 0 x n = .done r.1 s ∧ s.latest = r.2 then h.choose
      else (.neverStarted, 0) }

theorem cauchyEnv_run {m : ℕ} (E : ZEnv m) (Eg : CEnv (Fin m → ℂ)) (cfg : CCfg) (te : ℝ) (k : ℕ) (x : Fin m → ℂ) (n : ℕ)
    (code : Code) (s : CSt (Fin m → ℂ)) (hr : runC Eg cfg te 0 x n = .done code s) :
    (cauchyEnv E Eg cfg te).endgame k x = (code, s.latest) := by
  have hex : ∃ r : Code × (Fin m → ℂ), ∃ n s, runC Eg cfg te 0 x n = .done r.1 s ∧ s.latest = r.2 :=
    ⟨(code, s.latest), n, s, hr, rfl⟩
  simp only [cauchyEnv]
  rw [dif_pos hex]
  obtain ⟨n', s', h1, h2⟩ := hex.choose_spec
  obtain ⟨e1, e2⟩ := runC_done Eg cfg te 0 x h1 hr
  exact Prod.ext e1 (by rw [← h2, e2])

/-- The hypotheses of C153 on tracker, endgame and settings can be met for every regular solve, whatever the
bounds. -/
theorem C153_inhabited (hreg : RegularSolve simp w w' i0 k0 h g r H) (T : Table) (te tol mid post b : ℝ) (h0 : 0 < te)
    (h1 : te < 1) (hmid : 0 < mid) (hb : 0 < b) (ecfg : CCfg) :
    ∃ δ > 0, δ ≤ b ∧ ∀ hm η : ℝ, 0 < hm → ∃ (E : ZEnv (g.length + 1)) (cfg : ZCfg),
      (∀ i < (degsOf w i0 g).prod, IsStart w w' i0 k0 g r i (E.start i)) ∧
      FineTracker H T E (degsOf w i0 g).prod tol hm η te ∧ CauchyEndgame H E ecfg te δ ∧
      cfg.newtonBefore = tol ∧ 0 < cfg.midTol ∧ cfg.midTol ≤ mid ∧ cfg.postTol = post := by
  obtain ⟨δ, hδ, hrad⟩ := radius hreg te h0 h1
  have hex : ∀ i, ∃ x, i < (degsOf w i0 g).prod → IsStart w w' i0 k0 g r i x := by
    intro i
    by_cases hi : i < (degsOf w i0 g).prod
    · obtain ⟨x, hx⟩ := hreg.numbered i hi
      exact ⟨x, fun _ => hx⟩
    · exact ⟨0, fun h => absurd h hi⟩
  choose x hx using hex
  have hmin : 0 < min δ b := lt_min hδ hb
  refine ⟨min δ b, hmin, min_le_right _ _, fun hm η hh =>
    ⟨cauchyEnv (fineEnv H T hm η te (min δ b) x) (followC H te (min δ b)) ecfg te,
    ⟨tol, mid, post, 2, 1 / 2⟩, hx, fineEnv_fine H T _ tol hm η te (min δ b) x hh, fun k =>
      ⟨_, followC_follows hreg h0 h1 (fun y y' hy hy' hd => hrad y y' hy hy' (hd.trans (by
        have := min_le_left δ b; linarith))) hmin.le, cauchyEnv_run _ _ _ _ k⟩, rfl, hmid, le_rfl, rfl⟩⟩

/-- C153 for `x^2 - 1`: both solutions are found, with multiplicity 1 and any accuracy. -/
example (simp : Node → Node) (T : Table) (ε : ℝ) (hε : 0 < ε) : ∃ (w' : World) (E : ZEnv 2) (cfg : ZCfg),
    ∀ y : Fin 1 → ℂ, y 0 = 1 ∨ y 0 = -1 →
    ∃ i < 2, ∃ z : Fin 2 → ℂ, (w'.objs 5).vs.dehomogenize (List.ofFn z) = some (List.ofFn y) ∧
      ∃ m x, (solve 2 E cfg (ZSt.init 2)).md[i]? = some m ∧ (solve 2 E cfg (ZSt.init 2)).sols[i]? = some x ∧
        m.post = .success ∧ m.mult = 1 ∧ ‖x - z‖ ≤ ε := by
  obtain ⟨γ, w', -, -, h5, hinf⟩ := sqm_regular simp
  have hprod : (degsOf (ww sqm) 0 [0]).prod = 2 := by rw [degsOf_sqm]; rfl
  obtain ⟨bound, hbound, hmain⟩ := C153 h5 hinf T 1 one_pos cauchyCfg (by norm_num [cauchyCfg]) (by norm_num [cauchyCfg])
    (by norm_num [cauchyCfg]) (by norm_num [cauchyCfg]) (by rw [hprod]; norm_num [cauchyCfg]) (by norm_num [cauchyCfg])
    (by norm_num [cauchyCfg]) (by norm_num [cauchyCfg])
  have hs2 : √((([0] : List Var).length + 1 : ℕ) : ℝ) ≤ 2 := by
    rw [Real.sqrt_le_left (by norm_num)]
    norm_num
  obtain ⟨ρ, hρ, hmain⟩ := hmain bound (min ε (bound / 8)) le_rfl (by positivity) (by
    have : min ε (bound / 8) ≤ bound / 8 := min_le_right _ _
    have : 0 < min ε (bound / 8) := by positivity
    nlinarith)
  have hte0 : 0 < min ρ 1 / 2 := by positivity
  have hte1 : min ρ 1 / 2 < ρ := by have := min_le_left ρ 1; linarith
  have hte2 : min ρ 1 / 2 < 1 := by have := min_le_right ρ 1; linarith
  obtain ⟨mid, hmid, hmain⟩ := hmain (min ρ 1 / 2) hte0 hte1
  obtain ⟨δ, hδ, hδ8, hE⟩ := C153_inhabited h5 T (min ρ 1 / 2) 1 mid bound (cauchyCfg.finalTol / 8) hte0 hte2 hmid
    (by norm_num [cauchyCfg]) { cauchyCfg with minTrack := 0 }
  obtain ⟨hm, hhm, η, -, hall⟩ := hmain δ hδ hδ8
  obtain ⟨E, cfg, g1, g2, g3, g4, -, g6, g7⟩ := hE hm η hhm
  obtain ⟨z, -, -, -, k4, k5⟩ := hall E cfg 0 (by
    have : (0 : ℝ) < cauchyCfg.factor := by norm_num [cauchyCfg]
    have : (0 : ℝ) < 1 - cauchyCfg.factor := by norm_num [cauchyCfg]
    positivity) g1 g2 g3 g4 g6 g7
  rw [hprod] at k4 k5
  refine ⟨w', E, cfg, fun y hy => ?_⟩
  have hy2 : y 0 ^ 2 = 1 := by rcases hy with e | e <;> rw [e] <;> norm_num
  have hder : IsUnit (fderiv ℂ (fun (y : Fin 1 → ℂ) (_ : Fin 1) => y 0 ^ 2 - 1) y) := fderiv_sqm y (by
    rcases hy with e | e <;> rw [e] <;> norm_num)
  obtain ⟨i, hi, e1, -, m, e3, e4⟩ := k5 _ (computes_sqm simp) y (by funext j; simp [hy2]) hder (by
    rcases hy with e | e <;> simp [Patch.dot, choices, List.range_succ, e] <;> norm_num)
  obtain ⟨m', x, f1, f2, -, f4, f5, -⟩ := k4 i hi
  rw [e3, Option.some.injEq] at f1
  subst f1
  exact ⟨i, hi, z i, e1, m, x, e3, f2, f4, e4, f5.trans (min_le_left _ _)⟩

end
end B2.Alg.Htp
