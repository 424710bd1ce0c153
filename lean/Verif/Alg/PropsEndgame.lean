import Verif.Alg.PropsSolve
import Verif.Endgame.PropsConverge

/-!
# Property C151: a whole solve with the power-series endgame

All paths of a regular total degree solve are fractional power series near time 0 (C147), on which the
power-series endgame converges (C150); this replaces the accurate endgame assumed in C149.
-/

namespace B2.Alg.Htp

open B2.Sys B2.Start B2.Cont B2.Predict B2.Track B2.Endgame Set Filter Topology

section
variable {simp : Node → Node} {w w' : World} {i0 k0 h : ℕ} {g : List Var} {r : Choices}
  {H : (Fin (g.length + 1) → ℂ) × ℂ → Fin (g.length + 1) → ℂ}

/-- Every path starts at a start point, and is determined by it. -/
theorem RegularSolve.paths (hreg : RegularSolve simp w w' i0 k0 h g r H) :
    ∃ Y : ℕ → ℝ → Fin (g.length + 1) → ℂ, (∀ i < (degsOf w i0 g).prod, OpenPath H (Y i)) ∧
      ∀ y, OpenPath H y → ∃ i < (degsOf w i0 g).prod, ∀ s ∈ Ioc (0 : ℝ) 1, y s = Y i s := by
  have hone : (1 : ℝ) ∈ Ioc (0 : ℝ) 1 := ⟨one_pos, le_rfl⟩
  have hex : ∀ i, ∃ Y : ℝ → Fin (g.length + 1) → ℂ, i < (degsOf w i0 g).prod →
      IsStart w w' i0 k0 g r i (Y 1) ∧ OpenPath H Y := by
    intro i
    by_cases hi : i < (degsOf w i0 g).prod
    swap
    · exact ⟨fun _ => 0, fun h => absurd h hi⟩
    obtain ⟨x, hx⟩ := hreg.numbered i hi
    obtain ⟨Y, hY, hY1⟩ := hreg.through 1 hone x
      (by rw [Complex.ofReal_one]; exact (hreg.starts x).2 ⟨i, hi, hx⟩)
    exact ⟨Y, fun _ => ⟨by rwa [hY1], hY⟩⟩
  choose Y hP using hex
  refine ⟨Y, fun i hi => (hP i hi).2, fun y hy => ?_⟩
  have h2 := hy.zero 1 hone
  rw [Complex.ofReal_one] at h2
  obtain ⟨i, hi, hs⟩ := (hreg.starts _).1 h2
  refine ⟨i, hi, fun s hs' => hreg.disjoint _ _ hy (hP i hi).2 1 hone ?_ s hs'⟩
  have := (hP i hi).1
  unfold IsStart at hs this
  rw [hs, Option.some.injEq] at this
  exact List.ofFn_injective this

/-- At every time in `(0, 1]` there are at most as many zeros as start points. -/
theorem RegularSolve.ncard_le (hreg : RegularSolve simp w w' i0 k0 h g r H) {s : ℝ} (hs : s ∈ Ioc (0 : ℝ) 1) :
    {x | H (x, (s : ℂ)) = 0}.ncard ≤ (degsOf w i0 g).prod := by
  obtain ⟨Y, hY, hall⟩ := hreg.paths
  have hex : ∀ x, ∃ i, H (x, (s : ℂ)) = 0 → i < (degsOf w i0 g).prod ∧ x = Y i s := by
    intro x
    by_cases hx : H (x, (s : ℂ)) = 0
    swap
    · exact ⟨0, fun h => absurd h hx⟩
    obtain ⟨y, hy, hys⟩ := hreg.through s hs x hx
    obtain ⟨i, hi, he⟩ := hall y hy
    exact ⟨i, fun _ => ⟨hi, by rw [← hys, he s hs]⟩⟩
  choose f hf using hex
  have := Set.ncard_le_ncard_of_injOn (s := {x | H (x, (s : ℂ)) = 0}) (t := (Finset.range (degsOf w i0 g).prod : Set ℕ)) f
    (fun x hx => by simpa using (hf x hx).1) (fun x hx x' hx' he => by rw [(hf x hx).2, (hf x' hx').2, he])
    (Finset.finite_toSet _)
  rwa [Set.ncard_coe_finset, Finset.card_range] at this

theorem fracSeries_tendsto {ι : Type} [Fintype ι] {y d : ℝ → ι → ℂ} {φ : ℂ → ι → ℂ} {c : ℕ} {R : ℝ}
    (hs : FracSeries y d φ c R) : Tendsto y (𝓝[>] 0) (𝓝 (φ 0)) := by
  rw [Metric.tendsto_nhds]
  intro ε hε
  obtain ⟨ρ, h0, -, hρ⟩ := hs.limit (half_pos hε)
  filter_upwards [Ioo_mem_nhdsGT h0] with t ht
  rw [dist_eq_norm]
  have := (hρ t ht.1 ht.2).1
  linarith

/-- **C151 (series).** When the target has no zero at infinity for the patch, every path is, near time 0, a
convergent power series in a `c`-th root of the time, with `c` at most the number of paths. Its limit is a
zero of the homotopy at time 0. The derivative of the path is what the endgame computes. -/
theorem C151_series (hreg : RegularSolve simp w w' i0 k0 h g r H)
    (hinf : ∀ x, x ≠ 0 → (∀ j : Fin g.length, H (x, 0) j.castSucc = 0) → H (x, 0) (Fin.last _) ≠ -1) :
    ∃ R : ℝ, 0 < R ∧ R ≤ 1 ∧ ∀ y, OpenPath H y → ∃ (φ : ℂ → Fin (g.length + 1) → ℂ) (c : ℕ),
      c ≤ (degsOf w i0 g).prod ∧ FracSeries y (fun t => tangent H (y t, (t : ℂ))) φ c R ∧
      H (φ 0, 0) = 0 ∧ Tendsto y (𝓝[>] 0) (𝓝 (φ 0)) := by
  obtain ⟨ρ, hρ⟩ := hreg.near hinf
  obtain ⟨R, hR, hR1, -, hser⟩ := hρ.series'
  refine ⟨R, hR, hR1, fun y hy => ?_⟩
  obtain ⟨φ, c, hc, hcN, ha, hz, -, hv⟩ := hser y hy
  have hs : FracSeries y (fun t => tangent H (y t, (t : ℂ))) φ c R :=
    ⟨hc, hR, fun j => (analyticAt_pi_iff.1 ha) j, fun t h0 h1 => (hv t h0 h1).1, fun t h0 h1 => (hv t h0 h1).2⟩
  exact ⟨φ, c, hcN.trans (hreg.ncard_le ⟨hR, hR1⟩), hs, hz, fracSeries_tendsto hs⟩

/-! ### The endgame started near a path -/

/-- What the endgame of a solve calls: exact on every path of zeros, and from within `δ` of a path at the
endgame boundary `te` tracking and refinement lead to that path. -/
structure FollowsPaths {m : ℕ} (H : (Fin m → ℂ) × ℂ → Fin m → ℂ) (Eg : EgEnv (Fin m → ℂ)) (ccfg : CycCfg)
    (rand : Fin m → ℂ) (te δ : ℝ) : Prop where
  exact : ∀ y, OpenPath H y → ExactEg Eg ccfg rand y (fun t => tangent H (y t, (t : ℂ))) 1
  attract : ∀ y, OpenPath H y → ∀ x, ‖x - y te‖ ≤ δ →
    (∀ k (t' : ℝ), 0 < t' → t' ≤ te → Eg.track k te t' x = (.success, y t')) ∧ ∀ k, Eg.refine k x te = (.success, y te)

/-- The endgame of a solve is the power-series endgame, run from the endgame boundary `te` to time 0, with
calls that follow the paths; the security check is off, or its bound exceeds the norms near all limits. -/
def PSEndgame {m : ℕ} (H : (Fin m → ℂ) × ℂ → Fin m → ℂ) (E : ZEnv m) (cfg : EgCfg) (ccfg : CycCfg)
    (rand : Fin m → ℂ) (te δ ε : ℝ) : Prop :=
  ∀ k, ∃ Eg, FollowsPaths H Eg ccfg rand te δ ∧
    (0 < cfg.level ∨ ∀ y z, OpenPath H y → Tendsto y (𝓝[>] 0) (𝓝 z) → ∀ a, ‖a - z‖ ≤ ε → Eg.dehomNorm a ≤ cfg.maxNorm) ∧
    ∀ x n code s, runPS Eg cfg te 0 x n = .done code s → E.endgame k x = (code, s.latest)

theorem initialLoop_head {X : Type} (E : EgEnv X) (cfg : EgCfg) (target t0 : ℂ) (x x' : X) : ∀ rem k ts xs t z,
    ∃ c ts' xs' k', initialLoop E cfg target rem k (t0 :: ts) (x :: xs) t z = (c, t0 :: ts', x :: xs', k') ∧
      initialLoop E cfg target rem k (t0 :: ts) (x' :: xs) t z = (c, t0 :: ts', x' :: xs', k')
  | 0, k, ts, xs, _, _ => ⟨_, _, _, _, rfl, rfl⟩
  | rem + 1, k, ts, xs, t, z => by
    rw [initialLoop, initialLoop]
    by_cases hc : (E.track k t (nextTimePS cfg.factor target t) z).1 = .success
    · rw [if_pos hc, if_pos hc]
      exact initialLoop_head E cfg target t0 x x' rem _ _ _ _ _
    · rw [if_neg hc, if_neg hc]
      exact ⟨_, _, _, _, rfl, rfl⟩

/-- Started near a path the endgame does the same as started on it. -/
theorem runPS_near {m : ℕ} {H : (Fin m → ℂ) × ℂ → Fin m → ℂ} {Eg : EgEnv (Fin m → ℂ)} {ccfg : CycCfg}
    {rand : Fin m → ℂ} {te δ : ℝ} (hE : FollowsPaths H Eg ccfg rand te δ) (hδ : 0 ≤ δ) (cfg : EgCfg) (hn : 2 ≤ cfg.n)
    (hf0 : 0 < cfg.factor) (hf1 : cfg.factor < 1) (h0 : 0 < te) (hte : te < 1) {y : ℝ → Fin m → ℂ} (hy : OpenPath H y)
    {x : Fin m → ℂ} (hx : ‖x - y te‖ ≤ δ) (fuel : ℕ) :
    runPS Eg cfg te 0 x fuel = runPS Eg cfg te 0 (y te) fuel := by
  obtain ⟨a1, a2⟩ := hE.attract y hy x hx
  obtain ⟨b1, b2⟩ := hE.attract y hy (y te) (by rw [sub_self, norm_zero]; exact hδ)
  have hinit : initPS Eg cfg te 0 x = initPS Eg cfg te 0 (y te) := by
    obtain ⟨rem, hrem⟩ : ∃ rem, cfg.n - 1 = rem + 1 := ⟨cfg.n - 2, by omega⟩
    have h1 : 0 < te * cfg.factor := by positivity
    have h2 : te * cfg.factor ≤ te := by nlinarith
    obtain ⟨c, ts', xs', k', e1, e2⟩ := initialLoop_head Eg cfg 0 te x (y te) rem 1 [((te * cfg.factor : ℝ) : ℂ)]
      [y (te * cfg.factor)] ((te * cfg.factor : ℝ) : ℂ) (y (te * cfg.factor))
    have f1 : initialSamples Eg cfg te 0 x 0 = (c, (te : ℂ) :: ts', x :: xs', k') := by
      unfold initialSamples
      rw [hrem, initialLoop]
      rw [next_real, a1 0 _ h1 h2, if_pos rfl]
      exact e1
    have f2 : initialSamples Eg cfg te 0 (y te) 0 = (c, (te : ℂ) :: ts', y te :: xs', k') := by
      unfold initialSamples
      rw [hrem, initialLoop]
      rw [next_real, b1 0 _ h1 h2, if_pos rfl]
      exact e2
    have hc : c = .success := by
      obtain ⟨s, -, hs, -⟩ := initPS_exact (hE.exact y hy) cfg (by omega) hf0 hf1 h0 hte
      unfold initPS at hs
      rw [f2] at hs
      dsimp only at hs
      by_contra hc
      rw [if_pos hc] at hs
      exact absurd hs (by simp)
    have hr : refineAll Eg k' ((te : ℂ) :: ts') (x :: xs') = refineAll Eg k' ((te : ℂ) :: ts') (y te :: xs') := by
      rw [refineAll, refineAll, a2, b2]
    unfold initPS
    rw [f1, f2]
    dsimp only
    subst hc
    simp only [ne_eq, not_true_eq_false, if_false, hr]
  unfold runPS
  rw [hinit]

theorem exactEg_mono {ι : Type} [Fintype ι] {E : EgEnv (ι → ℂ)} {ccfg : CycCfg} {rand : ι → ℂ} {y d : ℝ → ι → ℂ}
    {R R' : ℝ} (hE : ExactEg E ccfg rand y d R) (hR : R' ≤ R) : ExactEg E ccfg rand y d R' :=
  ⟨fun k t t' h0 h1 h2 => hE.track k t t' h0 h1 (h2.trans_le hR), fun k t h0 h1 => hE.refine k t h0 (h1.trans_le hR),
    fun k rs hrs => hE.approx k rs fun t ht => ⟨(hrs t ht).1, (hrs t ht).2.trans_le hR⟩, hE.dist⟩

/-- **C151 (endgame).** The power-series endgame of a regular solve is accurate on every path, whatever its
cycle number: for every required accuracy there is a radius such that from every endgame boundary inside it,
started near any path, it succeeds and its result has that accuracy. -/
theorem C151_endgame (hreg : RegularSolve simp w w' i0 k0 h g r H)
    (hinf : ∀ x, x ≠ 0 → (∀ j : Fin g.length, H (x, 0) j.castSucc = 0) → H (x, 0) (Fin.last _) ≠ -1)
    (cfg : EgCfg) (ccfg : CycCfg) (rand : Fin (g.length + 1) → ℂ) (hcn : ccfg.n = cfg.n)
    (hcf : ccfg.factor = cfg.factor) (hn : 3 ≤ cfg.n) (hf0 : 0 < cfg.factor) (hf1 : cfg.factor < 1) (htop : 0 < ccfg.top)
    (hmc : 1 ≤ ccfg.maxCycle) (htol : 0 < cfg.finalTol) {ε : ℝ} (hε : 0 < ε) :
    ∃ ρ > 0, ρ ≤ 1 ∧ ∀ te, 0 < te → te < ρ → ∀ m ≤ te * cfg.factor ^ cfg.n, ∀ δ E, 0 ≤ δ →
      PSEndgame H E { cfg with minTrack := m } ccfg rand te δ ε → AccurateEndgame H E te δ ε := by
  obtain ⟨R, hR, hR1, hser⟩ := C151_series hreg hinf
  obtain ⟨Y, hY, hall⟩ := hreg.paths
  have hex : ∀ i, ∃ z ρ, 0 < ρ ∧ (i < (degsOf w i0 g).prod → Tendsto (Y i) (𝓝[>] 0) (𝓝 z) ∧
      ∀ Eg, ExactEg Eg ccfg rand (Y i) (fun t => tangent H (Y i t, (t : ℂ))) R →
        (0 < cfg.level ∨ ∀ a, ‖a - z‖ ≤ ε → Eg.dehomNorm a ≤ cfg.maxNorm) →
        ∀ te : ℝ, 0 < te → te < ρ → ∀ m ≤ te * cfg.factor ^ cfg.n,
          ∃ s, runPS Eg { cfg with minTrack := m } te 0 (Y i te) 2 = .done .success s ∧ ‖s.latest - z‖ ≤ ε) := by
    intro i
    by_cases hi : i < (degsOf w i0 g).prod
    swap
    · exact ⟨0, 1, one_pos, fun h => absurd h hi⟩
    obtain ⟨φ, c, -, hs, -, hl⟩ := hser (Y i) (hY i hi)
    obtain ⟨ρ, h1, -, h3⟩ := C150_accurate_partial hs cfg ccfg rand hcn hcf hn hf0 hf1 htop hmc htol hε
    exact ⟨φ 0, ρ, h1, fun _ => ⟨hl, fun Eg hE hsec te a b m hm => h3 Eg hE hsec te a b m hm 2 le_rfl⟩⟩
  choose z ρ0 hρ0 hP using hex
  obtain ⟨ρ, hρ, hρ'⟩ := exists_pos_le (Finset.range (degsOf w i0 g).prod) ρ0 fun i _ => hρ0 i
  refine ⟨min ρ 1, lt_min hρ one_pos, min_le_right _ _, fun te h0 h1 m hm δ E hδ hE k x y z' hy hz hx => ?_⟩
  have hte1 := h1.trans_le (min_le_right _ _)
  obtain ⟨Eg, e1, e2, e3⟩ := hE k
  obtain ⟨i, hi, hyi⟩ := hall y hy
  obtain ⟨hl, hrun⟩ := hP i hi
  have hz' : z i = z' := tendsto_nhds_unique hl (hz.congr' (by
    filter_upwards [Ioc_mem_nhdsGT (show (0 : ℝ) < 1 from one_pos)] with s hs
    exact hyi s hs))
  obtain ⟨s, f1, f2⟩ := hrun Eg (exactEg_mono (e1.exact _ (hY i hi)) hR1) (e2.imp id fun h a ha =>
    h (Y i) (z i) (hY i hi) hl a ha) te h0
    (h1.trans_le ((min_le_left _ _).trans (hρ' i (by simpa using hi)))) m hm
  rw [hyi te ⟨h0, hte1.le⟩] at hx
  rw [← runPS_near e1 hδ { cfg with minTrack := m } (by show 2 ≤ cfg.n; omega) hf0 hf1 h0 hte1 (hY i hi) hx] at f1
  rw [e3 _ _ _ _ f1]
  exact ⟨rfl, by rw [← hz']; exact f2⟩

open Classical in
/-- **C151.** A whole solve with the power-series endgame. Let the homotopy be regular, with no zero of the
target at infinity for the patch. There is a bound such that for every tolerance `post` for multiplicities
below it, and every accuracy `ε` small against `post`, there is a radius such that the following holds for
every endgame boundary inside it, a small enough tolerance of the midpath check, and fine enough tracks to the
endgame boundary.
Each path is tracked once, the midpath check passes, the endgame is run on each path, and every path ends
with success and within `ε` of the limit `z i` of the path of zeros through start point `i`, a zero of the
homotopy at time 0. The multiplicity reported is the number of paths with the same limit. Every nonsingular
solution of the user's system (not at infinity for the patch) is, dehomogenized, the limit of exactly one of
the paths, and is reported with multiplicity 1. -/
theorem C151 (hreg : RegularSolve simp w w' i0 k0 h g r H)
    (hinf : ∀ x, x ≠ 0 → (∀ j : Fin g.length, H (x, 0) j.castSucc = 0) → H (x, 0) (Fin.last _) ≠ -1)
    (T : Table) (tol : ℝ) (ht : 0 < tol) (ecfg : EgCfg) (ccfg : CycCfg) (rand : Fin (g.length + 1) → ℂ)
    (hcn : ccfg.n = ecfg.n) (hcf : ccfg.factor = ecfg.factor) (hn : 3 ≤ ecfg.n) (hf0 : 0 < ecfg.factor)
    (hf1 : ecfg.factor < 1) (htop : 0 < ccfg.top) (hmc : 1 ≤ ccfg.maxCycle) (htol : 0 < ecfg.finalTol) :
    ∃ bound > 0, ∀ post ε : ℝ, post ≤ bound → 0 < ε → 2 * √(g.length + 1 : ℕ) * ε < post → ∃ ρ > 0,
      ∀ te : ℝ, 0 < te → te < ρ → ∃ mid > 0, ∀ δ : ℝ, 0 < δ → ∃ hm > 0, ∃ η > 0,
      ∀ (E : ZEnv (g.length + 1)) (cfg : ZCfg) (minTrack : ℝ), minTrack ≤ te * ecfg.factor ^ ecfg.n →
      (∀ i < (degsOf w i0 g).prod, IsStart w w' i0 k0 g r i (E.start i)) →
      FineTracker H T E (degsOf w i0 g).prod tol hm η te →
      PSEndgame H E { ecfg with minTrack := minTrack } ccfg rand te δ ε →
      cfg.newtonBefore = tol → cfg.midTol ≤ mid → cfg.postTol = post →
      let N := (degsOf w i0 g).prod
      let s := solve N E cfg (ZSt.init _)
      ∃ z : ℕ → Fin (g.length + 1) → ℂ,
        (∀ i < N, H (z i, 0) = 0 ∧ ∃ y, OpenPath H y ∧ y 1 = E.start i ∧ Tendsto y (𝓝[>] 0) (𝓝 (z i))) ∧
        s.checker.passed = true ∧
        (∃ x : ℕ → Fin (g.length + 1) → ℂ, s.log = (List.range N).map (fun i => .before i tol) ++
          (List.range N).map fun i => .endgame i (x i)) ∧
        (∀ i < N, ∃ m x, s.md[i]? = some m ∧ s.sols[i]? = some x ∧ m.pre = .success ∧ m.post = .success ∧
          ‖x - z i‖ ≤ ε ∧ m.mult = (((Finset.range N).filter fun j => z j = z i).card : ℤ)) ∧
        ∀ f, ComputesFun simp w i0 g.length f → ∀ y, f y = 0 → IsUnit (fderiv ℂ f y) →
          Patch.dot (1 :: List.ofFn y) ((List.range (g.length + 1)).map (r.coef 0)) ≠ 0 →
          ∃ i < N, (w'.objs h).vs.dehomogenize (List.ofFn (z i)) = some (List.ofFn y) ∧
            (∀ j < N, z j = z i → j = i) ∧ ∃ m, s.md[i]? = some m ∧ m.mult = 1 := by
  obtain ⟨bound, hb, hmain⟩ := C149 hreg hinf T tol ht
  refine ⟨bound, hb, fun post ε hpost hε hacc => ?_⟩
  obtain ⟨ρ, hρ, hρ1, heg⟩ := C151_endgame hreg hinf ecfg ccfg rand hcn hcf hn hf0 hf1 htop hmc htol hε
  refine ⟨ρ, hρ, fun te h0 h1 => ?_⟩
  obtain ⟨mid, hmid, hmain⟩ := hmain te h0 (h1.trans_le hρ1)
  refine ⟨mid, hmid, fun δ hδ => ?_⟩
  obtain ⟨hm, hhm, η, hη, hmain⟩ := hmain δ ε hδ hε.le
  refine ⟨hm, hhm, η, hη, fun E cfg mt hmt hs ht he c1 c2 c3 => ?_⟩
  exact hmain E cfg hs ht (heg te h0 h1 mt hmt δ E hδ.le he) c1 c2 (c3.le.trans hpost) (by rwa [c3])

/-! ### Such an endgame exists -/

open Classical in
/-- Calls that follow the paths of zeros. -/
noncomputable def followEg {m : ℕ} (H : (Fin m → ℂ) × ℂ → Fin m → ℂ) (ccfg : CycCfg) (rand : Fin m → ℂ) (te δ : ℝ) :
    EgEnv (Fin m → ℂ) where
  track _ t t' x :=
    if h : ∃ y, OpenPath H y ∧ (y t.re = x ∨ t.re = te ∧ ‖x - y te‖ ≤ δ) then (.success, h.choose t'.re)
    else (.neverStarted, 0)
  refine _ x t :=
    if h : ∃ y, OpenPath H y ∧ (y t.re = x ∨ t.re = te ∧ ‖x - y te‖ ≤ δ) then (.success, h.choose t.re)
    else (.neverStarted, 0)
  approx _ ts xs := (approxAtT0 ccfg rand 0 ts xs (List.zipWith (fun t x => tangent H (x, t)) ts xs) 1).getD 0
  dist a b := some ‖a - b‖
  dehomNorm a := ‖a‖

theorem followEg_follows (hreg : RegularSolve simp w w' i0 k0 h g r H) (ccfg : CycCfg) (rand : Fin (g.length + 1) → ℂ)
    {te δ : ℝ} (h0 : 0 < te) (h1 : te < 1)
    (hrad : ∀ y y', OpenPath H y → OpenPath H y' → ‖y te - y' te‖ ≤ 2 * δ → ∀ s ∈ Ioc (0 : ℝ) 1, y s = y' s)
    (hδ : 0 ≤ δ) : FollowsPaths H (followEg H ccfg rand te δ) ccfg rand te δ := by
  have key : ∀ (t : ℝ), t ∈ Ioc (0 : ℝ) 1 → ∀ x y y', OpenPath H y → OpenPath H y' →
      (y t = x ∨ t = te ∧ ‖x - y te‖ ≤ δ) → (y' t = x ∨ t = te ∧ ‖x - y' te‖ ≤ δ) →
      ∀ s ∈ Ioc (0 : ℝ) 1, y s = y' s := by
    intro t ht x y y' hy hy' hx hx'
    have aux : ∀ y : ℝ → Fin (g.length + 1) → ℂ, (y t = x ∨ t = te ∧ ‖x - y te‖ ≤ δ) → t = te → ‖x - y te‖ ≤ δ := by
      rintro y (e | e) rfl
      · rw [e, sub_self, norm_zero]; exact hδ
      · exact e.2
    by_cases hte : t = te
    · refine hrad y y' hy hy' ?_
      have := aux y hx hte
      have := aux y' hx' hte
      have e : y te - y' te = (x - y' te) - (x - y te) := by abel
      rw [e]
      linarith [norm_sub_le (x - y' te) (x - y te)]
    · rcases hx with e | e
      swap
      · exact absurd e.1 hte
      rcases hx' with e' | e'
      swap
      · exact absurd e'.1 hte
      exact hreg.disjoint y y' hy hy' t ht (by rw [e, e'])
  have htrack : ∀ k (t t' : ℝ) x y, OpenPath H y → t ∈ Ioc (0 : ℝ) 1 → t' ∈ Ioc (0 : ℝ) 1 →
      (y t = x ∨ t = te ∧ ‖x - y te‖ ≤ δ) → (followEg H ccfg rand te δ).track k t t' x = (.success, y t') := by
    intro k t t' x y hy ht ht' hx
    have hex : ∃ y, OpenPath H y ∧ (y (t : ℂ).re = x ∨ (t : ℂ).re = te ∧ ‖x - y te‖ ≤ δ) :=
      ⟨y, hy, by simpa using hx⟩
    simp only [followEg]
    rw [dif_pos hex]
    obtain ⟨g1, g2⟩ := hex.choose_spec
    exact Prod.ext rfl (key t ht x _ y g1 hy g2 hx t' ht')
  have hrefine : ∀ k (t : ℝ) x y, OpenPath H y → t ∈ Ioc (0 : ℝ) 1 →
      (y t = x ∨ t = te ∧ ‖x - y te‖ ≤ δ) → (followEg H ccfg rand te δ).refine k x t = (.success, y t) := by
    intro k t x y hy ht hx
    have hex : ∃ y, OpenPath H y ∧ (y (t : ℂ).re = x ∨ (t : ℂ).re = te ∧ ‖x - y te‖ ≤ δ) :=
      ⟨y, hy, by simpa using hx⟩
    simp only [followEg]
    rw [dif_pos hex]
    obtain ⟨g1, g2⟩ := hex.choose_spec
    exact Prod.ext rfl (key t ht x _ y g1 hy g2 hx t ht)
  refine ⟨fun y hy => ⟨fun k t t' a b c => ?_, fun k t a b => ?_, fun k rs hrs => ⟨1, fun a ha => ?_⟩, fun _ _ => rfl⟩,
    fun y hy x hx => ⟨fun k t' a b => ?_, fun k => ?_⟩⟩
  · exact htrack k t t' _ y hy ⟨by linarith, c.le⟩ ⟨a, by linarith⟩ (Or.inl rfl)
  · exact hrefine k t _ y hy ⟨a, b.le⟩ (Or.inl rfl)
  · show (approxAtT0 ccfg rand 0 _ _ _ 1).getD 0 = a
    have e : List.zipWith (fun t x => tangent H (x, t)) (rs.map fun t : ℝ => (t : ℂ)) (rs.map y) =
        rs.map fun t => tangent H (y t, (t : ℂ)) := by
      induction rs with
      | nil => rfl
      | cons b rs ih => simp
    rw [e, ha]
    rfl
  · exact htrack k te t' _ y hy ⟨h0, h1.le⟩ ⟨a, by linarith⟩ (Or.inr ⟨rfl, hx⟩)
  · exact hrefine k te _ y hy ⟨h0, h1.le⟩ (Or.inr ⟨rfl, hx⟩)

theorem loopPS_done {X : Type} (E : EgEnv X) (cfg : EgCfg) (target : ℂ) : ∀ n n' s c s', n ≤ n' →
    loopPS E cfg target n s = .done c s' → loopPS E cfg target n' s = .done c s'
  | 0, n', s, c, s', _, h => by simp [loopPS] at h
  | n + 1, 0, s, c, s', hn, _ => by omega
  | n + 1, n' + 1, s, c, s', hn, h => by
    rw [loopPS] at h ⊢
    generalize stepPS E cfg target s = q at h ⊢
    cases q with
    | done c s => exact h
    | more s => exact loopPS_done E cfg target n n' s c s' (by omega) h
    | bad => exact h

theorem runPS_done {X : Type} (E : EgEnv X) (cfg : EgCfg) (start target : ℂ) (x : X) {n n' : ℕ} {c c' : Code}
    {s s' : PSt X} (h : runPS E cfg start target x n = .done c s) (h' : runPS E cfg start target x n' = .done c' s') :
    c = c' ∧ s = s' := by
  unfold runPS at h h'
  generalize initPS E cfg start target x = q at h h'
  cases q with
  | done c s =>
    rw [h] at h'
    simpa using h'
  | more s =>
    dsimp only at h h'
    have e1 := loopPS_done E cfg target n (max n n') s _ _ (le_max_left _ _) h
    have e2 := loopPS_done E cfg target n' (max n n') s _ _ (le_max_right _ _) h'
    rw [e1] at e2
    simpa using e2
  | bad => simp at h

open Classical in
/-- A solve with the power-series endgame. -/
noncomputable def psEnv {m : ℕ} (E : ZEnv m) (Eg : EgEnv (Fin m → ℂ)) (cfg : EgCfg) (te : ℝ) : ZEnv m :=
  { E with endgame := fun _ x =>
      if h : ∃ r : Code × (Fin m → ℂ), ∃ n s, runPS Eg cfg te 0 x n = .done r.1 s ∧ s.latest = r.2 then h.choose
      else (.neverStarted, 0) }

theorem psEnv_run {m : ℕ} (E : ZEnv m) (Eg : EgEnv (Fin m → ℂ)) (cfg : EgCfg) (te : ℝ) (k : ℕ) (x : Fin m → ℂ) (n : ℕ)
    (code : Code) (s : PSt (Fin m → ℂ)) (hr : runPS Eg cfg te 0 x n = .done code s) :
    (psEnv E Eg cfg te).endgame k x = (code, s.latest) := by
  have hex : ∃ r : Code × (Fin m → ℂ), ∃ n s, runPS Eg cfg te 0 x n = .done r.1 s ∧ s.latest = r.2 :=
    ⟨(code, s.latest), n, s, hr, rfl⟩
  simp only [psEnv]
  rw [dif_pos hex]
  obtain ⟨n', s', h1, h2⟩ := hex.choose_spec
  obtain ⟨e1, e2⟩ := runPS_done Eg cfg te 0 x h1 hr
  exact Prod.ext e1 (by rw [← h2, e2])

/-- The hypotheses of C151 on tracker, endgame and settings can be met for every regular solve, whatever the
bounds. -/
theorem C151_inhabited (hreg : RegularSolve simp w w' i0 k0 h g r H) (T : Table) (te tol mid post ε : ℝ) (h0 : 0 < te)
    (h1 : te < 1) (hmid : 0 < mid) (ecfg : EgCfg) (hl : 0 < ecfg.level) (ccfg : CycCfg) (rand : Fin (g.length + 1) → ℂ) :
    ∃ δ > 0, ∀ hm η : ℝ, 0 < hm → ∃ (E : ZEnv (g.length + 1)) (cfg : ZCfg),
      (∀ i < (degsOf w i0 g).prod, IsStart w w' i0 k0 g r i (E.start i)) ∧
      FineTracker H T E (degsOf w i0 g).prod tol hm η te ∧ PSEndgame H E ecfg ccfg rand te δ ε ∧
      cfg.newtonBefore = tol ∧ 0 < cfg.midTol ∧ cfg.midTol ≤ mid ∧ cfg.postTol = post := by
  obtain ⟨δ, hδ, hrad⟩ := radius hreg te h0 h1
  obtain ⟨Y, hY, -⟩ := hreg.paths
  have hex : ∀ i, ∃ x, i < (degsOf w i0 g).prod → IsStart w w' i0 k0 g r i x := by
    intro i
    by_cases hi : i < (degsOf w i0 g).prod
    · obtain ⟨x, hx⟩ := hreg.numbered i hi
      exact ⟨x, fun _ => hx⟩
    · exact ⟨0, fun h => absurd h hi⟩
  choose x hx using hex
  refine ⟨δ, hδ, fun hm η hh => ⟨psEnv (fineEnv H T hm η te δ x) (followEg H ccfg rand te δ) ecfg te,
    ⟨tol, mid, post, 2, 1 / 2⟩, hx, fineEnv_fine H T _ tol hm η te δ x hh, fun k =>
      ⟨_, followEg_follows hreg ccfg rand h0 h1 hrad hδ.le, Or.inl hl, psEnv_run _ _ _ _ k⟩, rfl, hmid, le_rfl, rfl⟩⟩

/-- C151 for `x^2 - 1`: both solutions are found, with multiplicity 1 and any accuracy. -/
example (simp : Node → Node) (T : Table) (ε : ℝ) (hε : 0 < ε) : ∃ (w' : World) (E : ZEnv 2) (cfg : ZCfg),
    ∀ y : Fin 1 → ℂ, y 0 = 1 ∨ y 0 = -1 →
    ∃ i < 2, ∃ z : Fin 2 → ℂ, (w'.objs 5).vs.dehomogenize (List.ofFn z) = some (List.ofFn y) ∧
      ∃ m x, (solve 2 E cfg (ZSt.init 2)).md[i]? = some m ∧ (solve 2 E cfg (ZSt.init 2)).sols[i]? = some x ∧
        m.post = .success ∧ m.mult = 1 ∧ ‖x - z‖ ≤ ε := by
  obtain ⟨γ, w', -, -, h5, hinf⟩ := sqm_regular simp
  obtain ⟨bound, hbound, hmain⟩ := C151 h5 hinf T 1 one_pos psCfg psCyc 1 rfl rfl (by norm_num [psCfg])
    (by norm_num [psCfg]) (by norm_num [psCfg]) (by norm_num [psCyc]) (by norm_num [psCyc]) (by norm_num [psCfg])
  have hs2 : √((([0] : List Var).length + 1 : ℕ) : ℝ) ≤ 2 := by
    rw [Real.sqrt_le_left (by norm_num)]
    norm_num
  obtain ⟨ρ, hρ, hmain⟩ := hmain bound (min ε (bound / 8)) le_rfl (by positivity) (by
    have : min ε (bound / 8) ≤ bound / 8 := min_le_right _ _
    have : 0 < min ε (bound / 8) := by positivity
    nlinarith)
  have hte0 : 0 < min ρ 1 / 2 := by positivity
  have hte1 : min ρ 1 / 2 < ρ := by have := min_le_left ρ 1; linarith
  have hte2 : min ρ 1 / 2 < 1 := by have := min_le_right ρ 1; linarith
  obtain ⟨mid, hmid, hmain⟩ := hmain (min ρ 1 / 2) hte0 hte1
  obtain ⟨δ, hδ, hE⟩ := C151_inhabited h5 T (min ρ 1 / 2) 1 mid bound (min ε (bound / 8)) hte0 hte2 hmid
    { psCfg with minTrack := 0 } (by norm_num [psCfg]) psCyc 1
  obtain ⟨hm, hhm, η, -, hall⟩ := hmain δ hδ
  obtain ⟨E, cfg, g1, g2, g3, g4, -, g6, g7⟩ := hE hm η hhm
  obtain ⟨z, -, -, -, k4, k5⟩ := hall E cfg 0 (by
    have : (0 : ℝ) < psCfg.factor := by norm_num [psCfg]
    positivity) g1 g2 g3 g4 g6 g7
  have hprod : (degsOf (ww sqm) 0 [0]).prod = 2 := by rw [degsOf_sqm]; rfl
  rw [hprod] at k4 k5
  refine ⟨w', E, cfg, fun y hy => ?_⟩
  have hy2 : y 0 ^ 2 = 1 := by rcases hy with e | e <;> rw [e] <;> norm_num
  have hder : IsUnit (fderiv ℂ (fun (y : Fin 1 → ℂ) (_ : Fin 1) => y 0 ^ 2 - 1) y) := fderiv_sqm y (by
    rcases hy with e | e <;> rw [e] <;> norm_num)
  obtain ⟨i, hi, e1, -, m, e3, e4⟩ := k5 _ (computes_sqm simp) y (by funext j; simp [hy2]) hder (by
    rcases hy with e | e <;> simp [Patch.dot, choices, List.range_succ, e] <;> norm_num)
  obtain ⟨m', x, f1, f2, -, f4, f5, -⟩ := k4 i hi
  rw [e3, Option.some.injEq] at f1
  subst f1
  exact ⟨i, hi, z i, e1, m, x, e3, f2, f4, e4, f5.trans (min_le_left _ _)⟩

end
end B2.Alg.Htp
