import Verif.Alg.PropsEndgameC

/-!
# Property C154: a solve finds every solution, singular or not

C147, C149, C151 and C153 say where the nonsingular solutions of the user's system are found. When the target has
no zero at infinity for the patch, the solutions, singular or not, are exactly the finite limits of the paths.
-/

namespace B2.Alg.Htp

open B2.Sys B2.Start B2.Cont B2.Predict B2.Track B2.Endgame Set Filter Topology

section
variable {simp : Node → Node} {w w' : World} {i0 k0 h : ℕ} {g : List Var} {r : Choices}
  {H : (Fin (g.length + 1) → ℂ) × ℂ → Fin (g.length + 1) → ℂ}

/-- **C154 (limits).** Let the homotopy be regular, with no zero of the target at infinity for the patch, and let
`z i` be the limit, as time goes to 0, of the path of zeros through start point `i`. Then `y` is a solution of
the user's system, singular or not, exactly when it is one of the `z i`, dehomogenized. -/
theorem C154_limits (hreg : RegularSolve simp w w' i0 k0 h g r H)
    (hinf : ∀ x, x ≠ 0 → (∀ j : Fin g.length, H (x, 0) j.castSucc = 0) → H (x, 0) (Fin.last _) ≠ -1)
    {z : ℕ → Fin (g.length + 1) → ℂ} (hz : ∀ i < (degsOf w i0 g).prod, ∃ y, OpenPath H y ∧
      IsStart w w' i0 k0 g r i (y 1) ∧ Tendsto y (𝓝[>] 0) (𝓝 (z i)))
    {f : (Fin g.length → ℂ) → Fin g.length → ℂ} (hf : ComputesFun simp w i0 g.length f) (y : Fin g.length → ℂ) :
    f y = 0 ↔ ∃ i < (degsOf w i0 g).prod, z i 0 ≠ 0 ∧
      (w'.objs h).vs.dehomogenize (List.ofFn (z i)) = some (List.ofFn y) := by
  have hone : (1 : ℝ) ∈ Ioc (0 : ℝ) 1 := ⟨one_pos, le_rfl⟩
  constructor
  · intro hy
    obtain ⟨x, hx, hx0, hxy⟩ := hreg.solutions hinf f hf y hy
    obtain ⟨Y, hY, hlim⟩ := hreg.limits hinf x hx
    have h1 := hY.zero 1 hone
    rw [Complex.ofReal_one] at h1
    obtain ⟨i, hi, hs⟩ := (hreg.starts _).1 h1
    obtain ⟨Y', hY', hs', hlim'⟩ := hz i hi
    have he : Y 1 = Y' 1 := by
      unfold IsStart at hs hs'
      rw [hs, Option.some.injEq] at hs'
      exact List.ofFn_injective hs'
    have hzx : z i = x := tendsto_nhds_unique hlim' (hlim.congr' (by
      filter_upwards [Ioc_mem_nhdsGT (show (0 : ℝ) < 1 from one_pos)] with s hs
      exact hreg.disjoint _ _ hY hY' 1 hone he s hs))
    refine ⟨i, hi, by rwa [hzx], ?_⟩
    rw [hreg.dehomogenizes, hzx]
    congr 2
    exact funext hxy
  · rintro ⟨i, hi, h0, hd⟩
    obtain ⟨Y, hY, -, hlim⟩ := hz i hi
    obtain ⟨x, hx, hx'⟩ := hreg.converges hinf hY
    obtain rfl : z i = x := tendsto_nhds_unique hlim hx'
    have := hreg.ends f hf (z i) hx h0
    rw [hreg.dehomogenizes, Option.some.injEq] at hd
    rwa [List.ofFn_injective hd] at this

/-- The user's system has at most as many solutions as there are paths. -/
theorem C154_bound (hreg : RegularSolve simp w w' i0 k0 h g r H)
    (hinf : ∀ x, x ≠ 0 → (∀ j : Fin g.length, H (x, 0) j.castSucc = 0) → H (x, 0) (Fin.last _) ≠ -1)
    {f : (Fin g.length → ℂ) → Fin g.length → ℂ} (hf : ComputesFun simp w i0 g.length f) :
    {y | f y = 0}.Finite ∧ {y | f y = 0}.ncard ≤ (degsOf w i0 g).prod := by
  have hone : (1 : ℝ) ∈ Ioc (0 : ℝ) 1 := ⟨one_pos, le_rfl⟩
  have hex : ∀ i, ∃ z : Fin (g.length + 1) → ℂ, i < (degsOf w i0 g).prod → ∃ y, OpenPath H y ∧
      IsStart w w' i0 k0 g r i (y 1) ∧ Tendsto y (𝓝[>] 0) (𝓝 z) := by
    intro i
    by_cases hi : i < (degsOf w i0 g).prod
    swap
    · exact ⟨0, fun h => absurd h hi⟩
    obtain ⟨x, hx⟩ := hreg.numbered i hi
    obtain ⟨Y, hY, hY1⟩ := hreg.through 1 hone x
      (by rw [Complex.ofReal_one]; exact (hreg.starts x).2 ⟨i, hi, hx⟩)
    obtain ⟨z, -, hz⟩ := hreg.converges hinf hY
    exact ⟨z, fun _ => ⟨Y, hY, by rwa [hY1], hz⟩⟩
  choose z hz using hex
  have hsub : {y | f y = 0} ⊆ (fun i (j : Fin g.length) => z i j.succ / z i 0) ''
      ((Finset.range (degsOf w i0 g).prod : Finset ℕ) : Set ℕ) := by
    intro y hy
    obtain ⟨i, hi, -, hd⟩ := (C154_limits hreg hinf hz hf y).1 hy
    rw [hreg.dehomogenizes, Option.some.injEq] at hd
    exact ⟨i, by simpa using hi, List.ofFn_injective hd⟩
  have hfin := (Finset.finite_toSet (Finset.range (degsOf w i0 g).prod)).image
    (fun i (j : Fin g.length) => z i j.succ / z i 0)
  refine ⟨hfin.subset hsub, (Set.ncard_le_ncard hsub hfin).trans ?_⟩
  refine (Set.ncard_image_le (Finset.finite_toSet _)).trans ?_
  rw [Set.ncard_coe_finset, Finset.card_range]

open Classical in
/-- **C154.** A whole solve with the Cauchy endgame finds exactly the solutions of the user's system. Under the
assumptions of C153: every path ends with success; a point `y` is a solution of the user's system, singular or not,
exactly when it is the dehomogenized limit of a path; for each solution there is a reported end within `ε` of its
homogeneous coordinates on the patch; and the multiplicity reported there is the number of paths that lead to it. -/
theorem C154 (hreg : RegularSolve simp w w' i0 k0 h g r H)
    (hinf : ∀ x, x ≠ 0 → (∀ j : Fin g.length, H (x, 0) j.castSucc = 0) → H (x, 0) (Fin.last _) ≠ -1)
    (T : Table) (tol : ℝ) (ht : 0 < tol) (ecfg : CCfg) (hn : 3 ≤ ecfg.n) (hf0 : 0 < ecfg.factor)
    (hf1 : ecfg.factor < 1) (htt : 0 < ecfg.trackTol) (hfs : (degsOf w i0 g).prod ≤ ecfg.failsafe) (htol : 0 < ecfg.finalTol)
    (hcut : 0 < ecfg.cycleCutoff) (hrat : 0 < ecfg.ratioCutoff) :
    ∃ bound > 0, ∀ post ε : ℝ, post ≤ bound → 0 < ε → 2 * √(g.length + 1 : ℕ) * ε < post → ∃ ρ > 0,
      ∀ te : ℝ, 0 < te → te < ρ → ∃ mid > 0, ∀ δ : ℝ, 0 < δ → δ ≤ ecfg.finalTol / 8 → ∃ hm > 0, ∃ η > 0,
      ∀ (E : ZEnv (g.length + 1)) (cfg : ZCfg) (minTrack : ℝ),
      minTrack ≤ te * ecfg.factor ^ (ecfg.n - 1) * (1 - ecfg.factor) ^ ecfg.needed →
      (∀ i < (degsOf w i0 g).prod, IsStart w w' i0 k0 g r i (E.start i)) →
      FineTracker H T E (degsOf w i0 g).prod tol hm η te →
      CauchyEndgame H E { ecfg with minTrack := minTrack } te δ →
      cfg.newtonBefore = tol → cfg.midTol ≤ mid → cfg.postTol = post →
      let N := (degsOf w i0 g).prod
      let s := solve N E cfg (ZSt.init _)
      ∃ z : ℕ → Fin (g.length + 1) → ℂ,
        (∀ i < N, H (z i, 0) = 0 ∧ ∃ y, OpenPath H y ∧ y 1 = E.start i ∧ Tendsto y (𝓝[>] 0) (𝓝 (z i))) ∧
        (∀ f, ComputesFun simp w i0 g.length f → ∀ y, f y = 0 ↔ ∃ i < N, z i 0 ≠ 0 ∧
          (w'.objs h).vs.dehomogenize (List.ofFn (z i)) = some (List.ofFn y)) ∧
        ∀ i < N, ∃ m x, s.md[i]? = some m ∧ s.sols[i]? = some x ∧ m.pre = .success ∧ m.post = .success ∧
          ‖x - z i‖ ≤ ε ∧ m.mult = (((Finset.range N).filter fun j => z j = z i).card : ℤ) := by
  obtain ⟨bound, hb, hmain⟩ := C153 hreg hinf T tol ht ecfg hn hf0 hf1 htt hfs htol hcut hrat
  refine ⟨bound, hb, fun post ε h1 h2 h3 => ?_⟩
  obtain ⟨ρ, hρ, hmain⟩ := hmain post ε h1 h2 h3
  refine ⟨ρ, hρ, fun te h4 h5 => ?_⟩
  obtain ⟨mid, hmid, hmain⟩ := hmain te h4 h5
  refine ⟨mid, hmid, fun δ h6 h7 => ?_⟩
  obtain ⟨hm, hhm, η, hη, hmain⟩ := hmain δ h6 h7
  refine ⟨hm, hhm, η, hη, fun E cfg mt h8 h9 h10 h11 h12 h13 h14 => ?_⟩
  obtain ⟨z, k1, -, -, k4, -⟩ := hmain E cfg mt h8 h9 h10 h11 h12 h13 h14
  refine ⟨z, k1, fun f hf y => C154_limits hreg hinf (fun i hi => ?_) hf y, k4⟩
  obtain ⟨-, Y, a, b, c⟩ := k1 i hi
  exact ⟨Y, a, by rw [b]; exact h9 i hi, c⟩

/-! ### A case: `x^2`, whose only solution is singular -/

/-- `x^2` -/
def sq0 : Node := .ipow (.var 0) 2

theorem roots_sq0 : (ww sq0).roots ((ww sq0).objs 0) = [sq0] := by
  simp [World.roots, ww, World.set, ow]

theorem squareTarget_sq0 : SquareTarget (ww sq0) 0 [.addGroup [0]] (· + 1) [0] := by
  have ho : (ww sq0).objs 0 = ow := by simp [ww, World.set]
  have hr := roots_sq0
  refine ⟨⟨by rw [ho]; rfl, by rw [ho]; rfl, by rw [ho]; rfl, by rw [ho]; simp [ow], ⟨fun a b => by simp,
    fun k => ⟨?_, ?_, ?_⟩⟩, ?_, ?_, ?_, ?_⟩, by rw [ho]; rfl, by rw [ho]; rfl, by rw [ho]; rfl, by rw [ho]; rfl,
    by rw [ho]; rfl, by rw [ho]; rfl, ?_, ?_⟩
  · rw [ho]; simp [ow, Vars.addGroup, Vars.empty]
  · rw [ho]; simp [ow, Vars.addGroup, Vars.empty]
  · rw [hr]; simp [sq0, Node.vars]
  · rw [ho]; simp [ow, Vars.addGroup, Vars.empty]
  · rw [ho]; simp [ow, Vars.addGroup, Vars.empty]
  · rw [hr]; simp [sq0, PolyTree, MonoTree]
  · rw [ho]; simp [ow, Vars.addGroup, Vars.empty]
  · rw [hr]; simp [sq0, Node.vars]
  · rw [hr]; simp [sq0, degG, degV, foldUnary]

theorem degG_sq0 (cur : Env) : degG cur [0] sq0 = 2 := by
  simp [sq0, degG, degV, foldUnary]

theorem degsOf_sq0 : degsOf (ww sq0) 0 [0] = [2] := by
  simp [degsOf, roots_sq0, degG_sq0]

theorem generic_sq0 (γ : ℚ × ℚ) : Generic (ww sq0) 0 [0] (choices γ) where
  nonempty := by simp
  degrees := by rw [roots_sq0]; simp [degG_sq0]
  constants := (generic_sqm γ).constants
  patch := fun ζ hζ => (generic_sqm γ).patch ζ (by rw [degsOf_sqm]; rw [degsOf_sq0] at hζ; exact hζ)

theorem computes_sq0 (simp : Node → Node) : ComputesFun simp (ww sq0) 0 1 fun y _ => y 0 ^ 2 := by
  intro y junk hj
  have ho : (ww sq0).objs 0 = ow := by simp [ww, World.set]
  have he : Evaluable (ww sq0) 0 [0] := by
    refine ⟨?_, ?_, ?_⟩
    · rw [ho]
      simp [Obj.vars, ow, Vars.ordering, Vars.addGroup, Vars.empty, Vars.numHomVars, Vars.numVariables,
        Vars.numNatural, Vars.orderingLoop]
    · rw [roots_sq0]
      intro n hn v hv
      simp only [List.mem_singleton] at hn
      subst hn
      simp [sq0, Node.vars] at hv
      exact Or.inl (by simp [hv])
    · rw [ho]; simp [ow]
  obtain ⟨out, w', h1, pv, rfl, -, h3⟩ := (C20_partial simp _ (ww sq0) (by simp [SafeRun, Safe])
    (run_ww simp sq0) 0 [0] (List.ofFn y) (fun _ => y 0) junk he (by simp [Binds])
    (by unfold PatchFits; rw [ho]; simp [ow, Obj.new]) (by rw [ho]; simp [ow, Obj.new])
    (by rw [ho]; simp [Obj.total, ow, Obj.new, hj])).1 (by rw [ho]; rfl)
  rw [h3 (by rw [ho]; rfl), roots_sq0] at h1
  refine ⟨w', h1.trans ?_⟩
  simp [sq0, B2.eval]

/-- A homogeneous polynomial in two variables, off the line at infinity. -/
theorem eval_affine_one {F : Fin 1 → MvPolynomial (Fin 2) ℂ} {d : ℕ} (hF : (F 0).IsHomogeneous d) (x : Fin 2 → ℂ)
    (h0 : x 0 ≠ 0) : MvPolynomial.eval x (F 0) = x 0 ^ d * affine F (fun _ => x 1 / x 0) 0 := by
  have hx : x = x 0 • (Fin.cons 1 (fun _ => x 1 / x 0) : Fin 2 → ℂ) := by
    ext j
    fin_cases j
    · simp
    · simp [mul_div_cancel₀ _ h0]
  conv_lhs => rw [hx]
  exact eval_smul_homogeneous hF _ _

/-- The solve of `x^2` is regular for some `γ`, and has no zero at infinity for the patch. -/
theorem sq0_regular (simp : Node → Node) : ∃ (γ : ℚ × ℚ) (w' : World) (H : (Fin 2 → ℂ) × ℂ → Fin 2 → ℂ),
    systemSetup simp (choices γ) 9 0 1 2 3 4 5 (ww sq0) = some w' ∧ Computes simp w' 5 2 H ∧
    RegularSolve simp (ww sq0) w' 0 1 5 [0] (choices (0, 0)) H ∧
    ∀ x, H (x, 0) = ![x 1 ^ 2, 2 * x 0 + x 1 - 1] := by
  obtain ⟨B, -, hB⟩ := C147 simp _ (ww sq0) (by simp [SafeRun, Safe]) (run_ww simp sq0) (choices (0, 0)) 9
    0 1 2 3 4 5 _ [0] (by simp) (by simp [choices]) squareTarget_sq0 (generic_sq0 _)
  obtain ⟨γ, h1, h2⟩ := exists_gamma B
  obtain ⟨w', H, h3, h4, h5⟩ := hB γ h1 h2
  refine ⟨γ, w', H, h3, h4, h5, ?_⟩
  obtain ⟨F, G, c, hF, hG, rfl, hf⟩ := h5.form
  have haff : affine F = fun y _ => y 0 ^ 2 := ComputesFun.unique hf (computes_sq0 simp)
  have hF0 : F 0 = MvPolynomial.X 1 ^ 2 := by
    have hz : (F 0 - MvPolynomial.X 1 ^ 2) * MvPolynomial.X 0 = 0 := by
      apply MvPolynomial.funext
      intro x
      simp only [map_mul, map_sub, map_pow, MvPolynomial.eval_X, map_zero]
      by_cases h0 : x 0 = 0
      · rw [h0, mul_zero]
      have h6 := hF 0
      rw [degsOf_sq0] at h6
      rw [eval_affine_one (F := F) h6 x h0, haff]
      simp
      field_simp
      simp
    have := mul_eq_zero.1 hz
    exact sub_eq_zero.1 (this.resolve_right (MvPolynomial.X_ne_zero _))
  intro x
  funext j
  refine Fin.lastCases ?_ (fun j => ?_) j
  · unfold line
    rw [Fin.lastCases_last]
    simp [dotProduct, Fin.sum_univ_succ, choices]
  · obtain rfl : j = 0 := Subsingleton.elim (α := Fin 1) _ _
    unfold line
    rw [Fin.lastCases_castSucc, hF0]
    simp

/-- C154 for `x^2`: both paths end at the solution 0, which is singular; it is reported twice, with multiplicity 2
and any accuracy. -/
example (simp : Node → Node) (T : Table) (ε : ℝ) (hε : 0 < ε) : ∃ (w' : World) (E : ZEnv 2) (cfg : ZCfg),
    ∀ i < 2, ∃ z : Fin 2 → ℂ, (w'.objs 5).vs.dehomogenize (List.ofFn z) = some [0] ∧
      ∃ m x, (solve 2 E cfg (ZSt.init 2)).md[i]? = some m ∧ (solve 2 E cfg (ZSt.init 2)).sols[i]? = some x ∧
        m.post = .success ∧ m.mult = 2 ∧ ‖x - z‖ ≤ ε := by
  obtain ⟨γ, w', H, -, -, h5, hz0⟩ := sq0_regular simp
  have hinf : ∀ x, x ≠ 0 → (∀ j : Fin 1, H (x, 0) j.castSucc = 0) → H (x, 0) (Fin.last 1) ≠ -1 := by
    intro x hx hj hc
    have e1 := hj 0
    rw [hz0] at e1 hc
    have e1 : x 1 ^ 2 = 0 := e1
    have e2 : 2 * x 0 + x 1 - 1 = -1 := hc
    have e4 : x 1 = 0 := pow_eq_zero_iff two_ne_zero |>.1 e1
    have e3 : x 0 = 0 := by linear_combination e2 / 2 - e4 / 2
    apply hx
    ext j
    fin_cases j
    · exact e3
    · exact e4
  have hzero : ∀ x, H (x, 0) = 0 → x = ![1 / 2, 0] := by
    intro x hx
    rw [hz0] at hx
    have e1 : x 1 ^ 2 = 0 := congrFun hx 0
    have e2 : 2 * x 0 + x 1 - 1 = 0 := congrFun hx 1
    have e4 : x 1 = 0 := pow_eq_zero_iff two_ne_zero |>.1 e1
    ext j
    fin_cases j
    · show x 0 = 1 / 2
      linear_combination e2 / 2 - e4 / 2
    · exact e4
  have hprod : (degsOf (ww sq0) 0 [0]).prod = 2 := by rw [degsOf_sq0]; rfl
  obtain ⟨bound, hbound, hmain⟩ := C154 h5 hinf T 1 one_pos cauchyCfg (by norm_num [cauchyCfg]) (by norm_num [cauchyCfg])
    (by norm_num [cauchyCfg]) (by norm_num [cauchyCfg]) (by rw [hprod]; norm_num [cauchyCfg]) (by norm_num [cauchyCfg])
    (by norm_num [cauchyCfg]) (by norm_num [cauchyCfg])
  have hs2 : √((([0] : List Var).length + 1 : ℕ) : ℝ) ≤ 2 := by
    rw [Real.sqrt_le_left (by norm_num)]
    norm_num
  obtain ⟨ρ, hρ, hmain⟩ := hmain bound (min ε (bound / 8)) le_rfl (by positivity) (by
    have : min ε (bound / 8) ≤ bound / 8 := min_le_right _ _
    have : 0 < min ε (bound / 8) := by positivity
    nlinarith)
  have hte0 : 0 < min ρ 1 / 2 := by positivity
  have hte1 : min ρ 1 / 2 < ρ := by have := min_le_left ρ 1; linarith
  have hte2 : min ρ 1 / 2 < 1 := by have := min_le_right ρ 1; linarith
  obtain ⟨mid, hmid, hmain⟩ := hmain (min ρ 1 / 2) hte0 hte1
  obtain ⟨δ, hδ, hδ8, hE⟩ := C153_inhabited h5 T (min ρ 1 / 2) 1 mid bound (cauchyCfg.finalTol / 8) hte0 hte2 hmid
    (by norm_num [cauchyCfg]) { cauchyCfg with minTrack := 0 }
  obtain ⟨hm, hhm, η, -, hall⟩ := hmain δ hδ hδ8
  obtain ⟨E, cfg, g1, g2, g3, g4, -, g6, g7⟩ := hE hm η hhm
  obtain ⟨z, k1, -, k3⟩ := hall E cfg 0 (by
    have : (0 : ℝ) < cauchyCfg.factor := by norm_num [cauchyCfg]
    have : (0 : ℝ) < 1 - cauchyCfg.factor := by norm_num [cauchyCfg]
    positivity) g1 g2 g3 g4 g6 g7
  rw [hprod] at k1 k3
  refine ⟨w', E, cfg, fun i hi => ?_⟩
  have hzi : ∀ j < 2, z j = ![1 / 2, 0] := fun j hj => hzero _ (k1 j hj).1
  obtain ⟨m, x, f1, f2, -, f4, f5, f6⟩ := k3 i hi
  refine ⟨z i, ?_, m, x, f1, f2, f4, ?_, f5.trans (min_le_left _ _)⟩
  · have := h5.dehomogenizes (z i)
    rw [hzi i hi] at this ⊢
    rw [this]
    simp
  · rw [f6, Finset.filter_true_of_mem]
    · simp
    · intro j hj
      rw [hzi i hi, hzi j (by simpa using hj)]

end

end B2.Alg.Htp
