import Verif.Alg.PropsAllSolutions
import Verif.Cont.Perturb

/-!
# Property C157: what a reported multiplicity means

The multiplicity reported for a solution is the number of solutions that the system has near it after a small change of
its coefficients. In particular it does not depend on the random choices of the solve.
-/

namespace B2.Alg.Htp

open B2.Sys B2.Start B2.Cont B2.Predict B2.Track B2.Endgame Set Filter Topology

/-- The functions `f` changed by `ε` times polynomials `g`. -/
noncomputable def perturb {n : ℕ} (f : (Fin n → ℂ) → Fin n → ℂ) (g : Fin n → MvPolynomial (Fin n) ℂ) (ε : ℂ)
    (y : Fin n → ℂ) : Fin n → ℂ := fun j => f y j + ε * MvPolynomial.eval y (g j)

/-- The multiplicity of a solution `a` of `f`: `m` is the number of solutions near `a` after a small change of
coefficients that makes the solutions near `a` nonsingular. In detail, for all small enough `ρ`: when `f` is changed by a
small enough multiple of polynomials, of degrees at most `d`, and all solutions in the ball around `a` of radius `ρ` are
then nonsingular, there are `m` solutions in that ball. -/
def HasMultiplicity {n : ℕ} (d : Fin n → ℕ) (f : (Fin n → ℂ) → Fin n → ℂ) (a : Fin n → ℂ) (m : ℕ) : Prop :=
  ∃ ρ₀ > 0, ∀ ρ, 0 < ρ → ρ ≤ ρ₀ → ∀ p : Fin n → MvPolynomial (Fin n) ℂ, (∀ j, (p j).totalDegree ≤ d j) →
    ∀ᶠ ε in 𝓝 (0 : ℂ),
      (∀ b ∈ Metric.ball a ρ, perturb f p ε b = 0 → IsUnit (fderiv ℂ (perturb f p ε) b)) →
      {b | b ∈ Metric.ball a ρ ∧ perturb f p ε b = 0}.Finite ∧
      {b | b ∈ Metric.ball a ρ ∧ perturb f p ε b = 0}.ncard = m

section
variable {simp : Node → Node} {w w' : World} {i0 k0 h : ℕ} {g : List Var} {r : Choices}
  {H : (Fin (g.length + 1) → ℂ) × ℂ → Fin (g.length + 1) → ℂ}

/-- **C157 (such changes exist).** There are polynomials, of at most the degrees of the user's functions, such that adding
any small multiple, not 0, of them makes all solutions nonsingular. -/
theorem C157_exists (hreg : RegularSolve simp w w' i0 k0 h g r H)
    (hinf : ∀ x, x ≠ 0 → (∀ j : Fin g.length, H (x, 0) j.castSucc = 0) → H (x, 0) (Fin.last _) ≠ -1)
    {f : (Fin g.length → ℂ) → Fin g.length → ℂ} (hf : ComputesFun simp w i0 g.length f) :
    ∃ p : Fin g.length → MvPolynomial (Fin g.length) ℂ, (∀ j, (p j).totalDegree ≤ (degsOf w i0 g).getD j 0) ∧
      ∀ᶠ ε in 𝓝[≠] (0 : ℂ), ∀ b, perturb f p ε b = 0 → IsUnit (fderiv ℂ (perturb f p ε) b) := by
  obtain ⟨F, G, c, hF, hG, hH, hc⟩ := hreg.form
  obtain rfl : f = affine F := ComputesFun.unique hf hc
  have hinf' : ∀ x, (∀ i, MvPolynomial.eval x (F i) = 0) → (fun j : Fin (g.length + 1) => r.coef 0 j) ⬝ᵥ x = 0 → x = 0 := by
    intro x h1 h2
    by_contra hx
    refine hinf x hx (fun j => ?_) ?_
    · rw [hH]; simp [line, h1 j]
    · rw [hH]; simp [line, h2]
  refine ⟨fun j => affPoly (G j), fun j => totalDegree_affPoly (hG j), ?_⟩
  have hfin := regular_perturbation hF hG hinf' (γ := c) (by rw [← hH]; exact hreg.nonsingular)
  have hev : ∀ ε, perturb (affine F) (fun j => affPoly (G j)) ε = fun b => family F G (b, ε) := by
    intro ε
    funext b j
    simp [perturb, family, affine, eval_affPoly]
  have hev2 : ∀ᶠ ε in 𝓝[≠] (0 : ℂ), ε ∉ {ε : ℂ | ∃ b, family F G (b, ε) = 0 ∧
      ¬ IsUnit (fderiv ℂ (fun b => family F G (b, ε)) b)} \ {0} :=
    (hfin.subset diff_subset).isClosed.isOpen_compl.mem_nhds (fun h => h.2 rfl) |> mem_nhdsWithin_of_mem_nhds
  filter_upwards [hev2, self_mem_nhdsWithin] with ε h1 h2 b hb
  rw [hev] at hb ⊢
  by_contra hu
  exact h1 ⟨⟨b, hb, hu⟩, h2⟩

open Classical in
/-- **C157 (paths).** Let the homotopy be regular, with no zero of the target at infinity for the patch, and let `z i` be
the limit of the path through start point `i`. The multiplicity of a solution `a` of the user's system is the number of
paths to `a`. -/
theorem C157_paths (hreg : RegularSolve simp w w' i0 k0 h g r H)
    (hinf : ∀ x, x ≠ 0 → (∀ j : Fin g.length, H (x, 0) j.castSucc = 0) → H (x, 0) (Fin.last _) ≠ -1)
    {z : ℕ → Fin (g.length + 1) → ℂ} (hz : ∀ i < (degsOf w i0 g).prod, ∃ y, OpenPath H y ∧
      IsStart w w' i0 k0 g r i (y 1) ∧ Tendsto y (𝓝[>] 0) (𝓝 (z i)))
    {f : (Fin g.length → ℂ) → Fin g.length → ℂ} (hf : ComputesFun simp w i0 g.length f) (a : Fin g.length → ℂ) :
    HasMultiplicity (fun j => (degsOf w i0 g).getD j 0) f a
      ((Finset.range (degsOf w i0 g).prod).filter fun i => z i 0 ≠ 0 ∧
        (w'.objs h).vs.dehomogenize (List.ofFn (z i)) = some (List.ofFn a)).card := by
  have hone : (1 : ℝ) ∈ Ioc (0 : ℝ) 1 := ⟨one_pos, le_rfl⟩
  have hfinite := (C154_bound hreg hinf hf).1
  obtain ⟨F, G, c, hF, hG, hH, hc⟩ := hreg.form
  obtain rfl : f = affine F := ComputesFun.unique hf hc
  set v : Fin (g.length + 1) → ℂ := fun j => r.coef 0 j with hv
  have hinf' : ∀ x, (∀ i, MvPolynomial.eval x (F i) = 0) → v ⬝ᵥ x = 0 → x = 0 := by
    intro x h1 h2
    by_contra hx
    refine hinf x hx (fun j => ?_) ?_
    · rw [hH]; simp [line, h1 j]
    · rw [hH]; simp [line, h2]
  -- the solution is isolated
  obtain ⟨ρ₁, hρ₁, hball⟩ := Metric.isOpen_iff.1 (hfinite.subset (diff_subset (t := {a}))).isClosed.isOpen_compl a
    (fun h => h.2 rfl)
  have hiso : ∀ ρ, ρ ≤ ρ₁ / 2 → ∀ b ∈ Metric.closedBall a ρ, affine F b = 0 → b = a := by
    intro ρ hρ b hb h0
    by_contra hne
    have : b ∈ Metric.ball a ρ₁ := by
      rw [Metric.mem_ball]
      rw [Metric.mem_closedBall] at hb
      linarith
    exact hball this ⟨h0, hne⟩
  refine ⟨ρ₁ / 2, by positivity, fun ρ hρ0 hρ p hp => ?_⟩
  choose! y hy hs hlim using hz
  set N := (degsOf w i0 g).prod with hN
  have hmain := perturbed_count (γ := c) (v := v) hF hG hinf' (ι := Fin N) (y := fun i => y i) (l := fun i => z i)
    (by rw [← hH]; exact hreg.nonsingular) (fun s hs' i => by rw [← hH]; exact (hy i i.2).zero s hs')
    (fun s hs' i j he => by
      have h1 := hreg.disjoint _ _ (hy i i.2) (hy j j.2) s hs' he 1 hone
      have h2 := hs i i.2
      rw [h1] at h2
      exact Fin.ext (hreg.distinct _ _ _ h2 (hs j j.2)))
    (fun s hs' x hx => by
      rw [← hH] at hx
      obtain ⟨Y, hY, hYs⟩ := hreg.through s hs' x hx
      have h1 := hY.zero 1 hone
      rw [Complex.ofReal_one] at h1
      obtain ⟨i, hi, hst⟩ := (hreg.starts _).1 h1
      have he : Y 1 = y i 1 := by
        have := hs i hi
        unfold IsStart at hst this
        rw [hst, Option.some.injEq] at this
        exact List.ofFn_injective this
      exact ⟨⟨i, hi⟩, by rw [← hYs]; exact (hreg.disjoint _ _ hY (hy i hi) 1 hone he s hs').symm⟩)
    (fun i => hlim i i.2) (a := a) hρ0 (hiso ρ hρ) (E := fun j => homForm ((degsOf w i0 g).getD j 0) (p j))
    (fun j => homForm_homogeneous _ _)
  have hev : ∀ ε, perturb (affine F) p ε =
      fun b => family F (fun j => homForm ((degsOf w i0 g).getD j 0) (p j)) (b, ε) := by
    intro ε
    funext b j
    have := eval_homForm (hp j) b
    simp only [perturb, family, affine, Pi.add_apply, Pi.smul_apply, smul_eq_mul]
    rw [this]
  filter_upwards [hmain] with ε hε hns
  rw [hev] at hns ⊢
  obtain ⟨h1, h2⟩ := hε hns
  refine ⟨h1, h2.trans ?_⟩
  refine Finset.card_bij' (fun i _ => i.1) (fun i hi => ⟨i, by simpa using (Finset.mem_filter.1 hi).1⟩) ?_ ?_ ?_ ?_
  · intro i hi
    simp only [Finset.mem_filter, Finset.mem_range] at hi ⊢
    refine ⟨i.2, hi.2.1, ?_⟩
    rw [hreg.dehomogenizes, ← hi.2.2]
    rfl
  · intro i hi
    simp only [Finset.mem_filter] at hi ⊢
    refine ⟨Finset.mem_univ _, hi.2.1, ?_⟩
    have := hi.2.2
    rw [hreg.dehomogenizes, Option.some.injEq] at this
    exact List.ofFn_injective this
  · intro i hi; rfl
  · intro i hi; rfl

/-- **C157 (one multiplicity).** A point has only one multiplicity. -/
theorem C157_unique (hreg : RegularSolve simp w w' i0 k0 h g r H)
    (hinf : ∀ x, x ≠ 0 → (∀ j : Fin g.length, H (x, 0) j.castSucc = 0) → H (x, 0) (Fin.last _) ≠ -1)
    {f : (Fin g.length → ℂ) → Fin g.length → ℂ} (hf : ComputesFun simp w i0 g.length f) {a : Fin g.length → ℂ}
    {m m' : ℕ} (hm : HasMultiplicity (fun j => (degsOf w i0 g).getD j 0) f a m)
    (hm' : HasMultiplicity (fun j => (degsOf w i0 g).getD j 0) f a m') : m = m' := by
  obtain ⟨p, hp, hns⟩ := C157_exists hreg hinf hf
  obtain ⟨ρ, hρ, h1⟩ := hm
  obtain ⟨ρ', hρ', h2⟩ := hm'
  have h1 := h1 (min ρ ρ') (lt_min hρ hρ') (min_le_left _ _) p hp
  have h2 := h2 (min ρ ρ') (lt_min hρ hρ') (min_le_right _ _) p hp
  obtain ⟨ε, k1, k2, k3⟩ := (hns.and ((h1.filter_mono nhdsWithin_le_nhds).and
    (h2.filter_mono nhdsWithin_le_nhds))).exists
  rw [← (k2 fun b _ => k1 b).2, ← (k3 fun b _ => k1 b).2]

open Classical in
/-- **C157.** A whole solve with the Cauchy endgame reports the multiplicity. Under the assumptions of C153: for every
solution `a` of the user's system there are paths whose limit is, dehomogenized, `a`. Each of them is reported as a
success, within `ε` of that limit, and the multiplicity reported is the multiplicity of `a`, however the random choices
of the solve were made. -/
theorem C157 (hreg : RegularSolve simp w w' i0 k0 h g r H)
    (hinf : ∀ x, x ≠ 0 → (∀ j : Fin g.length, H (x, 0) j.castSucc = 0) → H (x, 0) (Fin.last _) ≠ -1)
    (T : Table) (tol : ℝ) (ht : 0 < tol) (ecfg : CCfg) (hn : 3 ≤ ecfg.n) (hf0 : 0 < ecfg.factor)
    (hf1 : ecfg.factor < 1) (htt : 0 < ecfg.trackTol) (hfs : (degsOf w i0 g).prod ≤ ecfg.failsafe) (htol : 0 < ecfg.finalTol)
    (hcut : 0 < ecfg.cycleCutoff) (hrat : 0 < ecfg.ratioCutoff)
    {f : (Fin g.length → ℂ) → Fin g.length → ℂ} (hf : ComputesFun simp w i0 g.length f) :
    ∃ bound > 0, ∀ post ε : ℝ, post ≤ bound → 0 < ε → 2 * √(g.length + 1 : ℕ) * ε < post → ∃ ρ > 0,
      ∀ te : ℝ, 0 < te → te < ρ → ∃ mid > 0, ∀ δ : ℝ, 0 < δ → δ ≤ ecfg.finalTol / 8 → ∃ hm > 0, ∃ η > 0,
      ∀ (E : ZEnv (g.length + 1)) (cfg : ZCfg) (minTrack : ℝ),
      minTrack ≤ te * ecfg.factor ^ (ecfg.n - 1) * (1 - ecfg.factor) ^ ecfg.needed →
      (∀ i < (degsOf w i0 g).prod, IsStart w w' i0 k0 g r i (E.start i)) →
      FineTracker H T E (degsOf w i0 g).prod tol hm η te →
      CauchyEndgame H E { ecfg with minTrack := minTrack } te δ →
      cfg.newtonBefore = tol → cfg.midTol ≤ mid → cfg.postTol = post →
      let N := (degsOf w i0 g).prod
      let s := solve N E cfg (ZSt.init _)
      ∃ z : ℕ → Fin (g.length + 1) → ℂ, ∀ a, f a = 0 →
        let ends := (Finset.range N).filter fun i => z i 0 ≠ 0 ∧
          (w'.objs h).vs.dehomogenize (List.ofFn (z i)) = some (List.ofFn a)
        ends.Nonempty ∧
        ∀ i ∈ ends, ∃ m x, s.md[i]? = some m ∧ s.sols[i]? = some x ∧ m.post = .success ∧ ‖x - z i‖ ≤ ε ∧
          ∀ μ : ℕ, HasMultiplicity (fun j => (degsOf w i0 g).getD j 0) f a μ ↔ m.mult = μ := by
  obtain ⟨bound, hb, hmain⟩ := C154 hreg hinf T tol ht ecfg hn hf0 hf1 htt hfs htol hcut hrat
  refine ⟨bound, hb, fun post ε h1 h2 h3 => ?_⟩
  obtain ⟨ρ, hρ, hmain⟩ := hmain post ε h1 h2 h3
  refine ⟨ρ, hρ, fun te h4 h5 => ?_⟩
  obtain ⟨mid, hmid, hmain⟩ := hmain te h4 h5
  refine ⟨mid, hmid, fun δ h6 h7 => ?_⟩
  obtain ⟨hm, hhm, η, hη, hmain⟩ := hmain δ h6 h7
  refine ⟨hm, hhm, η, hη, fun E cfg mt h8 h9 h10 h11 h12 h13 h14 => ?_⟩
  obtain ⟨z, k1, k2, k3⟩ := hmain E cfg mt h8 h9 h10 h11 h12 h13 h14
  refine ⟨z, fun a ha => ⟨?_, fun i hi => ?_⟩⟩
  · obtain ⟨i, hi, hi'⟩ := (k2 f hf a).1 ha
    exact ⟨i, Finset.mem_filter.2 ⟨Finset.mem_range.2 hi, hi'⟩⟩
  have hcard := C157_paths hreg hinf (z := z) (fun i hi => by
    obtain ⟨-, Y, a, b, c⟩ := k1 i hi
    exact ⟨Y, a, by rw [b]; exact h9 i hi, c⟩) hf a
  rw [Finset.mem_filter, Finset.mem_range] at hi
  obtain ⟨m, q, f1, f2, -, f4, f5, f6⟩ := k3 i hi.1
  refine ⟨m, q, f1, f2, f4, f5, ?_⟩
  have hset : (Finset.range (degsOf w i0 g).prod).filter (fun j => z j = z i) =
      (Finset.range (degsOf w i0 g).prod).filter fun i => z i 0 ≠ 0 ∧
        (w'.objs h).vs.dehomogenize (List.ofFn (z i)) = some (List.ofFn a) := by
    refine Finset.filter_congr fun j hj => ?_
    constructor
    · intro he
      rw [he]
      exact hi.2
    · rintro ⟨e1, e2⟩
      obtain ⟨F, G, c, -, -, hH, -⟩ := hreg.form
      have hv : ∀ j, j < (degsOf w i0 g).prod → (fun j : Fin (g.length + 1) => r.coef 0 j) ⬝ᵥ z j = 1 := by
        intro j hj
        have := (k1 j hj).1
        rw [hH] at this
        exact (line_zero.1 this).2
      have e3 := hi.2.2
      rw [hreg.dehomogenizes, Option.some.injEq] at e2 e3
      exact quot_inj e1 hi.2.1 (hv j (by simpa using hj)) (hv i hi.1)
        ((List.ofFn_injective e2).trans (List.ofFn_injective e3).symm)
  rw [hset] at f6
  intro μ
  rw [f6]
  constructor
  · intro hμ
    exact_mod_cast C157_unique hreg hinf hf hcard hμ
  · intro he
    rw [← Nat.cast_inj (R := ℤ).1 he]
    exact hcard

/-- For `x^2` (see the case of C154 for tracker, endgame and settings): the homotopy is regular, without zeros at
infinity for the patch, and 0 has multiplicity 2. -/
example (simp : Node → Node) : ∃ (γ : ℚ × ℚ) (w' : World) (H : (Fin 2 → ℂ) × ℂ → Fin 2 → ℂ),
    systemSetup simp (choices γ) 9 0 1 2 3 4 5 (ww sq0) = some w' ∧
    RegularSolve simp (ww sq0) w' 0 1 5 [0] (choices (0, 0)) H ∧
    (∀ q, q ≠ 0 → (∀ j : Fin 1, H (q, 0) j.castSucc = 0) → H (q, 0) (Fin.last 1) ≠ -1) ∧
    ComputesFun simp (ww sq0) 0 1 (fun y _ => y 0 ^ 2) ∧
    HasMultiplicity (n := 1) (fun j => (degsOf (ww sq0) 0 [0]).getD j 0) (fun y _ => y 0 ^ 2) (fun _ => 0) 2 := by
  obtain ⟨γ, w', H, h1, -, h5, hz0⟩ := sq0_regular simp
  have hinf : ∀ q : Fin 2 → ℂ, q ≠ 0 → (∀ j : Fin 1, H (q, 0) j.castSucc = 0) → H (q, 0) (Fin.last 1) ≠ -1 := by
    intro q hq hj hc
    have e1 := hj 0
    rw [hz0] at e1 hc
    have e1 : q 1 ^ 2 = 0 := e1
    have e2 : 2 * q 0 + q 1 - 1 = -1 := hc
    have e4 : q 1 = 0 := pow_eq_zero_iff two_ne_zero |>.1 e1
    have e3 : q 0 = 0 := by linear_combination e2 / 2 - e4 / 2
    apply hq
    ext j
    fin_cases j
    · exact e3
    · exact e4
  refine ⟨γ, w', H, h1, h5, hinf, computes_sq0 simp, ?_⟩
  have hone : (1 : ℝ) ∈ Ioc (0 : ℝ) 1 := ⟨one_pos, le_rfl⟩
  have hex : ∀ i, ∃ z : Fin 2 → ℂ, i < (degsOf (ww sq0) 0 [0]).prod → H (z, 0) = 0 ∧ ∃ y, OpenPath H y ∧
      IsStart (ww sq0) w' 0 1 [0] (choices (0, 0)) i (y 1) ∧ Tendsto y (𝓝[>] 0) (𝓝 z) := by
    intro i
    by_cases hi : i < (degsOf (ww sq0) 0 [0]).prod
    swap
    · exact ⟨0, fun h => absurd h hi⟩
    obtain ⟨x, hx⟩ := h5.numbered i hi
    obtain ⟨Y, hY, hY1⟩ := h5.through 1 hone x
      (by rw [Complex.ofReal_one]; exact (h5.starts x).2 ⟨i, hi, hx⟩)
    obtain ⟨z, hz', hz⟩ := h5.converges hinf hY
    exact ⟨z, fun _ => ⟨hz', Y, hY, by rwa [hY1], hz⟩⟩
  choose z hz using hex
  have hm := C157_paths (g := [0]) h5 hinf (z := z) (fun i hi => (hz i hi).2) (computes_sq0 simp) (fun _ => 0)
  rw [Finset.filter_true_of_mem, Finset.card_range, degsOf_sq0] at hm
  · rw [degsOf_sq0]
    exact hm
  · intro i hi
    have hzi := (hz i (by simpa using hi)).1
    have e1 := congrFun hzi 0
    have e2 := congrFun hzi 1
    rw [hz0] at e1 e2
    have e1 : z i 1 ^ 2 = 0 := e1
    have e2 : 2 * z i 0 + z i 1 - 1 = 0 := e2
    have e4 : z i 1 = 0 := pow_eq_zero_iff two_ne_zero |>.1 e1
    have e3 : z i 0 = 1 / 2 := by linear_combination e2 / 2 - e4 / 2
    refine ⟨by rw [e3]; norm_num, ?_⟩
    rw [h5.dehomogenizes]
    simp [e4]

end

end B2.Alg.Htp
