import Verif.Alg.PropsAllSolutions
import Verif.Cont.Mult

/-!
# Property C155: in one variable the reported multiplicity is the multiplicity of the root
-/

namespace B2.Alg.Htp

open B2.Sys B2.Start B2.Cont B2.Predict B2.Track B2.Endgame Set Filter Topology

section
variable {simp : Node → Node} {w w' : World} {i0 k0 h : ℕ} {x : Var} {r : Choices}
  {H : (Fin 2 → ℂ) × ℂ → Fin 2 → ℂ}

/-- Two finite points on the patch with the same quotient are the same. -/
theorem patch_eq {v a b : Fin 2 → ℂ} (ha : v ⬝ᵥ a = 1) (hb : v ⬝ᵥ b = 1) (ha0 : a 0 ≠ 0) (hb0 : b 0 ≠ 0)
    (h : a 1 / a 0 = b 1 / b 0) : a = b := by
  have ha : v 0 * a 0 + v 1 * a 1 = 1 := by simpa [dotProduct, Fin.sum_univ_succ] using ha
  have hb : v 0 * b 0 + v 1 * b 1 = 1 := by simpa [dotProduct, Fin.sum_univ_succ] using hb
  rw [div_eq_div_iff ha0 hb0] at h
  funext j
  fin_cases j
  · show a 0 = b 0
    linear_combination b 0 * ha - a 0 * hb - v 1 * h
  · show a 1 = b 1
    linear_combination b 1 * ha - a 1 * hb + v 0 * h

open Classical in
/-- **C155 (paths).** For one function in one variable, whose values are those of the polynomial `p`: the number of
paths whose limit is, dehomogenized, `a`, is the multiplicity of `a` as a root of `p`. -/
theorem C155_paths (hreg : RegularSolve simp w w' i0 k0 h [x] r H)
    (hinf : ∀ q, q ≠ 0 → (∀ j : Fin 1, H (q, 0) j.castSucc = 0) → H (q, 0) (Fin.last 1) ≠ -1)
    {z : ℕ → Fin 2 → ℂ} (hz : ∀ i < (degsOf w i0 [x]).prod, ∃ y, OpenPath H y ∧
      IsStart w w' i0 k0 [x] r i (y 1) ∧ Tendsto y (𝓝[>] 0) (𝓝 (z i)))
    {p : Polynomial ℂ} (hf : ComputesFun simp w i0 1 fun y _ => p.eval (y 0)) (a : ℂ) :
    ((Finset.range (degsOf w i0 [x]).prod).filter fun i => z i 0 ≠ 0 ∧
      (w'.objs h).vs.dehomogenize (List.ofFn (z i)) = some [a]).card = p.rootMultiplicity a := by
  have hone : (1 : ℝ) ∈ Ioc (0 : ℝ) 1 := ⟨one_pos, le_rfl⟩
  obtain ⟨F, G, c, hF, hG, hH, hc⟩ := hreg.form
  obtain ⟨hlen, hpos⟩ := hreg.degrees
  obtain ⟨d, hd⟩ : ∃ d, degsOf w i0 [x] = [d] := List.length_eq_one_iff.1 hlen
  have hd0 : 0 < d := hpos d (by rw [hd]; simp)
  have hprod : (degsOf w i0 [x]).prod = d := by rw [hd]; simp
  have hF' : ∀ j : Fin 1, (F j).IsHomogeneous d := by
    intro j
    obtain rfl : j = 0 := Subsingleton.elim (α := Fin 1) _ _
    have := hF 0
    rwa [hd] at this
  have hG' : ∀ j : Fin 1, (G j).IsHomogeneous d := by
    intro j
    obtain rfl : j = 0 := Subsingleton.elim (α := Fin 1) _ _
    have := hG 0
    rwa [hd] at this
  have hH' : H = line (n := 1) F G (fun j => r.coef 0 j) c := hH
  have haff : affine F = fun y _ => p.eval (y 0) := ComputesFun.unique hc hf
  rw [hprod] at hz ⊢
  choose! y hy hs hlim using hz
  have hmain := paths_rootMultiplicity (F := F) (G := G) (v := fun j => r.coef 0 j) (γ := c) hF' hG' hd0
    (fun q h1 h2 => by
      by_contra hq
      refine hinf q hq (fun j => ?_) ?_
      · obtain rfl : j = 0 := Subsingleton.elim (α := Fin 1) _ _
        rw [hH']
        simp only [line, Fin.lastCases_castSucc]
        rw [h1]
        ring
      · rw [hH]
        simp only [line, Fin.lastCases_last]
        have h2 : (fun j : Fin 2 => r.coef 0 j) ⬝ᵥ q = 0 := h2
        exact (sub_eq_neg_self.2 h2))
    (y := fun i : Fin d => y i) (l := fun i : Fin d => z i)
    (fun s hs' i => by rw [← hH']; exact (hy i i.2).zero s hs')
    (fun s hs' i j he => by
      have h1 := hreg.disjoint _ _ (hy i i.2) (hy j j.2) s hs' he 1 hone
      have h2 := hs i i.2
      rw [h1] at h2
      exact Fin.ext (hreg.distinct _ _ _ h2 (hs j j.2)))
    (fun i => hlim i i.2) (p := p) (fun t => by
      have := congrFun (congrFun haff fun _ => t) 0
      simp only [affine] at this
      rw [← this]
      congr 2
      funext j
      fin_cases j <;> rfl) a
  rw [← hmain]
  refine Finset.card_bij' (fun i hi => ⟨i, by simpa using (Finset.mem_filter.1 hi).1⟩) (fun i _ => i.1) ?_ ?_ ?_ ?_
  · intro i hi
    simp only [Finset.mem_filter] at hi ⊢
    refine ⟨Finset.mem_univ _, hi.2.1, ?_⟩
    have := hi.2.2
    rw [hreg.dehomogenizes] at this
    simpa using this
  · intro i hi
    simp only [Finset.mem_filter, Finset.mem_range] at hi ⊢
    refine ⟨i.2, hi.2.1, ?_⟩
    rw [hreg.dehomogenizes]
    simpa using hi.2.2
  · intro i hi; rfl
  · intro i hi; rfl

open Classical in
/-- **C155.** For one function in one variable, whose values are those of the polynomial `p`: under the assumptions of
C153, every root `a` of `p` is, dehomogenized, the limit of as many paths as its multiplicity. Each of them is
reported as a success, within `ε` of that limit, and the multiplicity reported is the multiplicity of `a`. -/
theorem C155 (hreg : RegularSolve simp w w' i0 k0 h [x] r H)
    (hinf : ∀ q, q ≠ 0 → (∀ j : Fin 1, H (q, 0) j.castSucc = 0) → H (q, 0) (Fin.last 1) ≠ -1)
    (T : Table) (tol : ℝ) (ht : 0 < tol) (ecfg : CCfg) (hn : 3 ≤ ecfg.n) (hf0 : 0 < ecfg.factor)
    (hf1 : ecfg.factor < 1) (htt : 0 < ecfg.trackTol) (hfs : (degsOf w i0 [x]).prod ≤ ecfg.failsafe) (htol : 0 < ecfg.finalTol)
    (hcut : 0 < ecfg.cycleCutoff) (hrat : 0 < ecfg.ratioCutoff)
    {p : Polynomial ℂ} (hf : ComputesFun simp w i0 1 fun y _ => p.eval (y 0)) :
    ∃ bound > 0, ∀ post ε : ℝ, post ≤ bound → 0 < ε → 2 * √2 * ε < post → ∃ ρ > 0,
      ∀ te : ℝ, 0 < te → te < ρ → ∃ mid > 0, ∀ δ : ℝ, 0 < δ → δ ≤ ecfg.finalTol / 8 → ∃ hm > 0, ∃ η > 0,
      ∀ (E : ZEnv 2) (cfg : ZCfg) (minTrack : ℝ),
      minTrack ≤ te * ecfg.factor ^ (ecfg.n - 1) * (1 - ecfg.factor) ^ ecfg.needed →
      (∀ i < (degsOf w i0 [x]).prod, IsStart w w' i0 k0 [x] r i (E.start i)) →
      FineTracker H T E (degsOf w i0 [x]).prod tol hm η te →
      CauchyEndgame H E { ecfg with minTrack := minTrack } te δ →
      cfg.newtonBefore = tol → cfg.midTol ≤ mid → cfg.postTol = post →
      let N := (degsOf w i0 [x]).prod
      let s := solve N E cfg (ZSt.init 2)
      ∃ z : ℕ → Fin 2 → ℂ, ∀ a, p.eval a = 0 →
        let ends := (Finset.range N).filter fun i => z i 0 ≠ 0 ∧
          (w'.objs h).vs.dehomogenize (List.ofFn (z i)) = some [a]
        ends.card = p.rootMultiplicity a ∧
        ∀ i ∈ ends, ∃ m q, s.md[i]? = some m ∧ s.sols[i]? = some q ∧ m.post = .success ∧ ‖q - z i‖ ≤ ε ∧
          m.mult = p.rootMultiplicity a := by
  obtain ⟨bound, hb, hmain⟩ := C154 hreg hinf T tol ht ecfg hn hf0 hf1 htt hfs htol hcut hrat
  refine ⟨bound, hb, fun post ε h1 h2 h3 => ?_⟩
  obtain ⟨ρ, hρ, hmain⟩ := hmain post ε h1 h2 (by
    have : (([x].length + 1 : ℕ) : ℝ) = 2 := by norm_num
    rwa [this])
  refine ⟨ρ, hρ, fun te h4 h5 => ?_⟩
  obtain ⟨mid, hmid, hmain⟩ := hmain te h4 h5
  refine ⟨mid, hmid, fun δ h6 h7 => ?_⟩
  obtain ⟨hm, hhm, η, hη, hmain⟩ := hmain δ h6 h7
  refine ⟨hm, hhm, η, hη, fun E cfg mt h8 h9 h10 h11 h12 h13 h14 => ?_⟩
  obtain ⟨z, k1, -, k3⟩ := hmain E cfg mt h8 h9 h10 h11 h12 h13 h14
  have hcard := C155_paths hreg hinf (z := z) (fun i hi => by
    obtain ⟨-, Y, a, b, c⟩ := k1 i hi
    exact ⟨Y, a, by rw [b]; exact h9 i hi, c⟩) hf
  refine ⟨z, fun a ha => ⟨hcard a, fun i hi => ?_⟩⟩
  have hi' := hi
  rw [Finset.mem_filter, Finset.mem_range] at hi
  obtain ⟨m, q, f1, f2, -, f4, f5, f6⟩ := k3 i hi.1
  refine ⟨m, q, f1, f2, f4, f5, ?_⟩
  rw [f6, ← hcard a]
  congr 2
  refine Finset.filter_congr fun j hj => ?_
  constructor
  · intro he
    rw [he]
    exact hi.2
  · rintro ⟨e1, e2⟩
    obtain ⟨F, G, c, -, -, hH, -⟩ := hreg.form
    have hv : ∀ j, j < (degsOf w i0 [x]).prod → (fun j : Fin 2 => r.coef 0 j) ⬝ᵥ z j = 1 := by
      intro j hj
      have := (k1 j hj).1
      rw [hH] at this
      exact (line_zero.1 this).2
    have e3 := hi.2.2
    rw [hreg.dehomogenizes, Option.some.injEq] at e2 e3
    refine patch_eq (hv j (by simpa using hj)) (hv i hi.1) e1 hi.2.1 ?_
    have e2 : z j 1 / z j 0 = a := by simpa using e2
    have e3 : z i 1 / z i 0 = a := by simpa using e3
    rw [e2, e3]

/-- For `x^2` (see the case of C154 for tracker, endgame and settings): the homotopy is regular, without zeros at
infinity for the patch, and the polynomial is `X^2`, of which 0 is a double root. -/
example (simp : Node → Node) : ∃ (γ : ℚ × ℚ) (w' : World) (H : (Fin 2 → ℂ) × ℂ → Fin 2 → ℂ),
    systemSetup simp (choices γ) 9 0 1 2 3 4 5 (ww sq0) = some w' ∧
    RegularSolve simp (ww sq0) w' 0 1 5 [0] (choices (0, 0)) H ∧
    (∀ q, q ≠ 0 → (∀ j : Fin 1, H (q, 0) j.castSucc = 0) → H (q, 0) (Fin.last 1) ≠ -1) ∧
    ComputesFun simp (ww sq0) 0 1 (fun y _ => (Polynomial.X ^ 2 : Polynomial ℂ).eval (y 0)) ∧
    (Polynomial.X ^ 2 : Polynomial ℂ).rootMultiplicity 0 = 2 := by
  obtain ⟨γ, w', H, h1, -, h5, hz0⟩ := sq0_regular simp
  refine ⟨γ, w', H, h1, h5, fun q hq hj hc => ?_, ?_, ?_⟩
  · have e1 := hj 0
    rw [hz0] at e1 hc
    have e1 : q 1 ^ 2 = 0 := e1
    have e2 : 2 * q 0 + q 1 - 1 = -1 := hc
    have e4 : q 1 = 0 := pow_eq_zero_iff two_ne_zero |>.1 e1
    have e3 : q 0 = 0 := by linear_combination e2 / 2 - e4 / 2
    apply hq
    ext j
    fin_cases j
    · exact e3
    · exact e4
  · have := computes_sq0 simp
    simpa using this
  · have := Polynomial.rootMultiplicity_X_sub_C_pow (0 : ℂ) 2
    simpa using this

end

end B2.Alg.Htp
