import Verif.Alg.PropsMultiplicity

/-!
# Property C156: almost all random choices are good

When the homogenized target has finitely many zeros, the assumptions on random choices made in C147 to C155 hold for
all patches outside finitely many hyperplanes and all `γ` off finitely many rays.
-/

namespace B2.Alg.Htp

open B2.Sys B2.Start B2.Cont B2.Predict B2.Track B2.Endgame Set Filter Topology

/-- A homogenization is determined by the function and the degree. -/
theorem affine_inj {n : ℕ} {F F' : Fin n → MvPolynomial (Fin (n + 1)) ℂ} {d : Fin n → ℕ}
    (hF : ∀ j, (F j).IsHomogeneous (d j)) (hF' : ∀ j, (F' j).IsHomogeneous (d j)) (h : affine F = affine F') : F = F' := by
  funext j
  have hz : (F j - F' j) * MvPolynomial.X 0 = 0 := by
    apply MvPolynomial.funext
    intro x
    simp only [map_mul, map_sub, MvPolynomial.eval_X, map_zero]
    by_cases h0 : x 0 = 0
    · rw [h0, mul_zero]
    have hx : x = x 0 • (Fin.cons 1 (fun k => x k.succ / x 0) : Fin (n + 1) → ℂ) := by
      funext k
      refine Fin.cases ?_ (fun k => ?_) k
      · simp
      · simp [mul_div_cancel₀ _ h0]
    have h1 := congrFun (congrFun h fun k => x k.succ / x 0) j
    simp only [affine] at h1
    rw [hx, eval_smul_homogeneous (hF j), eval_smul_homogeneous (hF' j), h1, sub_self, zero_mul]
  exact sub_eq_zero.1 ((mul_eq_zero.1 hz).resolve_right (MvPolynomial.X_ne_zero _))

/-- **C156.** For a square system of polynomials in one variable group, made by any history of evaluation-safe
operations, not constant, whose homogenization `F` has only finitely many zeros up to multiples, and nonzero constants
of the start system: there are finitely many nonzero vectors such that for every patch orthogonal to none of them there
are finitely many rays such that for every `γ` on none of them the setup succeeds, evaluating the homotopy is a
function, and this has everything wanted of `RegularSolve`, without zeros of the target at infinity for the patch. -/
theorem C156 (simp : Node → Node) (ops : List SysOp) (w : World)
    (hsafe : SafeRun simp ops World.init) (hrun : run simp ops World.init = some w)
    (r : Choices) (t : Var) (i k a b c h : ℕ) (hist : List (Op Var)) (g : List Var)
    (hd : [i, k, a, b, c, h].Nodup) (ht : t ∉ r.fresh 0 :: g) (hs : SquareTarget w i hist r.fresh g)
    (hg : g ≠ []) (hdeg : ∀ n ∈ w.roots (w.objs i), 0 < degG w.vals g n) (hconst : ∀ j < g.length, ratValue (r.rand j) ≠ 0)
    {F : Fin g.length → MvPolynomial (Fin (g.length + 1)) ℂ}
    (hF : ∀ j : Fin g.length, (F j).IsHomogeneous ((degsOf w i g).getD j 0))
    (hf : ComputesFun simp w i g.length (affine F)) {Z : Set (Fin (g.length + 1) → ℂ)} (hfin : Z.Finite)
    (hZ0 : ∀ ζ ∈ Z, ζ ≠ 0)
    (hZ : ∀ x, x ≠ 0 → (∀ j, MvPolynomial.eval x (F j) = 0) → ∃ ζ ∈ Z, ∃ c : ℂ, x = c • ζ) :
    ∃ Z' : Set (Fin (g.length + 1) → ℂ), Z'.Finite ∧ (∀ ζ ∈ Z', ζ ≠ 0) ∧ ∀ coef : ℕ → ℕ → ℂ,
      (∀ ζ ∈ Z', (fun j : Fin (g.length + 1) => coef 0 j) ⬝ᵥ ζ ≠ 0) →
      Generic w i g { r with coef := coef } ∧
      ∃ B : Finset ℂ, (∀ β ∈ B, β ≠ 0) ∧ ∀ γ : ℚ × ℚ, gammaVal γ ≠ 0 →
        (∀ β ∈ B, ∀ ρ : ℝ, 0 < ρ → gammaVal γ ≠ ρ * β) →
        ∃ w' H, systemSetup simp { r with coef := coef, γ := γ } t i k a b c h w = some w' ∧
          Computes simp w' h (g.length + 1) H ∧ RegularSolve simp w w' i k h g { r with coef := coef } H ∧
          ∀ x, x ≠ 0 → (∀ j : Fin g.length, H (x, 0) j.castSucc = 0) → H (x, 0) (Fin.last _) ≠ -1 := by
  set S : Set (Fin g.length → ℂ) := {ζ | ∀ j : Fin g.length, ζ j ^ (degsOf w i g).getD j 0 = ratValue (r.rand j)} with hS
  have hlen : (degsOf w i g).length = g.length := by simp [degsOf, World.roots, hs.square]
  have hpos : ∀ j : Fin g.length, 0 < (degsOf w i g).getD j 0 := by
    intro j
    have hj : j.1 < (degsOf w i g).length := by rw [hlen]; exact j.2
    have h1 : (degsOf w i g).getD j 0 ∈ degsOf w i g := by
      simp only [List.getD, List.getElem?_eq_getElem hj, Option.getD_some]
      exact List.getElem_mem _
    obtain ⟨n, h2, h3⟩ := List.mem_map.1 h1
    have := hdeg n h2
    omega
  have hSfin : S.Finite := by
    have : S = Set.pi Set.univ fun j : Fin g.length => {u : ℂ | u ^ (degsOf w i g).getD j 0 = ratValue (r.rand j)} := by
      ext ζ
      simp [hS, Set.mem_pi]
    rw [this]
    refine Set.Finite.pi fun j => ?_
    refine Set.Finite.subset (Polynomial.nthRoots ((degsOf w i g).getD j 0) (ratValue (r.rand j))).toFinset.finite_toSet ?_
    intro u hu
    simp only [Finset.mem_coe, Multiset.mem_toFinset]
    exact (Polynomial.mem_nthRoots (hpos j)).2 hu
  refine ⟨Z ∪ (fun ζ : Fin g.length → ℂ => (Fin.cons 1 ζ : Fin (g.length + 1) → ℂ)) '' S, hfin.union (hSfin.image _), ?_, ?_⟩
  · rintro ζ (hζ | ⟨ζ, hζ, rfl⟩)
    · exact hZ0 ζ hζ
    · intro hc
      have := congrFun hc 0
      simp at this
  · intro coef hcoef
    have hgen : Generic w i g { r with coef := coef } := by
      refine ⟨hg, hdeg, hconst, fun ζ hζ => ?_⟩
      rw [dot_cons_ofFn]
      exact hcoef _ (Or.inr ⟨ζ, hζ, rfl⟩)
    refine ⟨hgen, ?_⟩
    obtain ⟨B, hB, hall⟩ := C147 simp ops w hsafe hrun { r with coef := coef } t i k a b c h hist g hd ht hs hgen
    refine ⟨B, hB, fun γ h1 h2 => ?_⟩
    obtain ⟨w', H, h3, h4, h5⟩ := hall γ h1 h2
    refine ⟨w', H, h3, h4, h5, fun x hx hz hc => ?_⟩
    obtain ⟨F', G, e, g1, g2, g3, g4⟩ := h5.form
    obtain rfl : F' = F := affine_inj g1 hF (g4.unique hf)
    obtain ⟨ζ, hζ, u, rfl⟩ := hZ x hx fun j => by
      have := hz j
      rw [g3] at this
      simpa [line] using this
    rw [g3] at hc
    simp only [line, Fin.lastCases_last, dotProduct_smul, smul_eq_mul, sub_eq_neg_self, mul_eq_zero] at hc
    rcases hc with rfl | hc
    · exact hx (zero_smul _ _)
    · exact hcoef ζ (Or.inl hζ) hc

/-- C156 for `x^2`: the only zero of the homogenization is `(1, 0)`. -/
example (simp : Node → Node) : ∃ Z' : Set (Fin 2 → ℂ), Z'.Finite ∧ (∀ ζ ∈ Z', ζ ≠ 0) ∧ ∀ coef : ℕ → ℕ → ℂ,
    (∀ ζ ∈ Z', (fun j : Fin 2 => coef 0 j) ⬝ᵥ ζ ≠ 0) →
    ∃ γ w' H, systemSetup simp { choices (0, 0) with coef := coef, γ := γ } 9 0 1 2 3 4 5 (ww sq0) = some w' ∧
      RegularSolve simp (ww sq0) w' 0 1 5 [0] { choices (0, 0) with coef := coef } H := by
  obtain ⟨Z', h1, h2, h3⟩ := C156 simp _ (ww sq0) (by simp [SafeRun, Safe]) (run_ww simp sq0) (choices (0, 0)) 9
    0 1 2 3 4 5 _ [0] (by simp) (by simp [choices]) squareTarget_sq0 (by simp) (generic_sq0 (0, 0)).degrees
    (generic_sq0 (0, 0)).constants (F := fun _ => MvPolynomial.X 1 ^ 2)
    (fun j => by
      obtain rfl : j = 0 := Subsingleton.elim (α := Fin 1) _ _
      rw [degsOf_sq0]
      exact MvPolynomial.isHomogeneous_X_pow _ _)
    (by
      have : affine (fun _ : Fin 1 => (MvPolynomial.X 1 ^ 2 : MvPolynomial (Fin 2) ℂ)) = fun y _ => y 0 ^ 2 := by
        funext y j
        simp [affine]
      have h2 := computes_sq0 simp
      rw [← this] at h2
      exact h2) (Z := {![1, 0]}) (Set.finite_singleton _) (by
      intro ζ hζ hc
      rw [Set.mem_singleton_iff] at hζ
      rw [hζ] at hc
      have := congrFun hc 0
      simp at this) (by
      intro x _ hx
      have h0 : x 1 = 0 := by
        have := hx 0
        simpa using this
      refine ⟨_, rfl, x 0, ?_⟩
      funext j
      have hj : j = 0 ∨ j = 1 := by fin_cases j <;> simp
      rcases hj with rfl | rfl
      · simp
      · simpa using h0)
  refine ⟨Z', h1, h2, fun coef hc => ?_⟩
  obtain ⟨-, B, -, hB⟩ := h3 coef hc
  obtain ⟨γ, e1, e2⟩ := exists_gamma B
  obtain ⟨w', H, e3, -, e5, -⟩ := hB γ e1 e2
  exact ⟨γ, w', H, e3, e5⟩

end B2.Alg.Htp
