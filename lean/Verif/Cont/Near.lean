import Verif.Cont.Gamma
import Verif.Cont.Puiseux

/-!
# The straight-line homotopy at complex times near 0
-/

namespace B2.Cont

open MvPolynomial B2.Predict Set

variable {n : ℕ} {F G : Fin n → MvPolynomial (Fin (n + 1)) ℂ} {v : Fin (n + 1) → ℂ} {γ : ℂ} {d : Fin n → ℕ}

/-- The zeros of the homogeneous polynomials at all nonzero complex times near 0 are nonsingular. -/
theorem isolated_bad (hF : ∀ i, (F i).IsHomogeneous (d i)) (hG : ∀ i, (G i).IsHomogeneous (d i))
    (hs : ∀ x, x ≠ 0 → (∀ i, eval x (G i) = 0) → (jacM F G v 0 x).det ≠ 0) (hγ : γ ≠ 0) :
    ∃ ρ : ℝ, 0 < ρ ∧ ∀ s : ℂ, s ≠ 0 → ‖s‖ ≤ ρ → ∀ x : Fin (n + 1) → ℂ, x ≠ 0 →
      (∀ i, (1 - s) * eval x (F i) + γ * s * eval x (G i) = 0) → (jacM F G v ((1 - s) / (γ * s)) x).det ≠ 0 := by
  have hfin := bad_finite hF hG hs
  set S := {u : ℂ | ∃ x, x ≠ 0 ∧ (∀ i, eval x (G i) + u * eval x (F i) = 0) ∧ (jacM F G v u x).det = 0}
    with hS
  have hfin2 : ((fun u : ℂ => (1 + γ * u)⁻¹) '' S \ {0}).Finite := (hfin.image _).sdiff
  obtain ⟨ρ, hρ, hball⟩ := Metric.isOpen_iff.1 hfin2.isClosed.isOpen_compl 0 (by simp)
  refine ⟨ρ / 2, half_pos hρ, fun s h0 h1 x hx hz hdet => ?_⟩
  have hgs : γ * s ≠ 0 := mul_ne_zero hγ h0
  refine hball (a := s) ?_ ⟨⟨(1 - s) / (γ * s), ⟨x, hx, fun i => ?_, hdet⟩, ?_⟩, h0⟩
  · rw [mem_ball_zero_iff]; linarith
  · have := hz i
    field_simp
    linear_combination this
  · have h2 : 1 + γ * ((1 - s) / (γ * s)) = s⁻¹ := by
      field_simp
      ring
    show (1 + γ * ((1 - s) / (γ * s)))⁻¹ = s
    rw [h2, inv_inv]

/-- `bounded_of_patch` over a compact set of complex times. -/
theorem bounded_on (hF : ∀ i, (F i).IsHomogeneous (d i)) (hG : ∀ i, (G i).IsHomogeneous (d i)) {D : Set ℂ} (hD : IsCompact D)
    (h : ∀ (x : Fin (n + 1) → ℂ) (s : ℂ), s ∈ D → x ≠ 0 →
      (∀ i, (1 - s) * eval x (F i) + γ * s * eval x (G i) = 0) → v ⬝ᵥ x ≠ 0) :
    ∃ R, ∀ (x : Fin (n + 1) → ℂ) (s : ℂ), s ∈ D → line F G v γ (x, s) = 0 → ‖x‖ ≤ R := by
  let K : Set ((Fin (n + 1) → ℂ) × ℂ) := {q | q ∈ Metric.sphere (0 : Fin (n + 1) → ℂ) 1 ×ˢ D ∧
    ∀ i, (1 - q.2) * eval q.1 (F i) + γ * q.2 * eval q.1 (G i) = 0}
  have hpc : ∀ p : MvPolynomial (Fin (n + 1)) ℂ,
      Continuous fun q : (Fin (n + 1) → ℂ) × ℂ => eval q.1 p := fun p =>
    (continuous_iff_continuousAt.2 fun x : Fin (n + 1) → ℂ =>
      (hasFDerivAt_eval p x).continuousAt).comp continuous_fst
  have hK : IsCompact K := by
    refine IsCompact.of_isClosed_subset ((isCompact_sphere _ _).prod hD) ?_ fun q hq => hq.1
    refine IsClosed.inter (Metric.isClosed_sphere.prod hD.isClosed) ?_
    change IsClosed {q : (Fin (n + 1) → ℂ) × ℂ | ∀ i, _ = _}
    rw [Set.setOf_forall]
    refine isClosed_iInter fun i => isClosed_eq ?_ continuous_const
    have := hpc (F i)
    have := hpc (G i)
    fun_prop
  have hcont : Continuous fun q : (Fin (n + 1) → ℂ) × ℂ => ‖v ⬝ᵥ q.1‖ := by
    simp only [dotProduct]
    fun_prop
  have hone : ∀ (x : Fin (n + 1) → ℂ) (s : ℂ), s ∈ D → line F G v γ (x, s) = 0 →
      ((‖x‖⁻¹ : ℂ) • x, s) ∈ K ∧ ‖v ⬝ᵥ ((‖x‖⁻¹ : ℂ) • x)‖ = ‖x‖⁻¹ := by
    intro x s hs hx
    obtain ⟨h1, h2⟩ := line_zero.1 hx
    have hx0 : x ≠ 0 := by rintro rfl; simp at h2
    refine ⟨⟨⟨?_, hs⟩, fun i => ?_⟩, ?_⟩
    · simp [norm_smul, norm_ne_zero_iff.2 hx0]
    · simp only
      rw [eval_smul_homogeneous (hF i), eval_smul_homogeneous (hG i)]
      linear_combination ((‖x‖⁻¹ : ℂ)) ^ d i * h1 i
    · rw [dotProduct_smul, h2]
      simp
  rcases K.eq_empty_or_nonempty with hE | hne
  · refine ⟨0, fun x s hs hx => ?_⟩
    have := (hone x s hs hx).1
    rw [hE] at this
    exact this.elim
  obtain ⟨q, hq, hmin⟩ := hK.exists_isMinOn hne hcont.continuousOn
  have hm : 0 < ‖v ⬝ᵥ q.1‖ := by
    rw [norm_pos_iff]
    refine h q.1 q.2 hq.1.2 ?_ hq.2
    intro h0
    have := hq.1.1
    rw [h0] at this
    simp at this
  refine ⟨‖v ⬝ᵥ q.1‖⁻¹, fun x s hs hx => ?_⟩
  obtain ⟨h1, h2⟩ := hone x s hs hx
  have h3 : ‖v ⬝ᵥ q.1‖ ≤ ‖x‖⁻¹ := by rw [← h2]; exact hmin h1
  exact le_inv_of_le_inv₀ hm h3

/-- When the target has no zero at infinity for the patch: near time 0 the zeros on the patch are bounded, and nonsingular
except perhaps at time 0. -/
theorem line_punctured (hF : ∀ i, (F i).IsHomogeneous (d i)) (hG : ∀ i, (G i).IsHomogeneous (d i))
    (hs : ∀ x, x ≠ 0 → (∀ i, eval x (G i) = 0) → (jacM F G v 0 x).det ≠ 0) (hγ : γ ≠ 0)
    (hinf : ∀ x, x ≠ 0 → (∀ i, eval x (F i) = 0) → v ⬝ᵥ x ≠ 0) : ∃ ρ, Punctured (line F G v γ) ρ := by
  obtain ⟨ρ, hρ, h⟩ := isolated_bad hF hG hs hγ
  refine ⟨ρ, hρ, line_analytic, fun x s h0 h1 hx => ?_, ?_⟩
  · obtain ⟨h2, h3⟩ := line_zero.1 hx
    refine isUnit_jacV_line.2 (lineM_det (mul_ne_zero hγ h0) x (h s h0 h1.le x ?_ h2))
    rintro rfl
    simp at h3
  · obtain ⟨R, hR⟩ := bounded_on (v := v) (γ := γ) hF hG (isCompact_closedBall (0 : ℂ) ρ) (by
      intro x s hsD hx hz
      rw [mem_closedBall_zero_iff] at hsD
      by_cases h0 : s = 0
      · subst h0
        exact hinf x hx fun i => by simpa using hz i
      · have hgs : γ * s ≠ 0 := mul_ne_zero hγ h0
        refine dot_ne_zero hF hG hx (fun i => ?_) (h s h0 hsD x hx hz)
        refine mul_left_cancel₀ hgs ?_
        rw [mul_add, ← mul_assoc, mul_div_cancel₀ _ hgs]
        linear_combination hz i)
    exact ⟨R, fun x s h1 h2 => hR x s (mem_closedBall_zero_iff.2 h1) h2⟩

end B2.Cont
