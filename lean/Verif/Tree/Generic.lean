import Mathlib.MeasureTheory.Topology
import Mathlib.MeasureTheory.Constructions.Pi
import Mathlib.MeasureTheory.Measure.Lebesgue.Basic
import Mathlib.Analysis.Analytic.Order
import Mathlib.Analysis.Complex.CauchyIntegral
import Mathlib.Analysis.SpecialFunctions.Complex.LogDeriv
import Mathlib.Analysis.SpecialFunctions.Complex.Log

/-!
# Entire functions at random points of the torus

`RandomUnit` returns a point of the unit circle; a property that holds for almost all angles holds with probability one for
values drawn from any distribution with a density.
-/

namespace B2.Generic

open MeasureTheory Filter Topology

/-- The point of the torus with the given angles. -/
noncomputable def onTorus {m : ℕ} (θ : Fin m → ℝ) : Fin m → ℂ := fun i => Complex.exp (θ i * Complex.I)

theorem ae_ne_one {h : ℂ → ℂ} (hh : Differentiable ℂ h) {w : ℂ} (hw : h w ≠ 0) :
    ∀ᵐ θ : ℝ, h (Complex.exp (θ * Complex.I)) ≠ 0 := by
  -- the function of a complex angle
  let g : ℂ → ℂ := fun z => h (Complex.exp (z * Complex.I))
  have hg : Differentiable ℂ g := by
    intro z
    exact (hh _).comp z (by fun_prop)
  have hgan : AnalyticOnNhd ℂ g Set.univ := fun z _ => hg.analyticAt z
  -- it is not zero everywhere
  have h1 : ∃ z, g z ≠ 0 := by
    have hev : ∀ᶠ x in 𝓝 w, h x ≠ 0 := hh.continuous.continuousAt.eventually_ne hw
    have hev' : ∀ᶠ x in 𝓝[≠] (0 : ℂ), x ≠ 0 := eventually_mem_nhdsWithin
    obtain ⟨x, hx0, hx⟩ : ∃ x : ℂ, x ≠ 0 ∧ h x ≠ 0 := by
      by_cases hw0 : w = 0
      · subst hw0
        have : ∀ᶠ x in 𝓝[≠] (0 : ℂ), h x ≠ 0 := hev.filter_mono nhdsWithin_le_nhds
        obtain ⟨x, hx⟩ := (hev'.and this).exists
        exact ⟨x, hx.1, hx.2⟩
      · exact ⟨w, hw0, hw⟩
    refine ⟨-Complex.I * Complex.log x, ?_⟩
    have : -Complex.I * Complex.log x * Complex.I = Complex.log x := by
      rw [mul_comm, ← mul_assoc, mul_neg, Complex.I_mul_I]; ring
    simp only [g, this, Complex.exp_log hx0]
    exact hx
  -- it is not zero for all real angles
  have h2 : ∃ x : ℝ, g x ≠ 0 := by
    by_contra hc
    push Not at hc
    have hfr : ∃ᶠ z in 𝓝[≠] (0 : ℂ), g z = 0 := by
      have ht : Tendsto (fun x : ℝ => (x : ℂ)) (𝓝[≠] 0) (𝓝[≠] 0) := by
        refine tendsto_nhdsWithin_iff.2 ⟨?_, ?_⟩
        · have : Tendsto (fun x : ℝ => (x : ℂ)) (𝓝 0) (𝓝 ((0 : ℝ) : ℂ)) :=
            Complex.continuous_ofReal.continuousAt
          rw [Complex.ofReal_zero] at this
          exact this.mono_left nhdsWithin_le_nhds
        · filter_upwards [self_mem_nhdsWithin] with x hx
          simpa using hx
      exact ht.frequently (Frequently.of_forall fun x => hc x)
    have := hgan.eq_of_frequently_eq (g := fun _ => 0) (fun z _ => analyticAt_const) hfr
    obtain ⟨z, hz⟩ := h1
    exact hz (congrFun this z)
  obtain ⟨x, hx⟩ := h2
  have hr : AnalyticOnNhd ℝ (fun x : ℝ => g x) Set.univ := by
    intro y _
    exact ((hgan y trivial).restrictScalars (𝕜 := ℝ)).comp' (Complex.ofRealCLM.analyticAt y)
  have hc := hr.preimage_zero_mem_codiscrete hx
  have hle := ae_restrict_le_codiscreteWithin (μ := (volume : Measure ℝ)) MeasurableSet.univ hc
  rw [Measure.restrict_univ] at hle
  exact hle

/-- An entire function of `m` variables that is not zero everywhere is not zero at almost all points of the torus. -/
theorem ae_ne {m : ℕ} {f : (Fin m → ℂ) → ℂ} (hf : Differentiable ℂ f) {w : Fin m → ℂ} (hw : f w ≠ 0) :
    ∀ᵐ θ : Fin m → ℝ, f (onTorus θ) ≠ 0 := by
  induction m with
  | zero =>
    refine Eventually.of_forall fun θ => ?_
    rwa [Subsingleton.elim (onTorus θ) w]
  | succ m ih =>
    let e := MeasurableEquiv.piFinSuccAbove (fun _ : Fin (m + 1) => ℝ) 0
    have hmp := volume_preserving_piFinSuccAbove (fun _ : Fin (m + 1) => ℝ) 0
    let F : ℝ × (Fin m → ℝ) → ℂ := fun p => f (Fin.cons (Complex.exp (p.1 * Complex.I)) (onTorus p.2))
    have hFc : Continuous F := by
      refine hf.continuous.comp ?_
      refine continuous_pi fun i => ?_
      refine Fin.cases ?_ (fun j => ?_) i
      · simp only [Fin.cons_zero]; fun_prop
      · simp only [Fin.cons_succ, onTorus]; fun_prop
    have hFe : ∀ θ, f (onTorus θ) = F (e θ) := by
      intro θ
      simp only [F, e]
      congr 1
      funext i
      refine Fin.cases ?_ (fun j => ?_) i
      · rfl
      · rfl
    have hms : MeasurableSet {p | F p = 0} := (isClosed_singleton.preimage hFc).measurableSet
    have hnull : (volume : Measure (ℝ × (Fin m → ℝ))) {p | F p = 0} = 0 := by
      rw [Measure.volume_eq_prod]
      refine Measure.measure_prod_null_of_ae_null hms ?_
      have hslice : Differentiable ℂ fun z : ℂ => f (Fin.cons z (Fin.tail w)) := by
        refine hf.comp ?_
        rw [differentiable_pi]
        intro i
        refine Fin.cases ?_ (fun j => ?_) i
        · simp only [Fin.cons_zero]; fun_prop
        · simp only [Fin.cons_succ]; fun_prop
      have h0 : f (Fin.cons (w 0) (Fin.tail w)) ≠ 0 := by rwa [Fin.cons_self_tail]
      filter_upwards [ae_ne_one hslice h0] with x hx
      have hd : Differentiable ℂ fun z : Fin m → ℂ => f (Fin.cons (Complex.exp (x * Complex.I)) z) := by
        refine hf.comp ?_
        rw [differentiable_pi]
        intro i
        refine Fin.cases ?_ (fun j => ?_) i
        · simp only [Fin.cons_zero]; fun_prop
        · simp only [Fin.cons_succ]; fun_prop
      have := ih hd hx
      rw [ae_iff] at this
      simp only [not_not] at this
      exact this
    have hpre : ∀ᵐ θ : Fin (m + 1) → ℝ, F (e θ) ≠ 0 := by
      have : ∀ᵐ p : ℝ × (Fin m → ℝ), F p ≠ 0 := by
        rw [ae_iff]
        simpa only [not_not] using hnull
      exact hmp.quasiMeasurePreserving.ae this
    filter_upwards [hpre] with θ hθ
    rwa [hFe]

end B2.Generic
