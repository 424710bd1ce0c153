import Verif.Cont.Series
import Mathlib.Analysis.Complex.RemovableSingularity
import Mathlib.Analysis.SpecialFunctions.Complex.Log
import Mathlib.Analysis.SpecialFunctions.Complex.LogDeriv
import Mathlib.Analysis.SpecialFunctions.Pow.Real

/-!
# Paths are fractional power series

When the zeros of `H(·,s)` are bounded for `s` in a disc about 0, and nonsingular for `s ≠ 0` in it, every path of zeros is a
convergent power series in a root of `t`.
-/

namespace B2.Cont

open B2.Predict B2.Track Set Topology Filter

variable {V : Type} [NormedAddCommGroup V] [NormedSpace ℂ V]

/-- Over the disc of radius `ρ` the zeros are bounded, and nonsingular except perhaps at time 0. -/
structure Punctured (H : V × ℂ → V) (ρ : ℝ) : Prop where
  pos : 0 < ρ
  analytic : ∀ q, AnalyticAt ℂ H q
  nonsingular : ∀ (x : V) (s : ℂ), s ≠ 0 → ‖s‖ < ρ → H (x, s) = 0 → IsUnit (jacV H (x, s))
  bounded : ∃ R, ∀ (x : V) (s : ℂ), ‖s‖ ≤ ρ → H (x, s) = 0 → ‖x‖ ≤ R

/-- The zero set over the disc. -/
abbrev DiscZeros (H : V × ℂ → V) (ρ : ℝ) : Type := {z : V × ℂ // ‖z.2‖ ≤ ρ ∧ H z = 0}

variable {H : V × ℂ → V} {ρ : ℝ}

def discProj (z : DiscZeros H ρ) : ℂ := z.1.2

/-- The disc without 0. -/
def disc (ρ : ℝ) : Set ℂ := {s | s ≠ 0 ∧ ‖s‖ < ρ}

theorem Punctured.continuous (h : Punctured H ρ) : Continuous H :=
  continuous_iff_continuousAt.2 fun q => (h.analytic q).continuousAt

theorem Punctured.compact [FiniteDimensional ℂ V] (h : Punctured H ρ) : CompactSpace (DiscZeros H ρ) := by
  haveI : ProperSpace V := FiniteDimensional.proper ℂ V
  obtain ⟨R, hR⟩ := h.bounded
  refine isCompact_iff_compactSpace (s := {z : V × ℂ | ‖z.2‖ ≤ ρ ∧ H z = 0}).1 ?_
  refine IsCompact.of_isClosed_subset ((isCompact_closedBall (0 : V) R).prod (isCompact_closedBall (0 : ℂ) ρ)) ?_ ?_
  · have h1 : IsClosed {z : V × ℂ | ‖z.2‖ ≤ ρ} := isClosed_le (by fun_prop) continuous_const
    exact h1.inter (isClosed_eq h.continuous continuous_const)
  · rintro ⟨x, s⟩ ⟨h1, h2⟩
    exact ⟨mem_closedBall_zero_iff.2 (hR x s h1 h2), mem_closedBall_zero_iff.2 h1⟩

theorem discProj_continuous : Continuous (discProj : DiscZeros H ρ → ℂ) :=
  continuous_snd.comp continuous_subtype_val

theorem Punctured.localHomeo [CompleteSpace V] (h : Punctured H ρ) :
    IsLocalHomeomorphOn (discProj : DiscZeros H ρ → ℂ) (discProj ⁻¹' disc ρ) := by
  rw [isLocalHomeomorphOn_iff_isOpenEmbedding_restrict]
  rintro ⟨⟨x, s⟩, hs, hz⟩ ⟨hs0, hsρ⟩
  obtain ⟨Ψ, hr, hΨ⟩ := graph_homeo (h.analytic (x, s)) (h.nonsingular x s hs0 hsρ hz)
  let U : Set (DiscZeros H ρ) := Subtype.val ⁻¹' (Ψ.source ∩ {q | ‖q.2‖ < ρ})
  have hO : IsOpen {q : V × ℂ | ‖q.2‖ < ρ} := isOpen_lt (by fun_prop) continuous_const
  have hU : IsOpen U := (Ψ.open_source.inter hO).preimage continuous_subtype_val
  have hv : ∀ z : DiscZeros H ρ, Ψ z.1 = (0, discProj z) := fun z => by
    rw [hΨ, z.2.2]; rfl
  refine ⟨U, hU.mem_nhds ⟨hr, hsρ⟩, ?_⟩
  refine Topology.IsOpenEmbedding.of_continuous_injective_isOpenMap ?_ ?_ ?_
  · exact discProj_continuous.comp continuous_subtype_val
  · rintro ⟨z1, h1⟩ ⟨z2, h2⟩ he
    have he' : discProj z1 = discProj z2 := he
    apply Subtype.ext
    apply Subtype.ext
    exact Ψ.injOn h1.1 h2.1 (by rw [hv, hv, he'])
  · intro W hW
    obtain ⟨W', hW', rfl⟩ := isOpen_induced_iff.1 hW
    obtain ⟨O, hO', rfl⟩ := isOpen_induced_iff.1 hW'
    have himg : U.domRestrict (discProj : DiscZeros H ρ → ℂ) '' (Subtype.val ⁻¹' (Subtype.val ⁻¹' O)) =
        (fun s : ℂ => ((0, s) : V × ℂ)) ⁻¹' (Ψ '' (Ψ.source ∩ ({q | ‖q.2‖ < ρ} ∩ O))) := by
      ext s'
      constructor
      · rintro ⟨⟨z, hzU⟩, hzO, rfl⟩
        exact ⟨z.1, ⟨hzU.1, hzU.2, hzO⟩, hv z⟩
      · rintro ⟨q, ⟨hqs, hqρ, hqO⟩, hq⟩
        rw [hΨ, Prod.mk.injEq] at hq
        exact ⟨⟨⟨q, le_of_lt hqρ, hq.1⟩, hqs, hqρ⟩, hqO, hq.2⟩
    rw [himg]
    exact (Ψ.isOpen_image_source_inter (hO.inter hO')).preimage (by fun_prop)

theorem Punctured.covering [FiniteDimensional ℂ V] (h : Punctured H ρ) :
    IsCoveringMapOn (discProj : DiscZeros H ρ → ℂ) (disc ρ) := by
  haveI := h.compact
  haveI : CompleteSpace V := FiniteDimensional.complete ℂ V
  exact IsCoveringMapOn.of_isLocalHomeomorphOn discProj_continuous h.localHomeo

theorem Punctured.finite [FiniteDimensional ℂ V] (h : Punctured H ρ) {s : ℂ} (hs : s ∈ disc ρ) :
    {x | H (x, s) = 0}.Finite := by
  haveI := h.compact
  have hd := (h.covering s hs).discreteTopology_fiber
  have hc : IsCompact ((discProj : DiscZeros H ρ → ℂ) ⁻¹' {s}) :=
    (isClosed_singleton.preimage discProj_continuous).isCompact
  have hf := hc.finite ⟨hd⟩
  refine (hf.image fun z => z.1.1).subset ?_
  intro x hx
  exact ⟨⟨(x, s), hs.2.le, hx⟩, rfl, rfl⟩

/-- The map from the plane to the disc without 0 by which paths are lifted: the exponential, the real part cut off at `L`. -/
noncomputable def cutExp (L : ℝ) (w : ℂ) : ℂ := Complex.exp (((min w.re L : ℝ) : ℂ) + w.im * Complex.I)

theorem cutExp_continuous (L : ℝ) : Continuous (cutExp L) := by unfold cutExp; fun_prop

theorem cutExp_of_le {L : ℝ} {w : ℂ} (h : w.re ≤ L) : cutExp L w = Complex.exp w := by
  unfold cutExp
  rw [min_eq_left h, Complex.re_add_im]

theorem cutExp_mem {L : ℝ} (h : Real.exp L < ρ) (w : ℂ) : cutExp L w ∈ disc ρ := by
  refine ⟨Complex.exp_ne_zero _, ?_⟩
  unfold cutExp
  rw [Complex.norm_exp]
  simp only [Complex.add_re, Complex.ofReal_re, Complex.mul_re, Complex.I_re, mul_zero, Complex.ofReal_im, Complex.I_im, mul_one,
    sub_self, add_zero]
  exact (Real.exp_le_exp.2 (min_le_right _ _)).trans_lt h

theorem cutExp_periodic (L : ℝ) (w : ℂ) (k : ℤ) : cutExp L (w + k * (2 * Real.pi * Complex.I)) = cutExp L w := by
  unfold cutExp
  have h1 : (w + k * (2 * Real.pi * Complex.I)).re = w.re := by simp
  have h2 : (w + k * (2 * Real.pi * Complex.I)).im = w.im + k * (2 * Real.pi) := by simp
  rw [h1, h2]
  have : (((min w.re L : ℝ) : ℂ) + ((w.im + k * (2 * Real.pi) : ℝ) : ℂ) * Complex.I) =
      (((min w.re L : ℝ) : ℂ) + w.im * Complex.I) + k * (2 * Real.pi * Complex.I) := by
    push_cast; ring
  rw [this, Complex.exp_add, Complex.exp_int_mul_two_pi_mul_I, mul_one]

/-- A path of zeros continues to the universal covering of the disc without 0, is periodic there, with a period at most the
number of zeros, and is differentiable. -/
theorem Punctured.cover [FiniteDimensional ℂ V] (h : Punctured H ρ) {L : ℝ} (hL : Real.exp L < ρ) (hL1 : L ≤ 0) {y : ℝ → V}
    (hy : OpenPath H y) : ∃ (Y : ℂ → V) (c : ℕ), 1 ≤ c ∧ c ≤ {x | H (x, Complex.exp L) = 0}.ncard ∧ Continuous Y ∧
      (∀ w, w.re ≤ L → H (Y w, Complex.exp w) = 0) ∧ (∀ t : ℝ, t ≤ L → Y t = y (Real.exp t)) ∧
      (∀ w (k : ℤ), Y (w + k * (c * (2 * Real.pi * Complex.I))) = Y w) ∧
      ∀ w, w.re < L → DifferentiableAt ℂ Y w := by
  haveI : CompleteSpace V := FiniteDimensional.complete ℂ V
  have hcov := h.covering
  let f : C(ℂ, ℂ) := ⟨cutExp L, cutExp_continuous L⟩
  have hmem : ∀ a, f a ∈ disc ρ := cutExp_mem hL
  have hexp : ∀ t : ℝ, t ≤ L → Real.exp t ∈ Ioc (0 : ℝ) 1 := fun t ht =>
    ⟨Real.exp_pos t, Real.exp_le_one_iff.2 (ht.trans hL1)⟩
  have hfL : ∀ t : ℝ, cutExp L t = Complex.exp ((min t L : ℝ) : ℂ) := by
    intro t
    unfold cutExp
    simp
  let e0 : ∀ t : ℝ, DiscZeros H ρ := fun t => ⟨(y (Real.exp (min t L)), Complex.exp ((min t L : ℝ) : ℂ)), by
    have := (cutExp_mem hL (t : ℂ)).2
    rw [hfL] at this
    refine ⟨this.le, ?_⟩
    have := hy.zero _ (hexp (min t L) (min_le_right _ _))
    rwa [Complex.ofReal_exp] at this⟩
  obtain ⟨F, ⟨hF1, hF2⟩, -⟩ := hcov.existsUnique_continuousMap_lifts f (a₀ := ((L : ℝ) : ℂ)) (e₀ := e0 L)
    (by show Complex.exp _ = cutExp L _; rw [hfL]) hmem
  have hFp : ∀ w, discProj (F w) = cutExp L w := fun w => congrFun hF2 w
  let Y : ℂ → V := fun w => (F w).1.1
  have hYF : ∀ w, (F w).1 = (Y w, cutExp L w) := fun w => Prod.ext rfl (hFp w)
  have hYc : Continuous Y := continuous_fst.comp (continuous_subtype_val.comp F.continuous)
  have hz : ∀ w, H (Y w, cutExp L w) = 0 := fun w => by rw [← hYF]; exact (F w).2.2
  -- on the real line
  have hreal : ∀ t : ℝ, F (t : ℂ) = e0 t := by
    let fr : C(ℝ, ℂ) := ⟨fun t => cutExp L t, (cutExp_continuous L).comp Complex.continuous_ofReal⟩
    have hu := hcov.existsUnique_continuousMap_lifts fr (a₀ := L) (e₀ := e0 L)
      (by show Complex.exp _ = cutExp L _; rw [hfL]) (fun t => hmem _)
    have hce : Continuous e0 := by
      refine Continuous.subtype_mk (Continuous.prodMk ?_ ?_) _
      · refine hy.cont.comp_continuous (by fun_prop) fun t => hexp _ (min_le_right _ _)
      · fun_prop
    have h1 := hu.unique (y₁ := F.comp ⟨fun t : ℝ => (t : ℂ), Complex.continuous_ofReal⟩) (y₂ := ⟨e0, hce⟩)
      ⟨hF1, by funext t; exact hFp t⟩ ⟨rfl, by funext t; show Complex.exp _ = cutExp L _; rw [hfL]⟩
    intro t
    exact congrArg (fun g : C(ℝ, DiscZeros H ρ) => g t) h1
  -- periodicity
  have hshift : ∀ (k l : ℤ), F (L + k * (2 * Real.pi * Complex.I)) = F (L + l * (2 * Real.pi * Complex.I)) →
      ∀ w, F (w + k * (2 * Real.pi * Complex.I)) = F (w + l * (2 * Real.pi * Complex.I)) := by
    intro k l hkl
    have hu := hcov.existsUnique_continuousMap_lifts f (a₀ := ((L : ℝ) : ℂ)) (e₀ := F (L + k * (2 * Real.pi * Complex.I)))
      (by rw [hFp]; exact cutExp_periodic L _ k) hmem
    have h1 := hu.unique (y₁ := F.comp ⟨fun w : ℂ => w + k * (2 * Real.pi * Complex.I), by fun_prop⟩)
      (y₂ := F.comp ⟨fun w : ℂ => w + l * (2 * Real.pi * Complex.I), by fun_prop⟩)
      ⟨rfl, by funext w; exact (hFp _).trans (cutExp_periodic L _ k)⟩
      ⟨hkl.symm, by funext w; exact (hFp _).trans (cutExp_periodic L _ l)⟩
    intro w
    exact congrArg (fun g : C(ℂ, DiscZeros H ρ) => g w) h1
  have hfin : {x | H (x, Complex.exp L) = 0}.Finite := by
    have h1 := hmem (L : ℂ)
    have h2 : f (L : ℂ) = Complex.exp L := by show cutExp L _ = _; rw [hfL, min_self]
    rw [h2] at h1
    exact h.finite h1
  set N := {x | H (x, Complex.exp L) = 0}.ncard with hN
  obtain ⟨k, l, hkl, hlN, heq⟩ : ∃ k l : ℕ, k < l ∧ l ≤ N ∧
      F (L + (k : ℤ) * (2 * Real.pi * Complex.I)) = F (L + (l : ℤ) * (2 * Real.pi * Complex.I)) := by
    have hval : ∀ k : ℕ, (F (L + (k : ℤ) * (2 * Real.pi * Complex.I))).1 =
        (Y (L + (k : ℤ) * (2 * Real.pi * Complex.I)), Complex.exp L) := by
      intro k
      rw [hYF, cutExp_periodic, hfL, min_self]
    have hm : MapsTo (fun k : ℕ => Y (L + (k : ℤ) * (2 * Real.pi * Complex.I))) (Finset.range (N + 1))
        hfin.toFinset := by
      intro k _
      simp only [Set.Finite.coe_toFinset, mem_setOf_eq]
      rw [← hval]
      exact (F _).2.2
    obtain ⟨k, hk, l, hl, hne, he⟩ := Finset.exists_ne_map_eq_of_card_lt_of_maps_to (s := Finset.range (N + 1))
      (t := hfin.toFinset) (by
        rw [Finset.card_range, hN, Set.ncard_eq_toFinset_card _ hfin]
        exact Nat.lt_succ_self _) hm
    simp only [Finset.mem_range] at hk hl
    have hF : F (L + (k : ℤ) * (2 * Real.pi * Complex.I)) = F (L + (l : ℤ) * (2 * Real.pi * Complex.I)) := by
      apply Subtype.ext
      rw [hval, hval]
      exact Prod.ext he rfl
    rcases Nat.lt_or_gt_of_ne hne with h1 | h1
    · exact ⟨k, l, h1, by omega, hF⟩
    · exact ⟨l, k, h1, by omega, hF.symm⟩
  have hper : ∀ w, F (w + ((l - k : ℕ) : ℂ) * (2 * Real.pi * Complex.I)) = F w := by
    intro w
    have := hshift k l heq (w - (k : ℤ) * (2 * Real.pi * Complex.I))
    rw [sub_add_cancel] at this
    rw [this]
    congr 1
    push_cast [Nat.cast_sub hkl.le]
    ring
  refine ⟨Y, l - k, by omega, by omega, hYc, fun w hw => ?_, fun t ht => ?_, fun w m => ?_, fun w hw => ?_⟩
  · have := hz w
    rwa [cutExp_of_le hw] at this
  · show (F t).1.1 = _
    rw [hreal t]
    show y (Real.exp (min t L)) = _
    rw [min_eq_left ht]
  · have hp : Function.Periodic F (((l - k : ℕ) : ℂ) * (2 * Real.pi * Complex.I)) := hper
    have := hp.int_mul m w
    show (F _).1.1 = (F _).1.1
    rw [← this]
  · have hnear : ∀ᶠ v in 𝓝 w, v.re < L := (isOpen_lt Complex.continuous_re continuous_const).mem_nhds hw
    have hzw : ∀ᶠ v in 𝓝 w, H (Y v, Complex.exp v) = 0 := by
      filter_upwards [hnear] with v hv
      have := hz v
      rwa [cutExp_of_le hv.le] at this
    have hd := cutExp_mem hL w
    rw [cutExp_of_le hw.le] at hd
    exact (zero_hasDerivAt (𝕜 := ℂ) h.analytic (h.nonsingular _ _ hd.1 hd.2 hzw.self_of_nhds) hYc.continuousAt hzw
      (Complex.hasDerivAt_exp w)).differentiableAt

/-- **Puiseux.** A path of zeros is a convergent power series in a root of `t`; the order of the root is at most the number
of zeros. -/
theorem Punctured.series [FiniteDimensional ℂ V] (h : Punctured H ρ) {L : ℝ} (hL : Real.exp L < ρ) (hL1 : L ≤ 0) {y : ℝ → V}
    (hy : OpenPath H y) : ∃ (φ : ℂ → V) (c : ℕ), 1 ≤ c ∧ c ≤ {x | H (x, Complex.exp L) = 0}.ncard ∧ AnalyticAt ℂ φ 0 ∧
      H (φ 0, 0) = 0 ∧ (∀ u : ℂ, u ≠ 0 → ‖u‖ ^ c < Real.exp L → H (φ u, u ^ c) = 0 ∧ ContinuousAt φ u) ∧
      ∀ t : ℝ, 0 < t → t < Real.exp L →
        y t = φ ((t ^ (1 / (c : ℝ)) : ℝ) : ℂ) ∧ HasDerivAt y (tangent H (y t, (t : ℂ))) t := by
  haveI : CompleteSpace V := FiniteDimensional.complete ℂ V
  obtain ⟨Y, c, hc1, hcN, hYc, hYz, hYr, hYp, hYd⟩ := h.cover hL hL1 hy
  have hc0 : (0 : ℝ) < c := by exact_mod_cast hc1
  have hcC : (c : ℂ) ≠ 0 := by exact_mod_cast hc0.ne'
  let φ : ℂ → V := fun u => Y (c * Complex.log u)
  set r : ℝ := Real.exp (L / c) with hr
  have hre : ∀ u : ℂ, u ≠ 0 → ‖u‖ < r → (c * Complex.log u).re < L := by
    intro u h0 h1
    have h3 : (c * Complex.log u).re = c * Real.log ‖u‖ := by simp [Complex.log_re]
    rw [h3]
    have h2 : Real.log ‖u‖ < L / c := by
      rw [← Real.log_exp (L / c)]
      exact Real.log_lt_log (norm_pos_iff.2 h0) h1
    rw [lt_div_iff₀ hc0] at h2
    linarith
  -- any logarithm will do
  have hlog : ∀ u v : ℂ, u ≠ 0 → Complex.exp v = u → φ u = Y (c * v) := by
    intro u v h0 hv
    have h1 : Complex.exp (Complex.log u) = Complex.exp v := by rw [Complex.exp_log h0, hv]
    obtain ⟨n, hn⟩ := Complex.exp_eq_exp_iff_exists_int.1 h1
    show Y (c * Complex.log u) = _
    rw [hn, ← hYp (c * v) n]
    congr 1
    ring
  have hdiff : ∀ u : ℂ, u ≠ 0 → ‖u‖ < r → DifferentiableAt ℂ φ u := by
    intro u h0 h1
    have h2 : ∀ᶠ v in 𝓝 u, φ v = Y (c * (Complex.log (v / u) + Complex.log u)) := by
      have h3 : ∀ᶠ v in 𝓝 u, v ≠ 0 := isOpen_ne.mem_nhds h0
      filter_upwards [h3] with v hv
      refine hlog v _ hv ?_
      rw [Complex.exp_add, Complex.exp_log (div_ne_zero hv h0), Complex.exp_log h0, div_mul_cancel₀ _ h0]
    refine DifferentiableAt.congr_of_eventuallyEq ?_ h2
    refine DifferentiableAt.comp (g := Y) (f := fun v => c * (Complex.log (v / u) + Complex.log u)) u ?_ ?_
    · refine hYd _ ?_
      rw [div_self h0, Complex.log_one, zero_add]
      exact hre u h0 h1
    · refine DifferentiableAt.const_mul (DifferentiableAt.add_const _ ?_) _
      refine DifferentiableAt.clog (by fun_prop) ?_
      rw [div_self h0]
      exact Complex.one_mem_slitPlane
  have hzero : ∀ u : ℂ, u ≠ 0 → ‖u‖ < r → H (φ u, u ^ c) = 0 := by
    intro u h0 h1
    have := hYz _ (hre u h0 h1).le
    rwa [Complex.exp_nat_mul, Complex.exp_log h0] at this
  have hrpos : 0 < r := Real.exp_pos _
  have hball : Metric.ball (0 : ℂ) r ∈ 𝓝 (0 : ℂ) := Metric.ball_mem_nhds _ hrpos
  obtain ⟨M, hM⟩ := h.bounded
  have hexpL : r ^ c = Real.exp L := by
    rw [hr, ← Real.exp_nat_mul, mul_div_cancel₀ _ hc0.ne']
  have hbd : ∀ u : ℂ, u ≠ 0 → ‖u‖ < r → ‖φ u‖ ≤ M := by
    intro u h0 h1
    refine hM _ _ ?_ (hzero u h0 h1)
    rw [norm_pow]
    have : ‖u‖ ^ c ≤ r ^ c := pow_le_pow_left₀ (norm_nonneg _) h1.le _
    rw [hexpL] at this
    linarith
  set φ' := Function.update φ 0 (limUnder (𝓝[≠] 0) φ) with hφ'
  have hd' : DifferentiableOn ℂ φ' (Metric.ball 0 r) := by
    refine Complex.differentiableOn_update_limUnder_of_bddAbove hball ?_ ?_
    · rintro u ⟨h1, h2⟩
      exact (hdiff u h2 (by simpa using h1)).differentiableWithinAt
    · refine ⟨M, ?_⟩
      rintro _ ⟨u, ⟨h1, h2⟩, rfl⟩
      exact hbd u h2 (by simpa using h1)
  have hne : ∀ u, u ≠ 0 → φ' u = φ u := fun u hu => Function.update_of_ne hu _ _
  refine ⟨φ', c, hc1, hcN, hd'.analyticAt hball, ?_, fun u h0 h1 => ?_, fun t h0 h1 => ⟨?_, ?_⟩⟩
  · have hcont : ContinuousAt φ' 0 := (hd'.differentiableAt hball).continuousAt
    have hcH : ContinuousAt (fun u => H (φ' u, u ^ c)) 0 :=
      ContinuousAt.comp (g := H) (f := fun u => (φ' u, u ^ c)) h.continuous.continuousAt
        (hcont.prodMk (continuous_pow c).continuousAt)
    have ht1 : Tendsto (fun u => H (φ' u, u ^ c)) (𝓝[≠] 0) (𝓝 (H (φ' 0, 0 ^ c))) := hcH.tendsto.mono_left nhdsWithin_le_nhds
    have ht2 : Tendsto (fun u => H (φ' u, u ^ c)) (𝓝[≠] 0) (𝓝 0) := by
      refine tendsto_const_nhds.congr' ?_
      filter_upwards [nhdsWithin_le_nhds hball, self_mem_nhdsWithin] with u h1 h2
      rw [hne u h2]
      exact (hzero u h2 (by simpa using h1)).symm
    have := tendsto_nhds_unique ht1 ht2
    rwa [zero_pow (by omega)] at this
  · rw [← hexpL] at h1
    have h2 := lt_of_pow_lt_pow_left₀ c hrpos.le h1
    rw [hne u h0]
    exact ⟨hzero u h0 h2, (hd'.differentiableAt (Metric.isOpen_ball.mem_nhds (by simpa using h2))).continuousAt⟩
  · have hu0 : (0 : ℝ) < t ^ (1 / (c : ℝ)) := Real.rpow_pos_of_pos h0 _
    have hu0' : ((t ^ (1 / (c : ℝ)) : ℝ) : ℂ) ≠ 0 := by exact_mod_cast hu0.ne'
    rw [hne _ hu0']
    have h2 : Complex.exp (((Real.log t / c : ℝ)) : ℂ) = ((t ^ (1 / (c : ℝ)) : ℝ) : ℂ) := by
      rw [← Complex.ofReal_exp, Real.rpow_def_of_pos h0]
      congr 2
      ring
    rw [hlog _ _ hu0' h2]
    have h3 : (c : ℂ) * ((Real.log t / c : ℝ) : ℂ) = ((Real.log t : ℝ) : ℂ) := by
      push_cast
      rw [mul_div_cancel₀ _ hcC]
    rw [h3, hYr _ ((Real.log_le_iff_le_exp h0).2 h1.le), Real.exp_log h0]
  · have h2 : t < 1 := h1.trans_le (Real.exp_le_one_iff.2 hL1)
    have hts : ‖(t : ℂ)‖ < ρ := by
      rw [Complex.norm_real, Real.norm_of_nonneg h0.le]; exact h1.trans hL
    have h8 := zero_hasDerivAt h.analytic (h := fun s : ℝ => (s : ℂ))
      (h.nonsingular _ _ (by exact_mod_cast h0.ne') hts (hy.zero t ⟨h0, h2.le⟩))
      (hy.cont.continuousAt (Ioc_mem_nhds h0 h2))
      (Filter.mem_of_superset (Ioc_mem_nhds h0 h2) fun s hs => hy.zero s hs) (Complex.ofRealCLM.hasDerivAt (x := t))
    have h9 : (Complex.ofRealCLM 1 : ℂ) = 1 := by simp
    rwa [h9, one_smul] at h8

/-- The same, on an unspecified interval. -/
theorem Punctured.series' [FiniteDimensional ℂ V] (h : Punctured H ρ) : ∃ R : ℝ, 0 < R ∧ R ≤ 1 ∧ R < ρ ∧ ∀ y, OpenPath H y →
    ∃ (φ : ℂ → V) (c : ℕ), 1 ≤ c ∧ c ≤ {x | H (x, (R : ℂ)) = 0}.ncard ∧ AnalyticAt ℂ φ 0 ∧ H (φ 0, 0) = 0 ∧
      (∀ u : ℂ, u ≠ 0 → ‖u‖ ^ c < R → H (φ u, u ^ c) = 0 ∧ ContinuousAt φ u) ∧
      ∀ t : ℝ, 0 < t → t < R → y t = φ ((t ^ (1 / (c : ℝ)) : ℝ) : ℂ) ∧ HasDerivAt y (tangent H (y t, (t : ℂ))) t := by
  have hρ := h.pos
  have hL : Real.exp (min 0 (Real.log (ρ / 2))) < ρ := by
    refine lt_of_le_of_lt (Real.exp_le_exp.2 (min_le_right _ _)) ?_
    rw [Real.exp_log (by positivity)]
    linarith
  refine ⟨Real.exp (min 0 (Real.log (ρ / 2))), Real.exp_pos _, Real.exp_le_one_iff.2 (min_le_left _ _), hL, fun y hy => ?_⟩
  rw [Complex.ofReal_exp]
  exact h.series hL (min_le_left _ _) hy

/-- Every path converges to a zero at time 0. -/
theorem Punctured.limit [FiniteDimensional ℂ V] (h : Punctured H ρ) {y : ℝ → V} (hy : OpenPath H y) :
    ∃ x, H (x, 0) = 0 ∧ Tendsto y (𝓝[>] 0) (𝓝 x) := by
  obtain ⟨R, hR, -, -, hser⟩ := h.series'
  obtain ⟨φ, c, hc, -, ha, hz, -, hv⟩ := hser y hy
  refine ⟨φ 0, hz, ?_⟩
  have hp : 0 < 1 / (c : ℝ) := by positivity
  have h1 : Tendsto (fun t : ℝ => t ^ (1 / (c : ℝ))) (𝓝[>] 0) (𝓝 0) := by
    have := (Real.continuousAt_rpow_const 0 (1 / (c : ℝ)) (Or.inr hp.le)).tendsto
    rw [Real.zero_rpow hp.ne'] at this
    exact this.mono_left nhdsWithin_le_nhds
  have h2 : Tendsto (fun t : ℝ => ((t ^ (1 / (c : ℝ)) : ℝ) : ℂ)) (𝓝[>] 0) (𝓝 0) := by
    have := (Complex.continuous_ofReal.tendsto 0).comp h1
    rwa [Complex.ofReal_zero] at this
  refine (ha.continuousAt.tendsto.comp h2).congr' ?_
  filter_upwards [Ioo_mem_nhdsGT hR] with t ht
  exact (hv t ht.1 ht.2).1.symm

end B2.Cont
