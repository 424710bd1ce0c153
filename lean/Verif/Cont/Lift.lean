import Verif.Track.NewtonLocal
import Mathlib.Topology.Homotopy.Lifting
import Mathlib.Topology.Covering.Basic
import Mathlib.Analysis.Calculus.InverseFunctionTheorem.FDeriv
import Mathlib.Analysis.Normed.Operator.Banach
import Mathlib.Topology.Order.ProjIcc
import Mathlib.Analysis.Convex.Contractible
import Mathlib.Analysis.Normed.Module.FiniteDimension

/-!
# Zero sets of homotopies over an interval

When all zeros of `H(·,s)`, `s` in an interval, are nonsingular and bounded, the zero set is a covering of
the interval: through every zero there is exactly one continuous path of zeros.
-/

namespace B2.Cont

open B2.Predict B2.Track Set Topology

variable {V : Type} [NormedAddCommGroup V] [NormedSpace ℂ V]

/-- `(x,s) ↦ (H(x,s), s)` is a local homeomorphism at a point with invertible Jacobian. -/
theorem graph_homeo [CompleteSpace V] {H : V × ℂ → V} {r : V × ℂ} (hH : AnalyticAt ℂ H r)
    (hJ : IsUnit (jacV H r)) :
    ∃ Ψ : OpenPartialHomeomorph (V × ℂ) (V × ℂ), r ∈ Ψ.source ∧ ∀ q, Ψ q = (H q, q.2) := by
  have h1 : HasStrictFDerivAt H (fderiv ℂ H r) r := hH.hasStrictFDerivAt
  have h2 : HasStrictFDerivAt (fun q : V × ℂ => (H q, q.2))
      ((fderiv ℂ H r).prod (ContinuousLinearMap.snd ℂ V ℂ)) r :=
    h1.prodMk (ContinuousLinearMap.snd ℂ V ℂ).hasStrictFDerivAt
  obtain ⟨u, hu⟩ := hJ
  have hval : ∀ d : V × ℂ, fderiv ℂ H r d = jacV H r d.1 + fderiv ℂ H r (0, d.2) := by
    intro d
    rw [jacV]
    simp only [ContinuousLinearMap.comp_apply, ContinuousLinearMap.inl_apply]
    rw [← map_add]
    simp
  let inv : V →L[ℂ] V := ((u⁻¹ : (V →L[ℂ] V)ˣ) : V →L[ℂ] V)
  have hi1 : ∀ z, inv (jacV H r z) = z := fun z => by
    rw [← hu]
    exact congrArg (fun f : V →L[ℂ] V => f z) u.inv_mul
  have hi2 : ∀ z, jacV H r (inv z) = z := fun z => by
    rw [← hu]
    exact congrArg (fun f : V →L[ℂ] V => f z) u.mul_inv
  let e : (V × ℂ) ≃L[ℂ] (V × ℂ) := ContinuousLinearEquiv.equivOfInverse
    ((fderiv ℂ H r).prod (ContinuousLinearMap.snd ℂ V ℂ))
    ((inv.comp (ContinuousLinearMap.fst ℂ V ℂ -
      ((fderiv ℂ H r).comp (ContinuousLinearMap.inr ℂ V ℂ)).comp (ContinuousLinearMap.snd ℂ V ℂ))).prod
      (ContinuousLinearMap.snd ℂ V ℂ))
    (by
      intro d
      refine Prod.ext ?_ rfl
      simp only [ContinuousLinearMap.prod_apply, ContinuousLinearMap.comp_apply,
        ContinuousLinearMap.sub_apply, ContinuousLinearMap.coe_fst', ContinuousLinearMap.coe_snd',
        ContinuousLinearMap.inr_apply]
      rw [hval d, add_sub_cancel_right, hi1])
    (by
      intro d
      refine Prod.ext ?_ rfl
      simp only [ContinuousLinearMap.prod_apply, ContinuousLinearMap.comp_apply,
        ContinuousLinearMap.sub_apply, ContinuousLinearMap.coe_fst', ContinuousLinearMap.coe_snd',
        ContinuousLinearMap.inr_apply]
      rw [hval]
      simp only
      rw [hi2, sub_add_cancel])
  have h3 : HasStrictFDerivAt (fun q : V × ℂ => (H q, q.2)) (e : (V × ℂ) →L[ℂ] (V × ℂ)) r := h2
  exact ⟨h3.toOpenPartialHomeomorph _, h3.mem_toOpenPartialHomeomorph_source, fun q => rfl⟩

/-- The zero set over the interval. -/
abbrev Zeros (H : V × ℂ → V) (a b : ℝ) : Type := {z : V × Icc a b // H (z.1, ((z.2 : ℝ) : ℂ)) = 0}

/-- All zeros over the interval are nonsingular, and they are bounded. -/
structure Regular (H : V × ℂ → V) (a b : ℝ) : Prop where
  analytic : ∀ q, AnalyticAt ℂ H q
  nonsingular : ∀ (x : V) (s : ℝ), s ∈ Icc a b → H (x, (s : ℂ)) = 0 → IsUnit (jacV H (x, (s : ℂ)))
  bounded : ∃ R, ∀ (x : V) (s : ℝ), s ∈ Icc a b → H (x, (s : ℂ)) = 0 → ‖x‖ ≤ R

variable {H : V × ℂ → V} {a b : ℝ}

theorem Regular.continuous (h : Regular H a b) : Continuous H :=
  continuous_iff_continuousAt.2 fun q => (h.analytic q).continuousAt

theorem Regular.compact [FiniteDimensional ℂ V] (h : Regular H a b) : CompactSpace (Zeros H a b) := by
  haveI : ProperSpace V := FiniteDimensional.proper ℂ V
  obtain ⟨R, hR⟩ := h.bounded
  have hc : IsClosed {z : V × Icc a b | H (z.1, ((z.2 : ℝ) : ℂ)) = 0} := by
    refine isClosed_eq (h.continuous.comp ?_) continuous_const
    fun_prop
  refine isCompact_iff_compactSpace (s := {z : V × Icc a b | H (z.1, ((z.2 : ℝ) : ℂ)) = 0}).1 ?_
  refine IsCompact.of_isClosed_subset ((isCompact_closedBall (0 : V) R).prod isCompact_univ) hc ?_
  rintro ⟨x, s⟩ hz
  exact ⟨mem_closedBall_zero_iff.2 (hR x s s.2 hz), mem_univ _⟩

/-- The projection of the zero set to the interval. -/
def proj (z : Zeros H a b) : Icc a b := z.1.2

theorem Regular.localHomeo [CompleteSpace V] (h : Regular H a b) :
    IsLocalHomeomorph (proj : Zeros H a b → Icc a b) := by
  rw [isLocalHomeomorph_iff_isOpenEmbedding_restrict]
  rintro ⟨⟨x, s⟩, hz⟩
  obtain ⟨Ψ, hr, hΨ⟩ := graph_homeo (h.analytic (x, ((s : ℝ) : ℂ))) (h.nonsingular x s s.2 hz)
  let emb : Zeros H a b → V × ℂ := fun z => (z.1.1, ((z.1.2 : ℝ) : ℂ))
  have hemb : Topology.IsInducing emb := by
    have h1 : Topology.IsEmbedding (fun z : V × Icc a b => ((z.1, ((z.2 : ℝ) : ℂ)) : V × ℂ)) :=
      Topology.IsEmbedding.id.prodMap
        ((Complex.isometry_ofReal.isEmbedding).comp Topology.IsEmbedding.subtypeVal)
    exact (h1.comp Topology.IsEmbedding.subtypeVal).isInducing
  let U : Set (Zeros H a b) := emb ⁻¹' Ψ.source
  have hU : IsOpen U := Ψ.open_source.preimage hemb.continuous
  have hv : ∀ z : Zeros H a b, Ψ (emb z) = (0, (((proj z : Icc a b) : ℝ) : ℂ)) := by
    intro z
    rw [hΨ]
    exact Prod.ext z.2 rfl
  refine ⟨U, hU.mem_nhds hr, ?_⟩
  refine Topology.IsOpenEmbedding.of_continuous_injective_isOpenMap ?_ ?_ ?_
  · exact (continuous_snd.comp continuous_subtype_val).comp continuous_subtype_val
  · rintro ⟨z1, h1⟩ ⟨z2, h2⟩ he
    have he' : proj z1 = proj z2 := he
    have h3 : emb z1 = emb z2 := Ψ.injOn h1 h2 (by rw [hv, hv, he'])
    apply Subtype.ext
    apply Subtype.ext
    have h4 : z1.1.1 = z2.1.1 := (Prod.ext_iff.1 h3).1
    exact Prod.ext h4 he'
  · intro W hW
    obtain ⟨W', hW', rfl⟩ := isOpen_induced_iff.1 hW
    obtain ⟨O, hO, rfl⟩ := hemb.isOpen_iff.1 hW'
    have himg : U.domRestrict (proj : Zeros H a b → Icc a b) '' (Subtype.val ⁻¹' (emb ⁻¹' O)) =
        (fun s : Icc a b => ((0, ((s : ℝ) : ℂ)) : V × ℂ)) ⁻¹' (Ψ '' (Ψ.source ∩ O)) := by
      ext s'
      constructor
      · rintro ⟨⟨z, hzU⟩, hzO, rfl⟩
        exact ⟨emb z, ⟨hzU, hzO⟩, hv z⟩
      · rintro ⟨q, ⟨hqs, hqO⟩, hq⟩
        rw [hΨ, Prod.mk.injEq] at hq
        have hq2 : q = (q.1, ((s' : ℝ) : ℂ)) := Prod.ext rfl hq.2
        have hz' : H (q.1, ((s' : ℝ) : ℂ)) = 0 := by rw [← hq2]; exact hq.1
        refine ⟨⟨⟨(q.1, s'), hz'⟩, ?_⟩, ?_, rfl⟩
        · change (q.1, ((s' : ℝ) : ℂ)) ∈ Ψ.source
          rw [← hq2]; exact hqs
        · change (q.1, ((s' : ℝ) : ℂ)) ∈ O
          rw [← hq2]; exact hqO
    rw [himg]
    exact (Ψ.isOpen_image_source_inter hO).preimage (by fun_prop)

theorem Regular.covering [FiniteDimensional ℂ V] (h : Regular H a b) :
    IsCoveringMap (proj : Zeros H a b → Icc a b) := by
  haveI := h.compact
  haveI : CompleteSpace V := FiniteDimensional.complete ℂ V
  exact isLocalHomeomorph_iff_isCoveringMap.1 h.localHomeo

/-- A continuous path of zeros over the interval. -/
structure ZeroPath (H : V × ℂ → V) (a b : ℝ) (y : ℝ → V) : Prop where
  cont : ContinuousOn y (Icc a b)
  zero : ∀ s ∈ Icc a b, H (y s, (s : ℂ)) = 0

/-- **Existence.** -/
theorem Regular.exists_path [FiniteDimensional ℂ V] (h : Regular H a b) {s : ℝ} (hs : s ∈ Icc a b) {x : V}
    (hx : H (x, (s : ℂ)) = 0) : ∃ y, ZeroPath H a b y ∧ y s = x := by
  have hab : a ≤ b := hs.1.trans hs.2
  let f : C(ℝ, Icc a b) := ⟨projIcc a b hab, continuous_projIcc⟩
  have hf : ∀ s' (h' : s' ∈ Icc a b), f s' = ⟨s', h'⟩ := fun s' h' => projIcc_of_mem hab h'
  obtain ⟨F, ⟨hF1, hF2⟩, -⟩ := h.covering.existsUnique_continuousMap_lifts f s ⟨(x, ⟨s, hs⟩), hx⟩
    (by rw [hf s hs]; rfl)
  refine ⟨fun s' => (F s').1.1, ⟨?_, ?_⟩, ?_⟩
  · exact ((continuous_fst.comp continuous_subtype_val).comp F.continuous).continuousOn
  · intro s' h'
    have h1 : (F s').1.2 = ⟨s', h'⟩ := by
      rw [← hf s' h']; exact congrFun hF2 s'
    have h2 := (F s').2
    rw [h1] at h2
    exact h2
  · simp [hF1]

/-- **Uniqueness.** -/
theorem Regular.unique_path [FiniteDimensional ℂ V] (h : Regular H a b) {y₁ y₂ : ℝ → V}
    (h1 : ZeroPath H a b y₁) (h2 : ZeroPath H a b y₂) {s : ℝ} (hs : s ∈ Icc a b) (he : y₁ s = y₂ s) :
    ∀ s' ∈ Icc a b, y₁ s' = y₂ s' := by
  let g : ∀ y, ZeroPath H a b y → Icc a b → Zeros H a b := fun y hy s' => ⟨(y s', s'), hy.zero s' s'.2⟩
  have hg : ∀ y (hy : ZeroPath H a b y), Continuous (g y hy) := by
    intro y hy
    refine Continuous.subtype_mk ?_ _
    exact (continuousOn_iff_continuous_restrict.1 hy.cont).prodMk continuous_id
  haveI : PreconnectedSpace (Icc a b) := Subtype.preconnectedSpace isPreconnected_Icc
  have := h.covering.eq_of_comp_eq (hg y₁ h1) (hg y₂ h2) rfl ⟨s, hs⟩
    (Subtype.ext (Prod.ext he rfl))
  intro s' hs'
  exact congrArg (fun z : Zeros H a b => z.1.1) (congrFun this ⟨s', hs'⟩)

/-! ### Up to time 0 -/

/-- A continuous path of zeros for all positive times. -/
structure OpenPath (H : V × ℂ → V) (y : ℝ → V) : Prop where
  cont : ContinuousOn y (Ioc 0 1)
  zero : ∀ s ∈ Ioc (0 : ℝ) 1, H (y s, (s : ℂ)) = 0

theorem OpenPath.zeroPath {y : ℝ → V} (h : OpenPath H y) {ε : ℝ} (h0 : 0 < ε) : ZeroPath H ε 1 y where
  cont := h.cont.mono fun _ hs => ⟨h0.trans_le hs.1, hs.2⟩
  zero := fun s hs => h.zero s ⟨h0.trans_le hs.1, hs.2⟩

theorem ZeroPath.openPath {y : ℝ → V} (h : ZeroPath H 0 1 y) : OpenPath H y where
  cont := h.cont.mono fun _ hs => ⟨hs.1.le, hs.2⟩
  zero := fun s hs => h.zero s ⟨hs.1.le, hs.2⟩

variable [FiniteDimensional ℂ V]

/-- Two paths of zeros that meet at a positive time are the same. -/
theorem open_unique (h : ∀ ε : ℝ, 0 < ε → Regular H ε 1) {y₁ y₂ : ℝ → V} (h1 : OpenPath H y₁)
    (h2 : OpenPath H y₂) {s : ℝ} (hs : s ∈ Ioc (0 : ℝ) 1) (he : y₁ s = y₂ s) :
    ∀ s' ∈ Ioc (0 : ℝ) 1, y₁ s' = y₂ s' := by
  intro s' hs'
  have h0 : 0 < min s s' := lt_min hs.1 hs'.1
  exact (h _ h0).unique_path (h1.zeroPath h0) (h2.zeroPath h0) ⟨min_le_left _ _, hs.2⟩ he s'
    ⟨min_le_right _ _, hs'.2⟩

/-- Through every zero at a positive time there is a path of zeros. -/
theorem open_exists (h : ∀ ε : ℝ, 0 < ε → Regular H ε 1) {s : ℝ} (hs : s ∈ Ioc (0 : ℝ) 1) {x : V}
    (hx : H (x, (s : ℂ)) = 0) : ∃ y, OpenPath H y ∧ y s = x := by
  have hex : ∀ ε : ℝ, ∃ y, 0 < ε → ε ≤ s → ZeroPath H ε 1 y ∧ y s = x := by
    intro ε
    by_cases hc : 0 < ε ∧ ε ≤ s
    · obtain ⟨y, hy⟩ := (h ε hc.1).exists_path ⟨hc.2, hs.2⟩ hx
      exact ⟨y, fun _ _ => hy⟩
    · exact ⟨0, fun h1 h2 => (hc ⟨h1, h2⟩).elim⟩
  choose Y hY using hex
  let y : ℝ → V := fun s' => Y (min s s') s'
  have key : ∀ ε : ℝ, 0 < ε → ε ≤ s → ∀ s' ∈ Icc ε 1, y s' = Y ε s' := by
    intro ε h0 h1 s' hs'
    have hm : 0 < min s s' := lt_min hs.1 (h0.trans_le hs'.1)
    have hle : ε ≤ min s s' := le_min h1 hs'.1
    obtain ⟨p1, e1⟩ := hY _ hm (min_le_left _ _)
    obtain ⟨p2, e2⟩ := hY ε h0 h1
    have p2' : ZeroPath H (min s s') 1 (Y ε) :=
      ⟨p2.cont.mono (Icc_subset_Icc_left hle), fun q hq => p2.zero q ⟨hle.trans hq.1, hq.2⟩⟩
    exact (h _ hm).unique_path p1 p2' ⟨min_le_left _ _, hs.2⟩ (e1.trans e2.symm) s'
      ⟨min_le_right _ _, hs'.2⟩
  refine ⟨y, ⟨?_, ?_⟩, ?_⟩
  · intro s' hs'
    set ε := min s (s' / 2) with hε
    have h0 : 0 < ε := lt_min hs.1 (half_pos hs'.1)
    have hlt : ε < s' := (min_le_right _ _).trans_lt (half_lt_self hs'.1)
    obtain ⟨p2, e2⟩ := hY ε h0 (min_le_left _ _)
    have hc := p2.cont s' ⟨hlt.le, hs'.2⟩
    have hc2 : ContinuousWithinAt y (Icc ε 1) s' :=
      hc.congr (fun q hq => key ε h0 (min_le_left _ _) q hq) (key ε h0 (min_le_left _ _) s' ⟨hlt.le, hs'.2⟩)
    refine hc2.mono_of_mem_nhdsWithin ?_
    refine mem_nhdsWithin.2 ⟨Ioi ε, isOpen_Ioi, hlt, ?_⟩
    rintro q ⟨hq1, hq2⟩
    exact ⟨le_of_lt hq1, hq2.2⟩
  · intro s' hs'
    have hm : 0 < min s s' := lt_min hs.1 hs'.1
    exact (hY _ hm (min_le_left _ _)).1.zero s' ⟨min_le_right _ _, hs'.2⟩
  · change Y (min s s) s = x
    rw [min_self]
    exact (hY s hs.1 le_rfl).2

/-- A nonsingular zero at time 0 is the end of a path of zeros. -/
theorem reaches (h : ∀ ε : ℝ, 0 < ε → Regular H ε 1) {x : V} (hx : H (x, 0) = 0)
    (hJ : IsUnit (jacV H (x, 0))) : ∃ y, ZeroPath H 0 1 y ∧ y 0 = x := by
  haveI : CompleteSpace V := FiniteDimensional.complete ℂ V
  obtain ⟨Ψ, hr, hΨ⟩ := graph_homeo ((h 1 one_pos).analytic (x, 0)) hJ
  have hx0 : Ψ (x, 0) = (0, 0) := by rw [hΨ, hx]
  have htgt : ((0, 0) : V × ℂ) ∈ Ψ.target := by rw [← hx0]; exact Ψ.map_source hr
  have hcont : Continuous fun s : ℝ => ((0, (s : ℂ)) : V × ℂ) := by fun_prop
  have hnh : (fun s : ℝ => ((0, (s : ℂ)) : V × ℂ)) ⁻¹' Ψ.target ∈ 𝓝 (0 : ℝ) :=
    hcont.continuousAt.preimage_mem_nhds (Ψ.open_target.mem_nhds (by simpa using htgt))
  obtain ⟨δ, hδ, hball⟩ := Metric.mem_nhds_iff.1 hnh
  set ε := min 1 (δ / 2) with hε
  have h0 : 0 < ε := lt_min one_pos (half_pos hδ)
  have hin : ∀ s ∈ Icc (0 : ℝ) ε, ((0, (s : ℂ)) : V × ℂ) ∈ Ψ.target := by
    intro s hs
    refine hball ?_
    rw [Metric.mem_ball, dist_zero_right, Real.norm_of_nonneg hs.1]
    exact (hs.2.trans (min_le_right _ _)).trans_lt (half_lt_self hδ)
  let y0 : ℝ → V := fun s => (Ψ.symm (0, (s : ℂ))).1
  have hy0 : ∀ s ∈ Icc (0 : ℝ) ε, H (y0 s, (s : ℂ)) = 0 := by
    intro s hs
    have h1 := Ψ.right_inv (hin s hs)
    rw [hΨ] at h1
    have h2 := (Prod.ext_iff.1 h1).2
    have h3 : Ψ.symm (0, (s : ℂ)) = (y0 s, (s : ℂ)) := Prod.ext rfl h2
    have h4 := (Prod.ext_iff.1 h1).1
    simp only [h3] at h4
    exact h4
  have hy00 : y0 0 = x := by
    have h1 : Ψ.symm (0, ((0 : ℝ) : ℂ)) = (x, 0) := by
      rw [Complex.ofReal_zero, ← hx0]
      exact Ψ.left_inv hr
    change (Ψ.symm (0, ((0 : ℝ) : ℂ))).1 = x
    rw [h1]
  have hy0c : ContinuousOn y0 (Icc 0 ε) := by
    refine continuous_fst.comp_continuousOn ?_
    exact Ψ.continuousOn_symm.comp hcont.continuousOn fun s hs => hin s hs
  obtain ⟨y1, p1, e1⟩ := (h ε h0).exists_path (s := ε) ⟨le_rfl, min_le_left _ _⟩
    (hy0 ε ⟨h0.le, le_rfl⟩)
  let y : ℝ → V := fun s => if s ≤ ε then y0 s else y1 s
  have hyA : ∀ s ∈ Icc (0 : ℝ) ε, y s = y0 s := fun s hs => if_pos hs.2
  have hyB : ∀ s ∈ Icc ε 1, y s = y1 s := by
    intro s hs
    rcases eq_or_lt_of_le hs.1 with he | he
    · subst he
      rw [e1]
      exact if_pos le_rfl
    · exact if_neg (not_le.2 he)
  have hU : Icc (0 : ℝ) 1 = Icc 0 ε ∪ Icc ε 1 := (Icc_union_Icc_eq_Icc h0.le (min_le_left _ _)).symm
  refine ⟨y, ⟨?_, ?_⟩, ?_⟩
  · rw [hU]
    exact (hy0c.congr hyA).union_of_isClosed (p1.cont.congr hyB) isClosed_Icc isClosed_Icc
  · intro s hs
    rw [hU] at hs
    rcases hs with hs | hs
    · rw [hyA s hs]; exact hy0 s hs
    · rw [hyB s hs]; exact p1.zero s hs
  · rw [hyA 0 ⟨le_rfl, h0.le⟩]; exact hy00

/-- Paths that start at the same point end at the same point. -/
theorem end_unique (h : ∀ ε : ℝ, 0 < ε → Regular H ε 1) {y₁ y₂ : ℝ → V} (h1 : ZeroPath H 0 1 y₁)
    (h2 : ZeroPath H 0 1 y₂) (he : y₁ 1 = y₂ 1) : y₁ 0 = y₂ 0 := by
  have hEq : EqOn y₁ y₂ (Ioc 0 1) := fun s hs =>
    open_unique h h1.openPath h2.openPath (s := 1) ⟨one_pos, le_rfl⟩ he s hs
  have hcl : (0 : ℝ) ∈ closure (Ioc (0 : ℝ) 1) := by
    rw [closure_Ioc (by norm_num)]
    exact ⟨le_rfl, zero_le_one⟩
  have hsub : Ioc (0 : ℝ) 1 ⊆ Icc 0 1 := Ioc_subset_Icc_self
  exact hEq.of_subset_closure h1.cont h2.cont hsub (by rw [closure_Ioc (by norm_num)])
    ⟨le_rfl, zero_le_one⟩

/-- Two paths with the same nonsingular end are the same. -/
theorem start_unique (h : ∀ ε : ℝ, 0 < ε → Regular H ε 1) {y₁ y₂ : ℝ → V} (h1 : ZeroPath H 0 1 y₁)
    (h2 : ZeroPath H 0 1 y₂) (hJ : IsUnit (jacV H (y₁ 0, 0))) (he : y₁ 0 = y₂ 0) : y₁ 1 = y₂ 1 := by
  haveI : CompleteSpace V := FiniteDimensional.complete ℂ V
  obtain ⟨Ψ, hr, hΨ⟩ := graph_homeo ((h 1 one_pos).analytic (y₁ 0, 0)) hJ
  have hnear : ∀ y, ZeroPath H 0 1 y → y 0 = y₁ 0 → ∀ᶠ s in 𝓝[Icc 0 1] (0 : ℝ), (y s, (s : ℂ)) ∈ Ψ.source := by
    intro y hy e
    have hc : ContinuousWithinAt (fun s : ℝ => (y s, (s : ℂ))) (Icc 0 1) 0 :=
      (hy.cont 0 ⟨le_rfl, zero_le_one⟩).prodMk Complex.continuous_ofReal.continuousWithinAt
    refine hc.preimage_mem_nhdsWithin (Ψ.open_source.mem_nhds ?_)
    simp only [e, Complex.ofReal_zero]
    exact hr
  have hev := (hnear y₁ h1 rfl).and (hnear y₂ h2 he.symm)
  have hle : 𝓝[>] (0 : ℝ) ≤ 𝓝[Icc 0 1] (0 : ℝ) := by
    rw [← nhdsWithin_Ioc_eq_nhdsGT (zero_lt_one (α := ℝ))]
    exact nhdsWithin_mono _ Ioc_subset_Icc_self
  have hev2 := (hev.filter_mono hle).and (Ioc_mem_nhdsGT (zero_lt_one (α := ℝ)))
  obtain ⟨s, ⟨hs1, hs2⟩, hs⟩ := hev2.exists
  have heq : (y₁ s, (s : ℂ)) = (y₂ s, (s : ℂ)) := by
    refine Ψ.injOn hs1 hs2 ?_
    rw [hΨ, hΨ, h1.zero s (Ioc_subset_Icc_self hs), h2.zero s (Ioc_subset_Icc_self hs)]
  exact open_unique h h1.openPath h2.openPath hs (Prod.mk.inj heq).1 1 ⟨one_pos, le_rfl⟩

/-- When the zeros are bounded up to time 0, they are near the zeros at time 0 for small times. -/
theorem near_ends (hc : Continuous H)
    (hb : ∃ R, ∀ (x : V) (s : ℝ), s ∈ Icc (0 : ℝ) 1 → H (x, (s : ℂ)) = 0 → ‖x‖ ≤ R) {U : Set V} (hU : IsOpen U)
    (hZ : ∀ x, H (x, 0) = 0 → x ∈ U) :
    ∃ δ : ℝ, 0 < δ ∧ δ ≤ 1 ∧ ∀ (x : V) (s : ℝ), s ∈ Ioc 0 δ → H (x, (s : ℂ)) = 0 → x ∈ U := by
  haveI : ProperSpace V := FiniteDimensional.proper ℂ V
  obtain ⟨R, hR⟩ := hb
  let K : Set (V × ℝ) := {q | q.2 ∈ Icc (0 : ℝ) 1 ∧ H (q.1, (q.2 : ℂ)) = 0 ∧ q.1 ∉ U}
  have hK : IsCompact K := by
    refine IsCompact.of_isClosed_subset ((isCompact_closedBall (0 : V) R).prod
      (isCompact_Icc (a := (0 : ℝ)) (b := 1))) ?_ ?_
    · refine (isClosed_Icc.preimage continuous_snd).inter (IsClosed.inter ?_ ?_)
      · exact isClosed_eq (hc.comp (by fun_prop)) continuous_const
      · exact hU.isClosed_compl.preimage continuous_fst
    · rintro ⟨x, s⟩ ⟨h1, h2, -⟩
      exact ⟨mem_closedBall_zero_iff.2 (hR x s h1 h2), h1⟩
  have hI : IsCompact (Prod.snd '' K) := hK.image continuous_snd
  have h0 : (0 : ℝ) ∈ (Prod.snd '' K)ᶜ := by
    rintro ⟨⟨x, s⟩, ⟨-, h2, h3⟩, rfl : s = 0⟩
    exact h3 (hZ x (by simpa using h2))
  obtain ⟨δ, hδ, hball⟩ := Metric.isOpen_iff.1 hI.isClosed.isOpen_compl 0 h0
  refine ⟨min 1 (δ / 2), lt_min one_pos (half_pos hδ), min_le_left _ _, fun x s hs hx => ?_⟩
  by_contra hxU
  refine hball (a := s) ?_ ⟨(x, s), ⟨⟨hs.1.le, hs.2.trans (min_le_left _ _)⟩, hx, hxU⟩, rfl⟩
  rw [Metric.mem_ball, dist_zero_right, Real.norm_of_nonneg hs.1.le]
  exact (hs.2.trans (min_le_right _ _)).trans_lt (half_lt_self hδ)

/-- When the zeros are bounded up to time 0 and finitely many at time 0, every path converges to one of
these. -/
theorem end_converges (hc : Continuous H)
    (hb : ∃ R, ∀ (x : V) (s : ℝ), s ∈ Icc (0 : ℝ) 1 → H (x, (s : ℂ)) = 0 → ‖x‖ ≤ R)
    (hfin : {x | H (x, 0) = 0}.Finite) {y : ℝ → V} (hy : OpenPath H y) :
    ∃ x, H (x, 0) = 0 ∧ Filter.Tendsto y (𝓝[>] 0) (𝓝 x) := by
  obtain ⟨Us, hUs, hdisj⟩ := hfin.t2_separation
  set Z := {x | H (x, 0) = 0} with hZ
  have hUopen : IsOpen (⋃ z ∈ Z, Us z) := isOpen_biUnion fun z _ => (hUs z).2
  obtain ⟨δ, h0, h1, hδ⟩ := near_ends hc hb hUopen fun x hx =>
    mem_biUnion (show x ∈ Z from hx) (hUs x).1
  have hin : ∀ s ∈ Ioc (0 : ℝ) δ, y s ∈ ⋃ z ∈ Z, Us z := fun s hs =>
    hδ _ s hs (hy.zero s ⟨hs.1, hs.2.trans h1⟩)
  obtain ⟨z0, hz0, hyz⟩ := mem_iUnion₂.1 (hin δ ⟨h0, le_rfl⟩)
  have hstay : ∀ s ∈ Ioc (0 : ℝ) δ, y s ∈ Us z0 := by
    have hpre : IsPreconnected (y '' Ioc 0 δ) :=
      isPreconnected_Ioc.image y (hy.cont.mono fun s hs => ⟨hs.1, hs.2.trans h1⟩)
    have hsub : y '' Ioc 0 δ ⊆ Us z0 := by
      refine hpre.subset_left_of_subset_union (hUs z0).2 (v := ⋃ z ∈ Z \ {z0}, Us z)
        (isOpen_biUnion fun z _ => (hUs z).2) ?_ ?_ ⟨y δ, ⟨δ, ⟨h0, le_rfl⟩, rfl⟩, hyz⟩
      · rw [disjoint_iUnion₂_right]
        intro z hz
        exact hdisj hz0 hz.1 (fun h => hz.2 h.symm)
      · rintro _ ⟨s, hs, rfl⟩
        obtain ⟨z, hz, hyz'⟩ := mem_iUnion₂.1 (hin s hs)
        by_cases hzz : z = z0
        · left; rw [← hzz]; exact hyz'
        · right; exact mem_biUnion (show z ∈ Z \ {z0} from ⟨hz, hzz⟩) hyz'
    exact fun s hs => hsub ⟨s, hs, rfl⟩
  refine ⟨z0, hz0, ?_⟩
  rw [tendsto_nhds]
  intro W hW hzW
  -- shrink the neighbourhood of `z0`
  let W' : Set V := (W ∩ Us z0) ∪ ⋃ z ∈ Z \ {z0}, Us z
  obtain ⟨δ', h0', h1', hδ'⟩ := near_ends hc hb (U := W')
    ((hW.inter (hUs z0).2).union (isOpen_biUnion fun z _ => (hUs z).2)) (by
      intro x hx
      by_cases hxz : x = z0
      · left; rw [hxz]; exact ⟨hzW, (hUs z0).1⟩
      · right; exact mem_biUnion (show x ∈ Z \ {z0} from ⟨hx, hxz⟩) (hUs x).1)
  refine Filter.mem_of_superset (Ioc_mem_nhdsGT (lt_min h0 h0')) fun s hs => ?_
  have hs1 : s ∈ Ioc 0 δ := ⟨hs.1, hs.2.trans (min_le_left _ _)⟩
  have hs2 : s ∈ Ioc 0 δ' := ⟨hs.1, hs.2.trans (min_le_right _ _)⟩
  rcases hδ' _ s hs2 (hy.zero s ⟨hs.1, hs2.2.trans h1'⟩) with h | h
  · exact h.1
  · obtain ⟨z, hz, hyz'⟩ := mem_iUnion₂.1 h
    exact ((hdisj hz0 hz.1 (fun h => hz.2 h.symm)).le_bot ⟨hstay s hs1, hyz'⟩).elim

end B2.Cont
