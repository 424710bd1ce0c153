import Verif.Cont.Lift
import Mathlib.Analysis.Normed.Module.Connected
import Mathlib.Analysis.Normed.Module.Ball.Homeomorph
import Mathlib.LinearAlgebra.Complex.FiniteDimensional
import Mathlib.Data.Set.Card

/-!
# The number of zeros in an open set

Pure mathematics: while no zero reaches the boundary and all zeros inside are nonsingular, the number of zeros in an
open set does not change.
-/

namespace B2.Cont

open B2.Predict Set Topology Filter

section
variable {V : Type} [NormedAddCommGroup V] [NormedSpace ℂ V] [CompleteSpace V]

/-- Near a nonsingular zero there is, at nearby parameters, exactly one zero. -/
theorem one_zero_near {H : V × ℂ → V} {x : V} {z : ℂ} (hH : AnalyticAt ℂ H (x, z)) (h0 : H (x, z) = 0)
    (hJ : IsUnit (jacV H (x, z))) {W : Set V} (hW : IsOpen W) (hx : x ∈ W) :
    ∃ W' ⊆ W, IsOpen W' ∧ x ∈ W' ∧ ∀ᶠ z' in 𝓝 z, ∃! x', x' ∈ W' ∧ H (x', z') = 0 := by
  obtain ⟨Ψ, hr, hΨ⟩ := graph_homeo hH hJ
  have hs : Ψ.source ∈ 𝓝 (x, z) := Ψ.open_source.mem_nhds hr
  rw [nhds_prod_eq, mem_prod_iff] at hs
  obtain ⟨A, hA, B, hB, hAB⟩ := hs
  obtain ⟨A', hA', hA'o, hxA'⟩ := mem_nhds_iff.1 hA
  refine ⟨A' ∩ W, inter_subset_right, hA'o.inter hW, ⟨hxA', hx⟩, ?_⟩
  have h1 : Ψ (x, z) = (0, z) := by rw [hΨ, h0]
  have ht : (0, z) ∈ Ψ.target := h1 ▸ Ψ.map_source hr
  have hinv : Ψ.symm (0, z) = (x, z) := by rw [← h1, Ψ.left_inv hr]
  have hc : Tendsto (fun z' : ℂ => Ψ.symm (0, z')) (𝓝 z) (𝓝 (x, z)) := by
    have h2 : ContinuousAt Ψ.symm (0, z) := Ψ.continuousAt_symm ht
    have h3 : Tendsto (fun z' : ℂ => ((0, z') : V × ℂ)) (𝓝 z) (𝓝 (0, z)) :=
      (continuous_const.prodMk continuous_id).tendsto z
    have := h2.tendsto.comp h3
    rwa [hinv] at this
  have e1 : ∀ᶠ z' in 𝓝 z, (Ψ.symm (0, z')).1 ∈ A' ∩ W :=
    ((continuous_fst.tendsto _).comp hc).eventually ((hA'o.inter hW).mem_nhds ⟨hxA', hx⟩)
  have e2 : ∀ᶠ z' in 𝓝 z, (0, z') ∈ Ψ.target := by
    have h3 : Tendsto (fun z' : ℂ => ((0, z') : V × ℂ)) (𝓝 z) (𝓝 (0, z)) :=
      (continuous_const.prodMk continuous_id).tendsto z
    exact h3.eventually (Ψ.open_target.mem_nhds ht)
  filter_upwards [e1, e2, hB] with z' k1 k2 k3
  have k4 := Ψ.right_inv k2
  rw [hΨ, Prod.mk.injEq] at k4
  have k5 : Ψ.symm (0, z') = ((Ψ.symm (0, z')).1, z') := Prod.ext rfl k4.2
  refine ⟨(Ψ.symm (0, z')).1, ⟨k1, by rw [← k5]; exact k4.1⟩, ?_⟩
  rintro x' ⟨hx', hx'0⟩
  have m1 : (x', z') ∈ Ψ.source := hAB ⟨hA' hx'.1, k3⟩
  have m2 : Ψ (x', z') = (0, z') := by rw [hΨ, hx'0]
  rw [← m2, Ψ.left_inv m1]

/-- **The number of zeros in an open set is locally constant**, where no zero is on the boundary and all inside are
nonsingular. -/
theorem count_const {H : V × ℂ → V} (hH : ∀ q, AnalyticAt ℂ H q) {U K : Set V} (hU : IsOpen U) (hK : IsCompact K)
    (hUK : U ⊆ K) {z : ℂ} (hin : ∀ x ∈ K, H (x, z) = 0 → x ∈ U)
    (hns : ∀ x ∈ U, H (x, z) = 0 → IsUnit (jacV H (x, z))) :
    {x | x ∈ U ∧ H (x, z) = 0}.Finite ∧
      ∀ᶠ z' in 𝓝 z, {x | x ∈ U ∧ H (x, z') = 0}.ncard = {x | x ∈ U ∧ H (x, z) = 0}.ncard := by
  have hcont : Continuous H := continuous_iff_continuousAt.2 fun q => (hH q).continuousAt
  -- the zeros are finitely many
  have hfin : {x | x ∈ U ∧ H (x, z) = 0}.Finite := by
    have hloc : ∀ x ∈ K, {y | y ∈ U ∧ H (y, z) = 0 → y = x} ∈ 𝓝 x := by
      intro x hx
      by_cases h0 : H (x, z) = 0
      · obtain ⟨W, -, hWo, hxW, hun⟩ := one_zero_near (hH (x, z)) h0 (hns x (hin x hx h0) h0) isOpen_univ (mem_univ x)
        obtain ⟨x', -, hx'⟩ := hun.self_of_nhds
        filter_upwards [hWo.mem_nhds hxW] with y hy hy0
        rw [hx' y ⟨hy, hy0.2⟩, hx' x ⟨hxW, h0⟩]
      · have : ∀ᶠ y in 𝓝 x, H (y, z) ≠ 0 := by
          have hc : ContinuousAt (fun y => H (y, z)) x := (hcont.comp (by fun_prop)).continuousAt
          exact hc.eventually_ne h0
        filter_upwards [this] with y hy hy0
        exact absurd hy0.2 hy
    obtain ⟨t, -, ht⟩ := hK.elim_nhds_subcover _ hloc
    refine t.finite_toSet.subset fun y hy => ?_
    obtain ⟨x, hx, hyx⟩ := mem_iUnion₂.1 (ht (hUK hy.1))
    rw [hyx hy]
    exact hx
  refine ⟨hfin, ?_⟩
  obtain ⟨S, hS, hdisj⟩ := hfin.t2_separation
  have hex : ∀ x, ∃ W : Set V, x ∈ U ∧ H (x, z) = 0 → W ⊆ S x ∩ U ∧ IsOpen W ∧ x ∈ W ∧
      ∀ᶠ z' in 𝓝 z, ∃! x', x' ∈ W ∧ H (x', z') = 0 := by
    intro x
    by_cases hx : x ∈ U ∧ H (x, z) = 0
    · obtain ⟨W, h1, h2, h3, h4⟩ := one_zero_near (hH (x, z)) hx.2 (hns x hx.1 hx.2) ((hS x).2.inter hU) ⟨(hS x).1, hx.1⟩
      exact ⟨W, fun _ => ⟨h1, h2, h3, h4⟩⟩
    · exact ⟨∅, fun h => absurd h hx⟩
  choose W hW using hex
  -- away from them there are no zeros
  have hrest : ∀ᶠ z' in 𝓝 z, ∀ x ∈ K \ ⋃ x ∈ {x | x ∈ U ∧ H (x, z) = 0}, W x, H (x, z') ≠ 0 := by
    refine IsCompact.eventually_forall_of_forall_eventually
      (hK.diff (isOpen_biUnion fun x hx => (hW x hx).2.1)) fun x hx => ?_
    have h0 : H (x, z) ≠ 0 := by
      intro h0
      exact hx.2 (mem_iUnion₂.2 ⟨x, ⟨hin x hx.1 h0, h0⟩, (hW x ⟨hin x hx.1 h0, h0⟩).2.2.1⟩)
    have hc : ContinuousAt (fun q : ℂ × V => H (q.2, q.1)) (z, x) := (hcont.comp (by fun_prop)).continuousAt
    exact hc.eventually_ne h0
  have hone : ∀ᶠ z' in 𝓝 z, ∀ x ∈ {x | x ∈ U ∧ H (x, z) = 0}, ∃! x', x' ∈ W x ∧ H (x', z') = 0 :=
    (eventually_all_finite hfin).2 fun x hx => (hW x hx).2.2.2
  filter_upwards [hrest, hone] with z' h1 h2
  choose! φ hφ hφu using h2
  have himg : {x | x ∈ U ∧ H (x, z') = 0} = φ '' {x | x ∈ U ∧ H (x, z) = 0} := by
    ext y
    constructor
    · rintro ⟨hy, hy0⟩
      by_cases hmem : y ∈ ⋃ x ∈ {x | x ∈ U ∧ H (x, z) = 0}, W x
      · obtain ⟨x, hx, hyx⟩ := mem_iUnion₂.1 hmem
        exact ⟨x, hx, (hφu x hx y ⟨hyx, hy0⟩).symm⟩
      · exact absurd hy0 (h1 y ⟨hUK hy, hmem⟩)
    · rintro ⟨x, hx, rfl⟩
      exact ⟨((hW x hx).1 (hφ x hx).1).2, (hφ x hx).2⟩
  rw [himg]
  refine ncard_image_of_injOn fun x hx x' hx' he => ?_
  by_contra hne
  have m1 := ((hW x hx).1 (hφ x hx).1).1
  have m2 := ((hW x' hx').1 (hφ x' hx').1).1
  rw [← he] at m2
  exact (disjoint_left.1 (hdisj hx hx' hne)) m1 m2

end

/-- What is locally constant on a disk, finitely many points excepted, is constant there. -/
theorem const_on_disk {N : ℂ → ℕ} {B : Set ℂ} (hB : B.Finite) {R : ℝ} (hR : 0 < R)
    (h : ∀ z ∈ Metric.ball (0 : ℂ) R, z ∉ B → ∀ᶠ z' in 𝓝 z, N z' = N z) {a b : ℂ} (ha : a ∈ Metric.ball (0 : ℂ) R)
    (haB : a ∉ B) (hb : b ∈ Metric.ball (0 : ℂ) R) (hbB : b ∉ B) : N a = N b := by
  let φ := OpenPartialHomeomorph.univBall (0 : ℂ) R
  have hφ : Continuous φ := OpenPartialHomeomorph.continuous_univBall 0 R
  have hsrc : φ.source = univ := OpenPartialHomeomorph.univBall_source 0 R
  have htgt : φ.target = Metric.ball 0 R := OpenPartialHomeomorph.univBall_target 0 hR
  have hmaps : ∀ w, φ w ∈ Metric.ball (0 : ℂ) R := fun w => htgt ▸ φ.map_source (by rw [hsrc]; trivial)
  have hinj : Function.Injective φ := fun w w' he => φ.injOn (by rw [hsrc]; trivial) (by rw [hsrc]; trivial) he
  have hfin : (φ ⁻¹' B).Finite := hB.preimage hinj.injOn
  have hconn : IsPreconnected (φ ⁻¹' B)ᶜ :=
    (hfin.countable.isPathConnected_compl_of_one_lt_rank (Complex.rank_real_complex ▸ Nat.one_lt_ofNat)).isConnected.isPreconnected
  have hcont : ContinuousOn (fun w => N (φ w)) (φ ⁻¹' B)ᶜ := by
    intro w hw
    refine ContinuousAt.continuousWithinAt ?_
    have : ∀ᶠ w' in 𝓝 w, N (φ w') = N (φ w) := hφ.continuousAt.eventually (h (φ w) (hmaps w) hw)
    exact tendsto_nhds_of_eventually_eq this
  have key := hconn.constant hcont (x := φ.symm a) (y := φ.symm b)
    (by
      show φ (φ.symm a) ∉ B
      rwa [φ.right_inv (by rwa [htgt])])
    (by
      show φ (φ.symm b) ∉ B
      rwa [φ.right_inv (by rwa [htgt])])
  rwa [φ.right_inv (by rwa [htgt]), φ.right_inv (by rwa [htgt])] at key

end B2.Cont
