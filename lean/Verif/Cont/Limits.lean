import Verif.Cont.Gamma
import Mathlib.RingTheory.KrullDimension.Polynomial
import Mathlib.RingTheory.KrullDimension.PID
import Mathlib.RingTheory.Ideal.KrullsHeightTheorem
import Mathlib.RingTheory.Jacobson.Ring
import Mathlib.RingTheory.Nullstellensatz
import Mathlib.RingTheory.Nakayama
import Mathlib.RingTheory.MvPolynomial.Ideal
import Mathlib.RingTheory.MvPolynomial.Homogeneous
import Mathlib.RingTheory.Ideal.GoingUp
import Mathlib.FieldTheory.Minpoly.IsIntegrallyClosed
import Mathlib.FieldTheory.IsAlgClosed.Basic
import Mathlib.Algebra.GCDMonoid.IntegrallyClosed
import Mathlib.Algebra.Module.Submodule.Union
import Mathlib.RingTheory.Polynomial.IsIntegral
import Mathlib.Algebra.Order.Field.Pi

/-!
# Every zero at time 0 is a limit of zeros at positive times

Pure mathematics: for homogeneous polynomials without common zeros on the hyperplane at infinity of the
patch, every zero of the target on the patch, singular or not, is approached by zeros of the homotopy as time goes to 0.
-/

namespace B2.Cont

open MvPolynomial Filter Topology

/-! ### Heights of maximal ideals -/

theorem height_polynomial {S : Type} [CommRing S] [IsNoetherianRing S] [IsJacobsonRing S] {h : ℕ∞}
    (hS : ∀ M : Ideal S, M.IsMaximal → M.height = h) (M : Ideal (Polynomial S)) (hM : M.IsMaximal) : M.height = h + 1 := by
  have hp : (M.comap Polynomial.C).IsMaximal := Polynomial.isMaximal_comap_C_of_isJacobsonRing M
  have hover : M.LiesOver (M.comap Polynomial.C) := ⟨rfl⟩
  rw [Polynomial.height_eq_height_add_one (M.comap Polynomial.C) M, hS _ hp]

theorem height_mvPolynomial (S : Type) [CommRing S] [IsNoetherianRing S] [IsJacobsonRing S] {h : ℕ∞}
    (hS : ∀ M : Ideal S, M.IsMaximal → M.height = h) : ∀ (m : ℕ) (M : Ideal (MvPolynomial (Fin m) S)), M.IsMaximal →
      M.height = h + m
  | 0, M, hM => by
    let e := (isEmptyRingEquiv S (Fin 0))
    have : (M.map e).IsMaximal := Ideal.map_isMaximal_of_equiv e
    rw [← e.height_map M, hS _ this]
    simp
  | m + 1, M, hM => by
    let e := (finSuccEquiv S m).toRingEquiv
    have h1 : (M.map e).IsMaximal := Ideal.map_isMaximal_of_equiv e
    rw [← e.height_map M, height_polynomial (height_mvPolynomial S hS m) _ h1]
    push_cast
    rw [add_assoc]

theorem height_max (m : ℕ) (M : Ideal (MvPolynomial (Fin m) (Polynomial ℂ))) (hM : M.IsMaximal) :
    M.height = m + 1 := by
  rw [height_mvPolynomial (Polynomial ℂ) (h := 1) ?_ m M hM, add_comm]
  intro N hN
  exact IsPrincipalIdealRing.height_eq_one_of_isMaximal N (Polynomial.not_isField ℂ)

/-! ### Homogeneous polynomials of high degree -/

section
variable {n : ℕ} {F E : Fin n → MvPolynomial (Fin (n + 1)) ℂ} {V : MvPolynomial (Fin (n + 1)) ℂ} {d : Fin n → ℕ}

/-- Without common zeros other than 0, all homogeneous polynomials of some degree are combinations. -/
theorem all_combinations (h : ∀ x, (∀ i, eval x (F i) = 0) → eval x V = 0 → x = 0) :
    ∃ k, ∀ p : MvPolynomial (Fin (n + 1)) ℂ, p.IsHomogeneous (k + 1) →
      ∃ (a : Fin n → MvPolynomial (Fin (n + 1)) ℂ) (b : MvPolynomial (Fin (n + 1)) ℂ), p = ∑ i, a i * F i + b * V := by
  set J := Ideal.span (Set.range F ∪ {V}) with hJ
  have hrad : idealOfVars (Fin (n + 1)) ℂ ≤ J.radical := by
    rw [← vanishingIdeal_zeroLocus_eq_radical (K := ℂ)]
    unfold idealOfVars
    rw [Ideal.span_le]
    rintro _ ⟨j, rfl⟩
    intro x hx
    have hx' : ∀ p ∈ Set.range F ∪ {V}, eval x p = 0 := fun p hp => by
      have := hx p (Ideal.subset_span hp)
      simpa using this
    have := h x (fun i => hx' _ (Or.inl ⟨i, rfl⟩)) (hx' _ (Or.inr rfl))
    simp [this]
  obtain ⟨k, hk⟩ := Ideal.exists_pow_le_of_le_radical_of_fg hrad (idealOfVars_fg _ _)
  refine ⟨k, fun p hp => ?_⟩
  have hmem : p ∈ J := by
    apply hk
    rw [mem_pow_idealOfVars_iff']
    intro α hα
    exact hp.coeff_eq_zero (by omega)
  rw [hJ, Ideal.span_union, Submodule.mem_sup] at hmem
  obtain ⟨q, hq, q', hq', rfl⟩ := hmem
  obtain ⟨a, ha⟩ := (Ideal.mem_span_range_iff_exists_fun).1 hq
  obtain ⟨b, hb⟩ := Ideal.mem_span_singleton'.1 hq'
  exact ⟨a, b, by rw [ha, hb]⟩

variable {D : Type} [CommRing D] [Algebra ℂ D] [Algebra (Polynomial ℂ) D] [IsScalarTower ℂ (Polynomial ℂ) D]

theorem component_mul {m : ℕ} {a b : MvPolynomial (Fin m) ℂ} {i : ℕ} (hb : b.IsHomogeneous i) (k : ℕ) :
    homogeneousComponent k (a * b) = if i ≤ k then homogeneousComponent (k - i) a * b else 0 := by
  conv_lhs => rw [← sum_homogeneousComponent a]
  rw [Finset.sum_mul, map_sum]
  have h1 : ∀ j, homogeneousComponent k (homogeneousComponent j a * b) =
      if k = j + i then homogeneousComponent j a * b else 0 := fun j =>
    homogeneousComponent_of_mem ((homogeneousComponent_isHomogeneous j a).mul hb)
  simp only [h1]
  by_cases hi : i ≤ k
  · rw [if_pos hi]
    by_cases hk : k - i ∈ Finset.range (a.totalDegree + 1)
    · rw [Finset.sum_eq_single_of_mem _ hk fun j _ hj => if_neg (by omega), if_pos (by omega)]
    · rw [homogeneousComponent_eq_zero _ _ (by rw [Finset.mem_range] at hk; omega), zero_mul]
      refine Finset.sum_eq_zero fun j hj => if_neg ?_
      rintro rfl
      simp at hk hj
      omega
  · rw [if_neg hi]
    exact Finset.sum_eq_zero fun j _ => if_neg (by omega)

/-- The module of the values of homogeneous polynomials of degree `k`. -/
noncomputable def homSpan (ξ : Fin (n + 1) → D) (k : ℕ) : Submodule (Polynomial ℂ) D :=
  Submodule.span (Polynomial ℂ) ((fun p => aeval ξ p) '' {p : MvPolynomial (Fin (n + 1)) ℂ | p.IsHomogeneous k})

theorem homSpan_fg (ξ : Fin (n + 1) → D) (k : ℕ) : (homSpan ξ k).FG := by
  have hfin : {α : Fin (n + 1) →₀ ℕ | α.degree = k}.Finite :=
    (Finsupp.finite_of_degree_le (σ := Fin (n + 1)) k).subset fun α hα => (le_of_eq hα : α.degree ≤ k)
  have : homSpan ξ k = Submodule.span (Polynomial ℂ)
      ((fun α : Fin (n + 1) →₀ ℕ => aeval ξ (monomial α (1 : ℂ))) '' {α | α.degree = k}) := by
    apply le_antisymm
    · unfold homSpan
      rw [Submodule.span_le]
      rintro _ ⟨p, hp, rfl⟩
      show aeval ξ p ∈ _
      rw [p.as_sum, map_sum]
      refine Submodule.sum_mem _ fun α hα => ?_
      have h1 : monomial α (coeff α p) = (coeff α p) • monomial α (1 : ℂ) := by
        rw [smul_monomial, smul_eq_mul, mul_one]
      rw [h1, map_smul, ← algebraMap_smul (Polynomial ℂ)]
      refine Submodule.smul_mem _ _ (Submodule.subset_span ⟨α, ?_, rfl⟩)
      by_contra hc
      exact mem_support_iff.1 hα (hp.coeff_eq_zero hc)
    · rw [Submodule.span_le]
      rintro _ ⟨α, hα, rfl⟩
      exact Submodule.subset_span ⟨_, isHomogeneous_monomial _ hα, rfl⟩
  rw [this]
  exact Submodule.fg_span (hfin.image _)

/-- When, up to multiples of the time, the polynomials vanish and the patch holds, the coordinates are integral
over the polynomials in the time, up to a polynomial with value 1 at time 0. -/
theorem integral_coords [IsDomain D] (h : ∀ x, (∀ i, eval x (F i) = 0) → eval x V = 0 → x = 0)
    (hF : ∀ i, (F i).IsHomogeneous (d i)) (hE : ∀ i, (E i).IsHomogeneous (d i)) (hV : V.IsHomogeneous 1)
    (ξ : Fin (n + 1) → D) (h1 : ∀ i, aeval ξ (F i) = algebraMap (Polynomial ℂ) D Polynomial.X * aeval ξ (E i))
    (h2 : aeval ξ V = 1) :
    ∃ s : Polynomial ℂ, s.eval 0 = 1 ∧ ∀ j, IsIntegral (Polynomial ℂ) (algebraMap (Polynomial ℂ) D s * ξ j) := by
  obtain ⟨k, hk⟩ := all_combinations h
  have hsub : homSpan ξ (k + 1) ≤ homSpan ξ k ⊔ Ideal.span {(Polynomial.X : Polynomial ℂ)} • homSpan ξ (k + 1) := by
    conv_lhs => unfold homSpan
    rw [Submodule.span_le]
    rintro _ ⟨p, hp, rfl⟩
    obtain ⟨a, b, hab⟩ := hk p hp
    have hcomp : p = ∑ i, homogeneousComponent (k + 1) (a i * F i) + homogeneousComponent (k + 1) (b * V) := by
      conv_lhs => rw [← homogeneousComponent_eq_self hp, hab]
      rw [map_add, map_sum]
    show aeval ξ p ∈ _
    rw [hcomp, map_add, map_sum, add_comm (∑ i, _)]
    refine Submodule.add_mem_sup ?_ (Submodule.sum_mem _ fun i _ => ?_)
    · rw [component_mul hV, if_pos (by omega), map_mul, h2, mul_one]
      exact Submodule.subset_span ⟨_, homogeneousComponent_isHomogeneous _ _, rfl⟩
    · rw [component_mul (hF i)]
      split_ifs with hi
      · rw [map_mul, h1, mul_left_comm, ← Algebra.smul_def, ← map_mul]
        refine Submodule.smul_mem_smul (Ideal.mem_span_singleton_self _) (Submodule.subset_span ⟨_, ?_, rfl⟩)
        have := (homogeneousComponent_isHomogeneous (k + 1 - d i) (a i)).mul (hE i)
        rwa [Nat.sub_add_cancel hi] at this
      · rw [map_zero]; exact Submodule.zero_mem _
  obtain ⟨s, hs1, hs2⟩ := Submodule.exists_sub_one_mem_and_smul_le_of_fg_of_le_sup (homSpan_fg ξ (k + 1)) le_rfl hsub
  refine ⟨s, ?_, fun j => ?_⟩
  · obtain ⟨q, hq⟩ := Ideal.mem_span_singleton'.1 hs1
    have : s = q * Polynomial.X + 1 := by rw [hq]; ring
    rw [this]
    simp
  · refine isIntegral_of_smul_mem_submodule (M := D) (homSpan ξ k) ?_ (homSpan_fg ξ k) _ ?_
    · intro hb
      have : (1 : D) ∈ homSpan ξ k := Submodule.subset_span ⟨V ^ k, by simpa using hV.pow k, by simp [h2]⟩
      rw [hb, Submodule.mem_bot] at this
      exact one_ne_zero this
    · intro m hm
      have : ξ j * m ∈ homSpan ξ (k + 1) := by
        unfold homSpan at hm
        induction hm using Submodule.span_induction with
        | mem x hx =>
          obtain ⟨p, hp, rfl⟩ := hx
          refine Submodule.subset_span ⟨X j * p, ?_, by simp⟩
          have := (isHomogeneous_X ℂ j).mul hp
          rwa [add_comm 1 k] at this
        | zero => simp
        | add x y _ _ hx hy => rw [mul_add]; exact Submodule.add_mem _ hx hy
        | smul c x _ hx => rw [mul_smul_comm]; exact Submodule.smul_mem _ _ hx
      have := hs2 (Submodule.smul_mem_pointwise_smul _ s _ this)
      rwa [smul_eq_mul, mul_assoc, ← Algebra.smul_def]

theorem aeval_mul_homogeneous {A : Type} [CommRing A] [Algebra ℂ A] {p : MvPolynomial (Fin (n + 1)) ℂ} {e : ℕ}
    (hp : p.IsHomogeneous e) (c : A) (x : Fin (n + 1) → A) : aeval (fun j => c * x j) p = c ^ e * aeval x p := by
  rw [aeval_eq_eval₂Hom, aeval_eq_eval₂Hom, coe_eval₂Hom, coe_eval₂Hom, eval₂_eq', eval₂_eq', Finset.mul_sum]
  refine Finset.sum_congr rfl fun m hm => ?_
  have he : ∑ i, m i = e := by
    have := hp (mem_support_iff.1 hm)
    simpa [Finsupp.weight_apply, Finsupp.sum_fintype] using this
  simp only [mul_pow, Finset.prod_mul_distrib]
  rw [Finset.prod_pow_eq_pow_sum, he]
  ring

/-- Homomorphisms to the complex numbers extend along integral homomorphisms. -/
theorem lift_hom {A B : Type} [CommRing A] [CommRing B] (g : A →+* B) (hg : g.IsIntegral) (φ : A →+* ℂ)
    (hφ : Function.Surjective φ) (hker : RingHom.ker g ≤ RingHom.ker φ) : ∃ ψ : B →+* ℂ, ∀ a, ψ (g a) = φ a := by
  letI := g.toAlgebra
  have : Algebra.IsIntegral A B := ⟨hg⟩
  have hmax : (RingHom.ker φ).IsMaximal := RingHom.ker_isMaximal_of_surjective φ hφ
  obtain ⟨Q, hQ, hc⟩ := Ideal.exists_ideal_over_maximal_of_isIntegral (S := B) (RingHom.ker φ) hker
  have hle : RingHom.ker φ ≤ RingHom.ker ((Ideal.Quotient.mk Q).comp g) := by
    intro a ha
    rw [← hc] at ha
    rw [RingHom.mem_ker, RingHom.comp_apply, Ideal.Quotient.eq_zero_iff_mem]
    exact ha
  let h : ℂ →+* B ⧸ Q := φ.liftOfSurjective hφ ⟨(Ideal.Quotient.mk Q).comp g, hle⟩
  have hcomp : h.comp φ = (Ideal.Quotient.mk Q).comp g := φ.liftOfRightInverse_comp _ _ _
  have hint : h.IsIntegral := by
    refine RingHom.IsIntegral.tower_top φ h ?_
    rw [hcomp]
    exact hg.trans _ _ (RingHom.isIntegral_of_surjective _ Ideal.Quotient.mk_surjective)
  have hbij := IsAlgClosed.ringHom_bijective_of_isIntegral h hint
  let e := RingEquiv.ofBijective h hbij
  refine ⟨(e.symm : B ⧸ Q →+* ℂ).comp (Ideal.Quotient.mk Q), fun a => ?_⟩
  rw [RingHom.comp_apply, RingHom.coe_coe, RingEquiv.symm_apply_eq]
  exact (congrFun (congrArg DFunLike.coe hcomp) a).symm

/-! ### A curve through a zero of the target -/

/-- Evaluation at a time and a point. -/
noncomputable def evAt (t : ℂ) (x : Fin (n + 1) → ℂ) : MvPolynomial (Fin (n + 1)) (Polynomial ℂ) →+* ℂ :=
  eval₂Hom (Polynomial.evalRingHom t) x

/-- Polynomials in the coordinates, as polynomials in time and coordinates. -/
noncomputable def up : MvPolynomial (Fin (n + 1)) ℂ →ₐ[ℂ] MvPolynomial (Fin (n + 1)) (Polynomial ℂ) :=
  aeval (fun j => (X j : MvPolynomial (Fin (n + 1)) (Polynomial ℂ)))

theorem evAt_up (t : ℂ) (x : Fin (n + 1) → ℂ) (p : MvPolynomial (Fin (n + 1)) ℂ) : evAt t x (up p) = eval x p := by
  have : (evAt t x).comp (up : MvPolynomial (Fin (n + 1)) ℂ →ₐ[ℂ] _).toRingHom = eval x := by
    apply MvPolynomial.ringHom_ext
    · intro c
      simp [evAt, up, MvPolynomial.algebraMap_apply]
    · intro j
      simp [evAt, up]
  exact congrFun (congrArg DFunLike.coe this) p

/-- A ring of functions on a curve: a quotient `D` of the polynomials in time and coordinates. -/
structure IsCurve (F E : Fin n → MvPolynomial (Fin (n + 1)) ℂ) (V : MvPolynomial (Fin (n + 1)) ℂ)
    (π : MvPolynomial (Fin (n + 1)) (Polynomial ℂ) →+* D) : Prop where
  surj : Function.Surjective π
  alg : ∀ q, π (C q) = algebraMap (Polynomial ℂ) D q
  eqF : ∀ i, π (up (F i)) = π (C Polynomial.X) * π (up (E i))
  eqV : π (up V) = 1

variable {π : MvPolynomial (Fin (n + 1)) (Polynomial ℂ) →+* D}

theorem IsCurve.up (hc : IsCurve F E V π) (p : MvPolynomial (Fin (n + 1)) ℂ) :
    π (Cont.up p) = aeval (fun j => π (X j)) p := by
  have : π.comp (Cont.up : MvPolynomial (Fin (n + 1)) ℂ →ₐ[ℂ] _).toRingHom =
      (aeval (fun j => π (X j)) : MvPolynomial (Fin (n + 1)) ℂ →ₐ[ℂ] D).toRingHom := by
    apply MvPolynomial.ringHom_ext
    · intro c
      have h1 : π (C (Polynomial.C c)) = algebraMap ℂ D c := by
        rw [hc.alg, IsScalarTower.algebraMap_apply ℂ (Polynomial ℂ) D]
        rfl
      simpa [Cont.up, MvPolynomial.algebraMap_apply] using h1
    · intro j
      simp [Cont.up]
  exact congrFun (congrArg DFunLike.coe this) p

/-- The coordinates on the curve are integral over the polynomials in the time, up to a factor. -/
theorem IsCurve.integral [IsDomain D] (hc : IsCurve F E V π) (h : ∀ x, (∀ i, eval x (F i) = 0) → eval x V = 0 → x = 0)
    (hF : ∀ i, (F i).IsHomogeneous (d i)) (hE : ∀ i, (E i).IsHomogeneous (d i)) (hV : V.IsHomogeneous 1) :
    ∃ s : Polynomial ℂ, s.eval 0 = 1 ∧ ∀ j, IsIntegral (Polynomial ℂ) (algebraMap (Polynomial ℂ) D s * π (X j)) := by
  refine integral_coords h hF hE hV _ (fun i => ?_) ?_
  · rw [← hc.up, ← hc.up, hc.eqF, hc.alg]
  · rw [← hc.up, hc.eqV]

/-- A curve inside time 0 is a point. -/
theorem IsCurve.point [IsDomain D] (hc : IsCurve F E V π) (h : ∀ x, (∀ i, eval x (F i) = 0) → eval x V = 0 → x = 0)
    (hF : ∀ i, (F i).IsHomogeneous (d i)) (hE : ∀ i, (E i).IsHomogeneous (d i)) (hV : V.IsHomogeneous 1)
    (hX : π (C Polynomial.X) = 0) : (RingHom.ker π).IsMaximal := by
  obtain ⟨s, hs, hint⟩ := hc.integral h hF hE hV
  have hX0 : algebraMap (Polynomial ℂ) D Polynomial.X = 0 := by rw [← hc.alg, hX]
  have hs1 : algebraMap (Polynomial ℂ) D s = 1 := by
    have : s = Polynomial.X * s.divX + Polynomial.C (s.coeff 0) := (Polynomial.X_mul_divX_add s).symm
    rw [this, map_add, map_mul, hX0, zero_mul, zero_add, Polynomial.coeff_zero_eq_eval_zero, hs, map_one, map_one]
  simp only [hs1, one_mul] at hint
  have hall : Algebra.IsIntegral (Polynomial ℂ) D := by
    refine ⟨fun a => ?_⟩
    obtain ⟨p, rfl⟩ := hc.surj a
    induction p using MvPolynomial.induction_on with
    | C q => rw [hc.alg]; exact isIntegral_algebraMap (x := q)
    | add p q hp hq => rw [map_add]; exact hp.add hq
    | mul_X p j hp => rw [map_mul]; exact hp.mul (hint j)
  have hbot : ((⊥ : Ideal D).comap (algebraMap (Polynomial ℂ) D)).IsMaximal := by
    have hmem : Ideal.span {(Polynomial.X : Polynomial ℂ)} ≤ (⊥ : Ideal D).comap (algebraMap (Polynomial ℂ) D) := by
      rw [Ideal.span_singleton_le_iff_mem, Ideal.mem_comap, hX0]
      exact Ideal.zero_mem _
    have hXmax : (Ideal.span {(Polynomial.X : Polynomial ℂ)}).IsMaximal :=
      PrincipalIdealRing.isMaximal_of_irreducible Polynomial.irreducible_X
    have hne : (⊥ : Ideal D).comap (algebraMap (Polynomial ℂ) D) ≠ ⊤ := (Ideal.comap_isPrime _ _).ne_top
    rwa [← hXmax.eq_of_le hne hmem]
  have h3 := Ideal.isMaximal_of_isIntegral_of_isMaximal_comap (R := Polynomial ℂ) (⊥ : Ideal D) hbot
  have := Ideal.comap_isMaximal_of_surjective π hc.surj (K := ⊥)
  rwa [← RingHom.ker_eq_comap_bot] at this

end

/-- Through every zero of the target there is a curve not inside time 0. -/
theorem exists_curve {n : ℕ} {F E : Fin n → MvPolynomial (Fin (n + 1)) ℂ} {V : MvPolynomial (Fin (n + 1)) ℂ} {d : Fin n → ℕ}
    (h : ∀ x, (∀ i, eval x (F i) = 0) → eval x V = 0 → x = 0)
    (hF : ∀ i, (F i).IsHomogeneous (d i)) (hE : ∀ i, (E i).IsHomogeneous (d i)) (hV : V.IsHomogeneous 1)
    (z : Fin (n + 1) → ℂ) (hz : ∀ i, eval z (F i) = 0) (hz1 : eval z V = 1) :
    ∃ (D : Type) (_ : CommRing D) (_ : IsDomain D) (_ : Algebra (Polynomial ℂ) D) (_ : Algebra ℂ D)
      (_ : IsScalarTower ℂ (Polynomial ℂ) D) (π : MvPolynomial (Fin (n + 1)) (Polynomial ℂ) →+* D),
      IsCurve F E V π ∧ (∀ p, π p = 0 → evAt 0 z p = 0) ∧ π (C Polynomial.X) ≠ 0 := by
  set S : Set (MvPolynomial (Fin (n + 1)) (Polynomial ℂ)) :=
    insert (up V - 1) (Set.range fun i => up (F i) - C Polynomial.X * up (E i)) with hS
  have hfin : S.Finite := (Set.finite_range _).insert _
  have hcard : S.ncard ≤ n + 1 := by
    refine (Set.ncard_insert_le _ _).trans ?_
    have : (Set.range fun i => up (F i) - C Polynomial.X * up (E i)).ncard ≤ n := by
      rw [← Set.image_univ]
      exact (Set.ncard_image_le Set.finite_univ).trans (by simp)
    omega
  have hsurj : Function.Surjective (evAt 0 z) := fun c => ⟨C (Polynomial.C c), by simp [evAt]⟩
  have hmax : (RingHom.ker (evAt 0 z)).IsMaximal := RingHom.ker_isMaximal_of_surjective _ hsurj
  have hle : Ideal.span S ≤ RingHom.ker (evAt 0 z) := by
    rw [Ideal.span_le]
    rintro p (rfl | ⟨i, rfl⟩)
    · simp [RingHom.mem_ker, evAt_up, hz1]
    · simp only [SetLike.mem_coe, RingHom.mem_ker, map_sub, map_mul, evAt_up, hz]
      simp [evAt]
  obtain ⟨P, hP, hPM⟩ := Ideal.exists_minimalPrimes_le hle
  have hprime : P.IsPrime := hP.1.1
  have hsub : S ⊆ P := fun p hp => hP.1.2 (Ideal.subset_span hp)
  have hheight : P.height ≤ (n + 1 : ℕ) :=
    (Ideal.height_le_card_of_mem_minimalPrimes_span hfin hP).trans (by exact_mod_cast hcard)
  let R := MvPolynomial (Fin (n + 1)) (Polynomial ℂ)
  have hmem : ∀ p : R, Ideal.Quotient.mk P p = 0 ↔ p ∈ P := fun p => Ideal.Quotient.eq_zero_iff_mem
  have hcurve : IsCurve (D := R ⧸ P) F E V (Ideal.Quotient.mk P) :=
    ⟨Ideal.Quotient.mk_surjective, fun q => rfl, fun i => by
      rw [← map_mul, ← sub_eq_zero, ← map_sub, hmem]
      exact hsub (Or.inr ⟨i, rfl⟩), by
      rw [← map_one (Ideal.Quotient.mk P), ← sub_eq_zero, ← map_sub, hmem]
      exact hsub (Or.inl rfl)⟩
  refine ⟨R ⧸ P, inferInstance, inferInstance, inferInstance, inferInstance, inferInstance, Ideal.Quotient.mk P, hcurve,
    fun p hp => hPM ((hmem p).1 hp), fun hX => ?_⟩
  have hPmax := hcurve.point h hF hE hV hX
  rw [Ideal.mk_ker] at hPmax
  rw [height_max _ _ hPmax] at hheight
  norm_cast at hheight
  omega

section
variable {n : ℕ} {F E : Fin n → MvPolynomial (Fin (n + 1)) ℂ} {V : MvPolynomial (Fin (n + 1)) ℂ} {d : Fin n → ℕ}

/-- The values of a linear form on the zeros of the homotopy at a time are the roots of a monic polynomial, with
coefficients polynomials in the time; at time 0 the value at `z` is among them. -/
theorem exists_minpoly (h : ∀ x, (∀ i, eval x (F i) = 0) → eval x V = 0 → x = 0)
    (hF : ∀ i, (F i).IsHomogeneous (d i)) (hE : ∀ i, (E i).IsHomogeneous (d i)) (hV : V.IsHomogeneous 1)
    (z : Fin (n + 1) → ℂ) (hz : ∀ i, eval z (F i) = 0) (hz1 : eval z V = 1) (c : Fin (n + 1) → ℂ) :
    ∃ (s : Polynomial ℂ) (μ : Polynomial (Polynomial ℂ)), s.eval 0 = 1 ∧ μ.Monic ∧
      (μ.map (Polynomial.evalRingHom 0)).eval (∑ j, c j * z j) = 0 ∧
      ∀ t r : ℂ, s.eval t ≠ 0 → (μ.map (Polynomial.evalRingHom t)).eval r = 0 →
        ∃ x, (∀ i, eval x (F i) = t * eval x (E i)) ∧ eval x V = 1 ∧ s.eval t * ∑ j, c j * x j = r := by
  obtain ⟨D, _, _, _, _, _, π, hc, hPz, hX⟩ := exists_curve h hF hE hV z hz hz1
  obtain ⟨s, hs, hint⟩ := hc.integral h hF hE hV
  have hinj : Function.Injective (algebraMap (Polynomial ℂ) D) := by
    rw [injective_iff_map_eq_zero]
    intro q hq
    by_contra hq0
    obtain ⟨r, hr, hnd⟩ := Polynomial.exists_eq_pow_rootMultiplicity_mul_and_not_dvd q hq0 0
    rw [Polynomial.C_0, sub_zero] at hr hnd
    rw [hr, map_mul, map_pow, ← hc.alg, ← hc.alg] at hq
    have hrP := (mul_eq_zero.1 hq).resolve_left (pow_ne_zero _ hX)
    have := hPz _ hrP
    simp [evAt] at this
    exact hnd (Polynomial.X_dvd_iff.2 (by rw [Polynomial.coeff_zero_eq_eval_zero, this]))
  have htf : Module.IsTorsionFree (Polynomial ℂ) D := by
    have := (faithfulSMul_iff_algebraMap_injective (Polynomial ℂ) D).2 hinj
    infer_instance
  let A := integralClosure (Polynomial ℂ) D
  let ξ : Fin (n + 1) → A := fun j => ⟨algebraMap (Polynomial ℂ) D s * π (X j), hint j⟩
  let l : A := ∑ j, algebraMap (Polynomial ℂ) A (Polynomial.C (c j)) * ξ j
  let L : MvPolynomial (Fin (n + 1)) (Polynomial ℂ) := C s * ∑ j, C (Polynomial.C (c j)) * X j
  have hl : IsIntegral (Polynomial ℂ) (l : D) := l.2
  have hlval : (l : D) = π L := by
    have e1 : (l : D) = ∑ j, algebraMap (Polynomial ℂ) D (Polynomial.C (c j)) * (algebraMap (Polynomial ℂ) D s * π (X j)) := by
      show A.val l = _
      rw [map_sum]
      refine Finset.sum_congr rfl fun j _ => ?_
      rw [map_mul]
      rfl
    rw [e1, map_mul, map_sum, hc.alg, Finset.mul_sum]
    refine Finset.sum_congr rfl fun j _ => ?_
    rw [map_mul, hc.alg]
    ring
  refine ⟨s, minpoly (Polynomial ℂ) (l : D), hs, minpoly.monic hl, ?_, fun t r ht hr => ?_⟩
  · have h0 := minpoly.aeval (Polynomial ℂ) (l : D)
    set μ := minpoly (Polynomial ℂ) (l : D) with hμ
    rw [hlval] at h0
    have h1 : Polynomial.aeval (π L) μ = π (μ.eval₂ C L) := by
      rw [Polynomial.hom_eval₂, Polynomial.aeval_def]
      congr 1
      refine RingHom.ext fun q => ?_
      exact (hc.alg q).symm
    rw [h1] at h0
    have h2 := hPz _ h0
    rw [Polynomial.hom_eval₂] at h2
    rw [Polynomial.eval_map]
    have e1 : (evAt 0 z).comp C = Polynomial.evalRingHom 0 := by
      refine RingHom.ext fun q => ?_
      simp [evAt]
    have e2 : evAt 0 z L = ∑ j, c j * z j := by
      simp [evAt, L, hs]
    rwa [e1, e2] at h2
  · let g : Polynomial (Polynomial ℂ) →+* A := (Polynomial.aeval l).toRingHom
    let φ : Polynomial (Polynomial ℂ) →+* ℂ := Polynomial.eval₂RingHom (Polynomial.evalRingHom t) r
    have hgC : g.comp Polynomial.C = algebraMap (Polynomial ℂ) A := by
      refine RingHom.ext fun q => ?_
      simp [g]
    obtain ⟨ψ, hψ⟩ := lift_hom g (by
      refine RingHom.IsIntegral.tower_top Polynomial.C g ?_
      rw [hgC]
      exact (integralClosure.AlgebraIsIntegral : Algebra.IsIntegral (Polynomial ℂ) A).isIntegral) φ (fun a => ⟨Polynomial.C (Polynomial.C a), by simp [φ]⟩) (by
      intro p hp
      have h1 : Polynomial.aeval l p = 0 := hp
      have h2 : Polynomial.aeval (l : D) p = 0 := by
        have := congrArg A.val h1
        rwa [map_zero, ← Polynomial.aeval_algHom_apply] at this
      obtain ⟨q, rfl⟩ := minpoly.isIntegrallyClosed_dvd hl h2
      rw [RingHom.mem_ker, map_mul]
      rw [Polynomial.eval_map] at hr
      have : φ (minpoly (Polynomial ℂ) (l : D)) = 0 := hr
      rw [this, zero_mul])
    have hψq : ∀ q, ψ (algebraMap (Polynomial ℂ) A q) = q.eval t := by
      intro q
      rw [← hgC, RingHom.comp_apply, hψ]
      simp [φ]
    have hψl : ψ l = r := by
      have := hψ Polynomial.X
      simpa [g, φ] using this
    let f : ℂ →+* A := (algebraMap (Polynomial ℂ) A).comp Polynomial.C
    have hval : ∀ p, (eval₂ f ξ p : A) = aeval (fun j => algebraMap (Polynomial ℂ) D s * π (X j)) p := by
      intro p
      have := eval₂_comp_left (A.val : A →+* D) f ξ p
      rw [RingHom.coe_coe] at this
      refine (this : A.val _ = _).trans ?_
      rw [aeval_eq_eval₂Hom, coe_eval₂Hom]
      congr 1
      refine RingHom.ext fun a => ?_
      exact (IsScalarTower.algebraMap_apply ℂ (Polynomial ℂ) D a).symm
    have hev : ∀ p, ψ (eval₂ f ξ p) = eval (fun j => ψ (ξ j)) p := by
      intro p
      rw [eval₂_comp_left]
      have : ψ.comp f = RingHom.id ℂ := by
        refine RingHom.ext fun a => ?_
        simp [f, hψq]
      rw [this]
      rfl
    have hyF : ∀ i, eval (fun j => ψ (ξ j)) (F i) = t * eval (fun j => ψ (ξ j)) (E i) := by
      intro i
      rw [← hev, ← hev]
      have : eval₂ f ξ (F i) = algebraMap (Polynomial ℂ) A Polynomial.X * eval₂ f ξ (E i) := by
        apply Subtype.ext
        rw [hval]
        show _ = algebraMap (Polynomial ℂ) D Polynomial.X * (eval₂ f ξ (E i) : A)
        rw [hval, aeval_mul_homogeneous (hF i), aeval_mul_homogeneous (hE i), ← hc.up, ← hc.up, hc.eqF, hc.alg]
        ring
      rw [this, map_mul, hψq, Polynomial.eval_X]
    have hyV : eval (fun j => ψ (ξ j)) V = s.eval t := by
      rw [← hev, ← hψq]
      congr 1
      apply Subtype.ext
      rw [hval, aeval_mul_homogeneous hV, ← hc.up, hc.eqV, pow_one, mul_one]
      rfl
    refine ⟨(s.eval t)⁻¹ • fun j => ψ (ξ j), fun i => ?_, ?_, ?_⟩
    · rw [eval_smul_homogeneous (hF i), eval_smul_homogeneous (hE i), hyF]
      ring
    · rw [eval_smul_homogeneous hV, hyV, pow_one, inv_mul_cancel₀ ht]
    · rw [← hψl, map_sum, Finset.mul_sum]
      refine Finset.sum_congr rfl fun j _ => ?_
      rw [map_mul, hψq, Polynomial.eval_C, Pi.smul_apply, smul_eq_mul]
      field_simp

/-- A monic polynomial small at a point has a root near the point. -/
theorem exists_root_near {p : Polynomial ℂ} (hp : p.Monic) (a : ℂ) {δ : ℝ} (hδ : 0 < δ)
    (h : ‖p.eval a‖ < δ ^ p.natDegree) : ∃ r, p.eval r = 0 ∧ ‖r - a‖ < δ := by
  by_contra hc
  push Not at hc
  have hs := IsAlgClosed.splits p
  rw [hs.eval_eq_prod_roots_of_monic hp, hs.natDegree_eq_card_roots] at h
  have key : ∀ m : Multiset ℂ, (∀ r ∈ m, δ ≤ ‖r - a‖) → δ ^ Multiset.card m ≤ ‖(m.map (a - ·)).prod‖ := by
    intro m
    induction m using Multiset.induction_on with
    | empty => intro _; simp
    | cons r m ih =>
      intro hm
      rw [Multiset.card_cons, Multiset.map_cons, Multiset.prod_cons, norm_mul, pow_succ', norm_sub_rev]
      exact mul_le_mul (hm r (Multiset.mem_cons_self _ _)) (ih fun q hq => hm q (Multiset.mem_cons_of_mem hq))
        (pow_nonneg hδ.le _) (norm_nonneg _)
  have := key p.roots fun r hr => hc r (Polynomial.isRoot_of_mem_roots hr)
  linarith

/-- The values of a linear form at the zeros near time 0 come near its value at `z`. -/
theorem approached (h : ∀ x, (∀ i, eval x (F i) = 0) → eval x V = 0 → x = 0)
    (hF : ∀ i, (F i).IsHomogeneous (d i)) (hE : ∀ i, (E i).IsHomogeneous (d i)) (hV : V.IsHomogeneous 1)
    (z : Fin (n + 1) → ℂ) (hz : ∀ i, eval z (F i) = 0) (hz1 : eval z V = 1) (c : Fin (n + 1) → ℂ)
    {ε : ℝ} (hε : 0 < ε) : ∀ᶠ t in 𝓝 (0 : ℂ), ∃ x, (∀ i, eval x (F i) = t * eval x (E i)) ∧ eval x V = 1 ∧
      ‖∑ j, c j * x j - ∑ j, c j * z j‖ < ε := by
  obtain ⟨s, μ, hs, hμ, h0, hall⟩ := exists_minpoly h hF hE hV z hz hz1 c
  set a := ∑ j, c j * z j with ha
  have hev : ∀ t, (μ.map (Polynomial.evalRingHom t)).eval a = (μ.eval (Polynomial.C a)).eval t := by
    intro t
    have := Polynomial.eval₂_hom (p := μ) (Polynomial.evalRingHom t) (Polynomial.C a)
    rw [Polynomial.eval_map]
    simpa using this
  have h4 : (0 : ℝ) < ε / 4 := by positivity
  have c1 : ∀ᶠ t in 𝓝 (0 : ℂ), ‖(μ.eval (Polynomial.C a)).eval t‖ < (ε / 4) ^ μ.natDegree := by
    have hcont : ContinuousAt (fun t => ‖(μ.eval (Polynomial.C a)).eval t‖) 0 :=
      ((μ.eval (Polynomial.C a)).continuous.norm).continuousAt
    refine hcont.eventually_lt continuousAt_const ?_
    rw [← hev, h0, norm_zero]
    positivity
  have c2 : ∀ᶠ t in 𝓝 (0 : ℂ), ‖s.eval t - 1‖ < 1 / 2 := by
    have hcont : ContinuousAt (fun t => ‖s.eval t - 1‖) 0 := ((s.continuous.sub continuous_const).norm).continuousAt
    refine hcont.eventually_lt continuousAt_const ?_
    rw [hs]; norm_num
  have c3 : ∀ᶠ t in 𝓝 (0 : ℂ), ‖a‖ * ‖s.eval t - 1‖ < ε / 4 := by
    have hcont : ContinuousAt (fun t => ‖a‖ * ‖s.eval t - 1‖) 0 :=
      (continuous_const.mul (s.continuous.sub continuous_const).norm).continuousAt
    refine hcont.eventually_lt continuousAt_const ?_
    rw [hs]; simpa using h4
  filter_upwards [c1, c2, c3] with t h1 h2 h3
  have hst : 1 / 2 < ‖s.eval t‖ := by
    have := norm_sub_norm_le (1 : ℂ) (1 - s.eval t)
    rw [norm_one, sub_sub_cancel, norm_sub_rev] at this
    linarith
  have hne : s.eval t ≠ 0 := by
    rw [← norm_pos_iff]; linarith
  obtain ⟨r, hr, hra⟩ := exists_root_near (hμ.map (Polynomial.evalRingHom t)) a h4 (by
    rw [hev, hμ.natDegree_map]; exact h1)
  obtain ⟨x, hx, hxV, hxr⟩ := hall t r hne hr
  refine ⟨x, hx, hxV, ?_⟩
  have e : s.eval t * (∑ j, c j * x j - a) = (r - a) - a * (s.eval t - 1) := by
    rw [mul_sub, hxr]; ring
  have e2 : ‖s.eval t‖ * ‖∑ j, c j * x j - a‖ < ε / 2 := by
    rw [← norm_mul, e]
    calc _ ≤ ‖r - a‖ + ‖a * (s.eval t - 1)‖ := norm_sub_le _ _
      _ < ε / 4 + ε / 4 := by rw [norm_mul]; exact add_lt_add hra h3
      _ = ε / 2 := by ring
  by_contra hc
  push Not at hc
  have : 1 / 2 * ε ≤ ‖s.eval t‖ * ‖∑ j, c j * x j - a‖ := mul_le_mul hst.le hc hε.le (norm_nonneg _)
  linarith

end

section
variable {n : ℕ} {F G : Fin n → MvPolynomial (Fin (n + 1)) ℂ} {v : Fin (n + 1) → ℂ} {γ : ℂ} {d : Fin n → ℕ}

/-- **Every zero at time 0 is the limit of a path**: if finitely many functions pass through all zeros at
the times in `(0, 1]` and converge as time goes to 0, every zero at time 0 is one of the limits. -/
theorem limit_of_paths (hF : ∀ i, (F i).IsHomogeneous (d i)) (hG : ∀ i, (G i).IsHomogeneous (d i))
    (h : ∀ x, (∀ i, eval x (F i) = 0) → v ⬝ᵥ x = 0 → x = 0) {ι : Type} [Finite ι]
    {y : ι → ℝ → Fin (n + 1) → ℂ} {l : ι → Fin (n + 1) → ℂ}
    (hall : ∀ s : ℝ, s ∈ Set.Ioc (0 : ℝ) 1 → ∀ x, line F G v γ (x, (s : ℂ)) = 0 → ∃ i, y i s = x)
    (hlim : ∀ i, Tendsto (y i) (𝓝[>] 0) (𝓝 (l i))) {z : Fin (n + 1) → ℂ} (hz : line F G v γ (z, 0) = 0) :
    ∃ i, l i = z := by
  by_contra hc
  push Not at hc
  obtain ⟨f, hf⟩ := Module.exists_dual_forall_apply_ne_zero (K := ℂ) (fun i => l i - z) fun i => sub_ne_zero.2 (hc i)
  have hfx : ∀ x, f x = ∑ j, f (Pi.single j 1) * x j := by
    intro x
    conv_lhs => rw [pi_eq_sum_univ' x]
    rw [map_sum]
    refine Finset.sum_congr rfl fun j _ => ?_
    rw [map_smul, smul_eq_mul, mul_comm]
  obtain ⟨ε, hε, hlt⟩ := Pi.exists_forall_pos_add_lt (x := fun _ : ι => (0 : ℝ)) (y := fun i => ‖f (l i - z)‖)
    fun i => norm_pos_iff.2 (hf i)
  rw [line_zero] at hz
  simp only [sub_zero, one_mul, mul_zero, zero_mul, add_zero] at hz
  let V : MvPolynomial (Fin (n + 1)) ℂ := ∑ j, C (v j) * X j
  have hV : V.IsHomogeneous 1 := by
    refine IsHomogeneous.sum _ _ _ fun j _ => ?_
    simpa using (isHomogeneous_C _ (v j)).mul (isHomogeneous_X ℂ j)
  have hVe : ∀ x, eval x V = v ⬝ᵥ x := by
    intro x
    simp [V, dotProduct]
  have happ := approached (E := fun i => F i - C γ * G i) (V := V) (fun x h1 h2 => h x h1 (by rw [← hVe]; exact h2)) hF
    (fun i => (hF i).sub (by simpa using (isHomogeneous_C _ γ).mul (hG i))) hV z hz.1
    (by rw [hVe]; exact hz.2) (fun j => f (Pi.single j 1)) hε
  have hof : Tendsto (fun s : ℝ => (s : ℂ)) (𝓝[>] 0) (𝓝 0) := by
    have : Tendsto (fun s : ℝ => (s : ℂ)) (𝓝 0) (𝓝 ((0 : ℝ) : ℂ)) := Complex.continuous_ofReal.continuousAt
    rw [Complex.ofReal_zero] at this
    exact this.mono_left nhdsWithin_le_nhds
  have hfar : ∀ i, ∀ᶠ s in 𝓝[>] (0 : ℝ), ε < ‖f (y i s) - f z‖ := by
    intro i
    have hfc : Continuous f := f.continuous_of_finiteDimensional
    have h1 : Tendsto (fun s => ‖f (y i s) - f z‖) (𝓝[>] 0) (𝓝 ‖f (l i) - f z‖) :=
      (((hfc.tendsto _).comp (hlim i)).sub_const _).norm
    refine h1.eventually_const_lt ?_
    have := hlt i
    rwa [zero_add, map_sub] at this
  have hio : ∀ᶠ s in 𝓝[>] (0 : ℝ), s ∈ Set.Ioc (0 : ℝ) 1 := Ioc_mem_nhdsGT one_pos
  obtain ⟨s, ⟨x, hx1, hx2, hx3⟩, hs, hs2⟩ :=
    ((hof.eventually happ).and (hio.and (eventually_all.2 hfar))).exists
  rw [← hfx, ← hfx] at hx3
  obtain ⟨i, hi⟩ := hall s hs x (by
    rw [line_zero]
    refine ⟨fun i => ?_, by rw [← hVe]; exact hx2⟩
    have := hx1 i
    simp only [map_sub, map_mul, eval_C] at this
    linear_combination this)
  have := hs2 i
  rw [hi] at this
  linarith

end

end B2.Cont
