import Mathlib.RingTheory.RootsOfUnity.Complex
import Verif.Cont.Gamma
import Verif.Start.PropsTotalDegree

/-!
# The total degree start system as polynomials, and nonsingular solutions on the patch
-/

namespace B2.Cont

open MvPolynomial B2.Predict B2.Start

variable {n : ℕ}

/-- The homogenized start function `x_j ^ d_j - r_j x_0 ^ d_j`. -/
noncomputable def startP (d : Fin n → ℕ) (r : Fin n → ℂ) (j : Fin n) : MvPolynomial (Fin (n + 1)) ℂ :=
  X j.succ ^ d j - C (r j) * X 0 ^ d j

theorem eval_startP (d : Fin n → ℕ) (r : Fin n → ℂ) (j : Fin n) (x : Fin (n + 1) → ℂ) :
    MvPolynomial.eval x (startP d r j) = x j.succ ^ d j - r j * x 0 ^ d j := by
  simp [startP]

theorem startP_homogeneous (d : Fin n → ℕ) (r : Fin n → ℂ) (j : Fin n) :
    (startP d r j).IsHomogeneous (d j) := by
  refine IsHomogeneous.sub (isHomogeneous_X_pow _ _) ?_
  have := (isHomogeneous_C (Fin (n + 1)) (r j)).mul (isHomogeneous_X_pow (R := ℂ) (0 : Fin (n + 1)) (d j))
  simpa using this

theorem startP_zero {d : Fin n → ℕ} {r : Fin n → ℂ} (hd : ∀ j, 0 < d j) {x : Fin (n + 1) → ℂ} (hx : x ≠ 0)
    (hz : ∀ j, MvPolynomial.eval x (startP d r j) = 0) : x 0 ≠ 0 ∧ ∀ j : Fin n, (x j.succ / x 0) ^ d j = r j := by
  have h1 : ∀ j : Fin n, x j.succ ^ d j = r j * x 0 ^ d j := fun j => by
    have := hz j
    rw [eval_startP, sub_eq_zero] at this
    exact this
  have h0 : x 0 ≠ 0 := by
    intro h0
    apply hx
    ext j
    induction j using Fin.cases with
    | zero => exact h0
    | succ j =>
      have := h1 j
      rw [h0, zero_pow (hd j).ne', mul_zero] at this
      exact pow_eq_zero_iff (hd j).ne' |>.1 this
  refine ⟨h0, fun j => ?_⟩
  rw [div_pow, h1 j, mul_div_cancel_right₀ _ (pow_ne_zero _ h0)]

theorem dot_cons_div {v x : Fin (n + 1) → ℂ} (h0 : x 0 ≠ 0) :
    v ⬝ᵥ x = x 0 * (v ⬝ᵥ (Fin.cons 1 fun j => x j.succ / x 0)) := by
  have : x = x 0 • (Fin.cons 1 fun j => x j.succ / x 0 : Fin (n + 1) → ℂ) := by
    ext j
    induction j using Fin.cases with
    | zero => simp
    | succ j => simp [mul_div_cancel₀ _ h0]
  conv_lhs => rw [this, dotProduct_smul, smul_eq_mul]

/-- The start points are nonsingular. -/
theorem startP_nonsingular (F : Fin n → MvPolynomial (Fin (n + 1)) ℂ) {v : Fin (n + 1) → ℂ} {d : Fin n → ℕ}
    {r : Fin n → ℂ} (hd : ∀ j, 0 < d j) (hr : ∀ j, r j ≠ 0)
    (hv : ∀ ζ : Fin n → ℂ, (∀ j, ζ j ^ d j = r j) → v ⬝ᵥ (Fin.cons 1 ζ) ≠ 0) (x : Fin (n + 1) → ℂ)
    (hx : x ≠ 0) (hz : ∀ j, MvPolynomial.eval x (startP d r j) = 0) : (jacM F (startP d r) v 0 x).det ≠ 0 := by
  obtain ⟨h0, h1⟩ := startP_zero hd hx hz
  intro hdet
  obtain ⟨w, hw, hker⟩ := Matrix.exists_mulVec_eq_zero_iff.2 hdet
  apply hw
  have hrow : ∀ j : Fin n, w j.succ = w 0 / x 0 * x j.succ := by
    intro j
    have h2 := congrFun hker j.castSucc
    have h4 := h1 j
    have hxj : x j.succ ≠ 0 := by
      intro hc
      rw [hc, zero_div, zero_pow (hd j).ne'] at h4
      exact hr j h4.symm
    simp only [Matrix.mulVec, dotProduct, jacM, Matrix.of_apply, Fin.lastCases_castSucc, Pi.zero_apply,
      zero_mul, add_zero, startP, map_sub, Derivation.leibniz_pow, Derivation.leibniz, pderiv_X, pderiv_C,
      smul_eq_mul, mul_zero, nsmul_eq_mul, map_mul, map_pow, eval_X, eval_C, map_natCast] at h2
    rw [Fin.sum_univ_succ] at h2
    simp only [Pi.single_apply] at h2
    have hne : ∀ i : Fin n, (0 : Fin (n + 1)) ≠ i.succ := fun i => (Fin.succ_ne_zero i).symm
    simp only [if_true, Fin.succ_ne_zero, hne, if_false, mul_zero, map_zero, map_one, mul_one, zero_sub, sub_zero, Fin.succ_inj] at h2
    rw [Finset.sum_eq_single j (fun i _ hi => by simp [Ne.symm hi]) (by simp)] at h2
    simp only [if_true, map_one, mul_one] at h2
    have hdj : (d j : ℂ) ≠ 0 := by exact_mod_cast (hd j).ne'
    obtain ⟨e, he⟩ := Nat.exists_eq_add_of_lt (hd j)
    simp only [zero_add] at he
    rw [he, div_pow, div_eq_iff (pow_ne_zero _ h0)] at h4
    rw [he, Nat.add_sub_cancel] at h2
    rw [he] at hdj
    have h6 : x j.succ ^ e * w j.succ = r j * x 0 ^ e * w 0 := by
      apply mul_left_cancel₀ hdj
      linear_combination h2
    have h7 : x j.succ ^ (e + 1) ≠ 0 := pow_ne_zero _ hxj
    rw [div_mul_eq_mul_div, eq_div_iff h0]
    apply mul_left_cancel₀ h7
    linear_combination x j.succ * x 0 * h6 - w 0 * x j.succ * h4
  have hww : w = (w 0 / x 0) • x := by
    ext j
    induction j using Fin.cases with
    | zero => simp [div_mul_cancel₀ _ h0]
    | succ j => simp [hrow j]
  have h2 := congrFun hker (Fin.last n)
  simp only [Matrix.mulVec, dotProduct, jacM, Matrix.of_apply, Fin.lastCases_last, Pi.zero_apply] at h2
  change v ⬝ᵥ w = 0 at h2
  rw [hww, dotProduct_smul, dot_cons_div h0, smul_eq_mul] at h2
  have h3 := hv _ h1
  have h4 : w 0 / x 0 = 0 := by
    rcases mul_eq_zero.1 h2 with h | h
    · exact h
    · exact ((mul_ne_zero h0 h3) h).elim
  rw [hww, h4, zero_smul]

/-- The affine functions of homogeneous polynomials. -/
noncomputable def affine (F : Fin n → MvPolynomial (Fin (n + 1)) ℂ) (y : Fin n → ℂ) : Fin n → ℂ :=
  fun i => MvPolynomial.eval (Fin.cons 1 y) (F i)

theorem fderiv_affine (F : Fin n → MvPolynomial (Fin (n + 1)) ℂ) (y u : Fin n → ℂ) (i : Fin n) :
    fderiv ℂ (affine F) y u i = ∑ j : Fin n, MvPolynomial.eval (Fin.cons 1 y) (pderiv j.succ (F i)) * u j := by
  let L : (Fin n → ℂ) →L[ℂ] (Fin (n + 1) → ℂ) := ContinuousLinearMap.pi fun j =>
    Fin.cases (motive := fun _ => (Fin n → ℂ) →L[ℂ] ℂ) 0 (fun j => ContinuousLinearMap.proj j) j
  have hL : HasFDerivAt (fun y : Fin n → ℂ => (Fin.cons 1 y : Fin (n + 1) → ℂ)) L y := by
    rw [hasFDerivAt_pi']
    intro j
    induction j using Fin.cases with
    | zero =>
      simp only [Fin.cons_zero]
      exact hasFDerivAt_const _ _
    | succ j =>
      simp only [Fin.cons_succ]
      exact hasFDerivAt_apply j y
  have h1 : HasFDerivAt (affine F) (ContinuousLinearMap.pi fun i =>
      (∑ j, MvPolynomial.eval (Fin.cons 1 y) (pderiv j (F i)) • (ContinuousLinearMap.proj j : (Fin (n + 1) → ℂ) →L[ℂ] ℂ)).comp L)
      y := by
    rw [hasFDerivAt_pi']
    intro i
    exact (hasFDerivAt_eval (F i) (Fin.cons 1 y)).comp y hL
  rw [h1.fderiv]
  simp [L, Fin.sum_univ_succ]

/-- A nonsingular solution is a nonsingular end of the homotopy. -/
theorem affine_nonsingular {F G : Fin n → MvPolynomial (Fin (n + 1)) ℂ} {v : Fin (n + 1) → ℂ} {γ : ℂ}
    {d : Fin n → ℕ} (hF : ∀ i, (F i).IsHomogeneous (d i)) {y : Fin n → ℂ} (hy : affine F y = 0)
    (hu : IsUnit (fderiv ℂ (affine F) y)) {c : ℂ} (hc : v ⬝ᵥ (Fin.cons 1 y) = c) (hc0 : c ≠ 0) :
    line F G v γ (c⁻¹ • (Fin.cons 1 y : Fin (n + 1) → ℂ), 0) = 0 ∧
    IsUnit (jacV (line F G v γ) (c⁻¹ • (Fin.cons 1 y : Fin (n + 1) → ℂ), 0)) := by
  set x : Fin (n + 1) → ℂ := c⁻¹ • (Fin.cons 1 y : Fin (n + 1) → ℂ) with hx
  have hci : c⁻¹ ≠ 0 := inv_ne_zero hc0
  have hx0 : x 0 = c⁻¹ := by simp [hx]
  have hzero : ∀ i, MvPolynomial.eval x (F i) = 0 := fun i => by
    rw [hx, eval_smul_homogeneous (hF i)]
    have := congrFun hy i
    simp only [affine, Pi.zero_apply] at this
    rw [this, mul_zero]
  have hvx : v ⬝ᵥ x = 1 := by rw [hx, dotProduct_smul, hc, smul_eq_mul, inv_mul_cancel₀ hc0]
  refine ⟨line_zero.2 ⟨fun i => by rw [hzero i]; simp, hvx⟩, isUnit_jacV_line.2 fun hdet => ?_⟩
  obtain ⟨w, hw, hker⟩ := Matrix.exists_mulVec_eq_zero_iff.2 hdet
  apply hw
  set q := w 0 / x 0 with hq
  have hrow : ∀ i, ∑ j, MvPolynomial.eval x (pderiv j (F i)) * w j = 0 := fun i => by
    have := congrFun hker i.castSucc
    simpa [Matrix.mulVec, dotProduct, lineM] using this
  have heul : ∀ i, ∑ j, MvPolynomial.eval x (pderiv j (F i)) * x j = 0 := fun i => by
    have h1 := congrArg (MvPolynomial.eval x) (hF i).sum_X_mul_pderiv
    simp only [map_sum, map_mul, eval_X, nsmul_eq_mul, map_natCast, hzero i, mul_zero] at h1
    rw [← h1]
    exact Finset.sum_congr rfl fun j _ => mul_comm _ _
  have hu0 : (fun j : Fin n => w j.succ - q * x j.succ) = 0 := by
    have hinj := (ContinuousLinearMap.isUnit_iff_bijective.1 hu).1
    apply hinj
    rw [map_zero]
    ext i
    rw [fderiv_affine]
    have hhom : ∀ j : Fin (n + 1), MvPolynomial.eval x (pderiv j (F i)) =
        c⁻¹ ^ (d i - 1) * MvPolynomial.eval (Fin.cons 1 y) (pderiv j (F i)) := fun j => by
      rw [hx, eval_smul_homogeneous ((hF i).pderiv)]
    have h1 : ∑ j, MvPolynomial.eval x (pderiv j (F i)) * (w j - q * x j) = 0 := by
      have : ∑ j, MvPolynomial.eval x (pderiv j (F i)) * (w j - q * x j) = (∑ j, MvPolynomial.eval x (pderiv j (F i)) * w j) -
          q * ∑ j, MvPolynomial.eval x (pderiv j (F i)) * x j := by
        rw [Finset.mul_sum, ← Finset.sum_sub_distrib]
        exact Finset.sum_congr rfl fun j _ => by ring
      rw [this, hrow, heul]
      simp
    rw [Fin.sum_univ_succ] at h1
    have h2 : w 0 - q * x 0 = 0 := by rw [hq, div_mul_cancel₀ _ (by rw [hx0]; exact hci), sub_self]
    rw [h2, mul_zero, zero_add] at h1
    apply mul_left_cancel₀ (pow_ne_zero (d i - 1) hci)
    rw [Finset.mul_sum, Pi.zero_apply, mul_zero, ← h1]
    exact Finset.sum_congr rfl fun j _ => by rw [hhom]; ring
  have hww : w = q • x := by
    ext j
    induction j using Fin.cases with
    | zero => rw [Pi.smul_apply, smul_eq_mul, hq, div_mul_cancel₀ _ (by rw [hx0]; exact hci)]
    | succ j =>
      have := congrFun hu0 j
      simp only [Pi.zero_apply, sub_eq_zero] at this
      rw [this]; rfl
  have h2 := congrFun hker (Fin.last n)
  simp only [Matrix.mulVec, dotProduct, lineM, Matrix.of_apply, Fin.lastCases_last, Pi.zero_apply] at h2
  change v ⬝ᵥ w = 0 at h2
  rw [hww, dotProduct_smul, hvx, smul_eq_mul, mul_one] at h2
  rw [hww, h2, zero_smul]

/-- Every root is among the generated ones. -/
theorem exists_tdCoord {d : ℕ} (hd : 0 < d) {r : ℚ × ℚ} (hr : ratValue r ≠ 0) {z : ℂ}
    (hz : z ^ d = ratValue r) : ∃ s < d, z = tdCoord s d r := by
  have h0 : tdCoord 0 d r ^ d = ratValue r := root_pow 0 d r hd.ne'
  have hc0 : tdCoord 0 d r ≠ 0 := by
    intro h
    rw [h, zero_pow hd.ne'] at h0
    exact hr h0.symm
  have h1 : (z / tdCoord 0 d r) ^ d = 1 := by rw [div_pow, hz, h0, div_self hr]
  haveI : NeZero d := ⟨hd.ne'⟩
  obtain ⟨s, hs, he⟩ := (Complex.isPrimitiveRoot_exp d hd.ne').eq_pow_of_pow_eq_one h1
  refine ⟨s, hs, ?_⟩
  rw [eq_div_iff hc0] at he
  rw [← he, tdCoord, tdCoord, ← Complex.exp_nat_mul]
  simp only [Nat.cast_zero, mul_zero, zero_div, Complex.exp_zero, one_mul]
  congr 2
  ring

end B2.Cont
