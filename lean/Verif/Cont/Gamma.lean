import Verif.Cont.Elim
import Verif.Cont.Lift
import Mathlib.RingTheory.MvPolynomial.EulerIdentity
import Mathlib.Analysis.Analytic.Polynomial

/-!
# The straight-line homotopy between homogeneous polynomials

`(1-s) F + γ s G` on an affine patch `v·x = 1`. For all `γ` outside finitely many rays, all zeros with
`0 < s ≤ 1` are nonsingular and bounded.
-/

namespace B2.Cont

open MvPolynomial B2.Predict

variable {n : ℕ}

/-- The matrix of partial derivatives of `G + u F`, with the coefficients of the patch as last row. -/
noncomputable def jacM (F G : Fin n → MvPolynomial (Fin (n + 1)) ℂ) (v : Fin (n + 1) → ℂ) (u : ℂ)
    (x : Fin (n + 1) → ℂ) : Matrix (Fin (n + 1)) (Fin (n + 1)) ℂ :=
  Matrix.of fun i j => Fin.lastCases (motive := fun _ => ℂ) (v j)
    (fun i => eval x (pderiv j (G i)) + u * eval x (pderiv j (F i))) i

/-- `G + u F` with `u` a variable. -/
noncomputable def pencil (f g : MvPolynomial (Fin (n + 1)) ℂ) : MvPolynomial (Fin (n + 1)) (Polynomial ℂ) :=
  map Polynomial.C g + C Polynomial.X * map Polynomial.C f

theorem ev_map (u : ℂ) (x : Fin (n + 1) → ℂ) (p : MvPolynomial (Fin (n + 1)) ℂ) :
    ev u x (map Polynomial.C p) = eval x p := by
  rw [ev_eq, MvPolynomial.map_map]
  have : (Polynomial.evalRingHom u).comp Polynomial.C = RingHom.id ℂ := by ext z; simp
  rw [this, MvPolynomial.map_id]

theorem ev_C (u : ℂ) (x : Fin (n + 1) → ℂ) (p : Polynomial ℂ) :
    ev u x (C p) = p.eval u := by
  rw [ev_eq]; simp

theorem ev_pencil (u : ℂ) (x : Fin (n + 1) → ℂ) (f g : MvPolynomial (Fin (n + 1)) ℂ) :
    ev u x (pencil f g) = eval x g + u * eval x f := by
  simp [pencil, ev_map, ev_C]

theorem pderiv_pencil (j : Fin (n + 1)) (f g : MvPolynomial (Fin (n + 1)) ℂ) :
    pderiv j (pencil f g) = pencil (pderiv j f) (pderiv j g) := by
  simp [pencil, pderiv_map]

theorem pencil_homogeneous {f g : MvPolynomial (Fin (n + 1)) ℂ} {d : ℕ} (hf : f.IsHomogeneous d)
    (hg : g.IsHomogeneous d) : (pencil f g).IsHomogeneous d :=
  (hg.map _).add ((hf.map _).C_mul _)

noncomputable def jacP (F G : Fin n → MvPolynomial (Fin (n + 1)) ℂ) (v : Fin (n + 1) → ℂ) :
    Matrix (Fin (n + 1)) (Fin (n + 1)) (MvPolynomial (Fin (n + 1)) (Polynomial ℂ)) :=
  Matrix.of fun i j => Fin.lastCases (motive := fun _ => MvPolynomial (Fin (n + 1)) (Polynomial ℂ))
    (C (Polynomial.C (v j))) (fun i => pencil (pderiv j (F i)) (pderiv j (G i))) i

theorem ev_jacP (F G : Fin n → MvPolynomial (Fin (n + 1)) ℂ) (v : Fin (n + 1) → ℂ) (u : ℂ)
    (x : Fin (n + 1) → ℂ) : ev u x (jacP F G v).det = (jacM F G v u x).det := by
  rw [RingHom.map_det]
  congr 1
  ext i j
  simp only [RingHom.mapMatrix_apply, Matrix.map_apply, jacP, jacM, Matrix.of_apply]
  induction i using Fin.lastCases with
  | last => simp [ev_C]
  | cast i => simp [ev_pencil]

/-- The degrees of the rows. -/
def rowDeg (d : Fin n → ℕ) (i : Fin (n + 1)) : ℕ := Fin.lastCases (motive := fun _ => ℕ) 0 (fun i => d i - 1) i

theorem jacP_homogeneous {F G : Fin n → MvPolynomial (Fin (n + 1)) ℂ} (v : Fin (n + 1) → ℂ) {d : Fin n → ℕ}
    (hF : ∀ i, (F i).IsHomogeneous (d i)) (hG : ∀ i, (G i).IsHomogeneous (d i)) :
    (jacP F G v).det.IsHomogeneous (∑ i, rowDeg d i) := by
  have hent : ∀ i j, (jacP F G v i j).IsHomogeneous (rowDeg d i) := by
    intro i j
    simp only [jacP, Matrix.of_apply, rowDeg]
    induction i using Fin.lastCases with
    | last => simpa using isHomogeneous_C _ _
    | cast i => simpa using pencil_homogeneous (hF i).pderiv (hG i).pderiv
  rw [Matrix.det_apply]
  refine IsHomogeneous.sum _ _ _ fun s _ => ?_
  have h1 : (∏ i, jacP F G v (s i) i).IsHomogeneous (∑ i, rowDeg d (s i)) :=
    IsHomogeneous.prod _ _ _ fun i _ => hent (s i) i
  rw [Equiv.sum_comp s (rowDeg d)] at h1
  rcases Int.units_eq_one_or (Equiv.Perm.sign s) with h | h <;> rw [h]
  · simpa using h1
  · simpa using h1.neg

/-- **The exceptional parameters are finitely many.** -/
theorem bad_finite {F G : Fin n → MvPolynomial (Fin (n + 1)) ℂ} {v : Fin (n + 1) → ℂ} {d : Fin n → ℕ}
    (hF : ∀ i, (F i).IsHomogeneous (d i)) (hG : ∀ i, (G i).IsHomogeneous (d i))
    (hs : ∀ x, x ≠ 0 → (∀ i, eval x (G i) = 0) → (jacM F G v 0 x).det ≠ 0) :
    {u : ℂ | ∃ x, x ≠ 0 ∧ (∀ i, eval x (G i) + u * eval x (F i) = 0) ∧ (jacM F G v u x).det = 0}.Finite := by
  have := finite_bad (σ := Fin (n + 1)) (ι := Option (Fin n))
    (fun o => o.elim (jacP F G v).det fun i => pencil (F i) (G i))
    (fun o => o.elim (∑ i, rowDeg d i) d) (by
      rintro (_ | i)
      · exact jacP_homogeneous v hF hG
      · exact pencil_homogeneous (hF i) (hG i)) (by
      intro x hx
      by_contra h0
      refine hs x h0 (fun i => ?_) ?_
      · have := hx (some i)
        simpa [ev_pencil] using this
      · have := hx none
        simpa [ev_jacP] using this)
  refine this.subset ?_
  rintro u ⟨x, h1, h2, h3⟩
  refine ⟨x, h1, ?_⟩
  rintro (_ | i)
  · simpa [ev_jacP] using h3
  · simpa [ev_pencil] using h2 i

/-- Euler: at a zero, the matrix takes the point to `(0,…,0, v·x)`. -/
theorem jacM_mulVec {F G : Fin n → MvPolynomial (Fin (n + 1)) ℂ} {v : Fin (n + 1) → ℂ} {d : Fin n → ℕ}
    (hF : ∀ i, (F i).IsHomogeneous (d i)) (hG : ∀ i, (G i).IsHomogeneous (d i)) {u : ℂ} {x : Fin (n + 1) → ℂ}
    (hx : ∀ i, eval x (G i) + u * eval x (F i) = 0) (hv : v ⬝ᵥ x = 0) :
    Matrix.mulVec (jacM F G v u x) x = 0 := by
  ext i
  induction i using Fin.lastCases with
  | last => simpa [Matrix.mulVec, jacM, dotProduct] using hv
  | cast i =>
    have h1 := congrArg (eval x) (hF i).sum_X_mul_pderiv
    have h2 := congrArg (eval x) (hG i).sum_X_mul_pderiv
    simp only [map_sum, map_mul, eval_X, nsmul_eq_mul, map_natCast] at h1 h2
    simp only [Matrix.mulVec, dotProduct, jacM, Matrix.of_apply, Fin.lastCases_castSucc, Pi.zero_apply]
    have : ∑ j, (eval x (pderiv j (G i)) + u * eval x (pderiv j (F i))) * x j =
        (∑ j, x j * eval x (pderiv j (G i))) + u * ∑ j, x j * eval x (pderiv j (F i)) := by
      rw [Finset.mul_sum, ← Finset.sum_add_distrib]
      exact Finset.sum_congr rfl fun j _ => by ring
    rw [this, h1, h2]
    linear_combination (d i : ℂ) * hx i

/-- Nonsingular zeros are not at infinity for the patch. -/
theorem dot_ne_zero {F G : Fin n → MvPolynomial (Fin (n + 1)) ℂ} {v : Fin (n + 1) → ℂ} {d : Fin n → ℕ}
    (hF : ∀ i, (F i).IsHomogeneous (d i)) (hG : ∀ i, (G i).IsHomogeneous (d i)) {u : ℂ} {x : Fin (n + 1) → ℂ}
    (h0 : x ≠ 0) (hx : ∀ i, eval x (G i) + u * eval x (F i) = 0) (hd : (jacM F G v u x).det ≠ 0) :
    v ⬝ᵥ x ≠ 0 := by
  intro hv
  exact hd (Matrix.exists_mulVec_eq_zero_iff.1 ⟨x, h0, jacM_mulVec hF hG hx hv⟩)

theorem hasFDerivAt_eval (p : MvPolynomial (Fin (n + 1)) ℂ) (x : Fin (n + 1) → ℂ) :
    HasFDerivAt (fun x : Fin (n + 1) → ℂ => eval x p)
      (∑ j, eval x (pderiv j p) • (ContinuousLinearMap.proj j : (Fin (n + 1) → ℂ) →L[ℂ] ℂ)) x := by
  induction p using MvPolynomial.induction_on with
  | C a =>
    simp only [eval_C]
    refine (hasFDerivAt_const (𝕜 := ℂ) a x).congr_fderiv ?_
    ext w
    simp
  | add p q hp hq =>
    simp only [map_add]
    refine (hp.add hq).congr_fderiv ?_
    rw [← Finset.sum_add_distrib]
    exact Finset.sum_congr rfl fun j _ => (add_smul _ _ _).symm
  | mul_X p i hp =>
    have hX : HasFDerivAt (fun x : Fin (n + 1) → ℂ => x i)
        (ContinuousLinearMap.proj i : (Fin (n + 1) → ℂ) →L[ℂ] ℂ) x := hasFDerivAt_apply i x
    have := hp.mul hX
    simp only [map_mul, eval_X]
    refine this.congr_fderiv ?_
    ext w
    simp only [ContinuousLinearMap.add_apply, ContinuousLinearMap.smul_apply, ContinuousLinearMap.sum_apply,
      ContinuousLinearMap.proj_apply, smul_eq_mul, Derivation.leibniz, map_add, pderiv_X, eval_X,
      add_mul, Finset.sum_add_distrib, map_mul, Finset.mul_sum]
    congr 1
    · rw [Finset.sum_eq_single i]
      · simp
      · intro j _ hj
        simp [Pi.single_apply, Ne.symm hj]
      · simp
    · exact Finset.sum_congr rfl fun j _ => by ring

/-- The straight-line homotopy on the patch. -/
noncomputable def line (F G : Fin n → MvPolynomial (Fin (n + 1)) ℂ) (v : Fin (n + 1) → ℂ) (γ : ℂ)
    (q : (Fin (n + 1) → ℂ) × ℂ) : Fin (n + 1) → ℂ := fun i =>
  Fin.lastCases (motive := fun _ => ℂ) (v ⬝ᵥ q.1 - 1)
    (fun i => (1 - q.2) * eval q.1 (F i) + γ * q.2 * eval q.1 (G i)) i

variable {F G : Fin n → MvPolynomial (Fin (n + 1)) ℂ} {v : Fin (n + 1) → ℂ} {γ : ℂ} {d : Fin n → ℕ}

theorem line_analytic (q) : AnalyticAt ℂ (line F G v γ) q := by
  have hfst : AnalyticAt ℂ (fun q : (Fin (n + 1) → ℂ) × ℂ => q.1) q := analyticAt_fst
  have hsnd : AnalyticAt ℂ (fun q : (Fin (n + 1) → ℂ) × ℂ => q.2) q := analyticAt_snd
  have hp : ∀ p : MvPolynomial (Fin (n + 1)) ℂ,
      AnalyticAt ℂ (fun q : (Fin (n + 1) → ℂ) × ℂ => eval q.1 p) q := fun p =>
    AnalyticAt.comp' (g := fun x : Fin (n + 1) → ℂ => eval x p)
      (AnalyticOnNhd.eval_mvPolynomial p q.1 trivial) hfst
  rw [analyticAt_pi_iff]
  intro i
  induction i using Fin.lastCases with
  | last =>
    simp only [line, Fin.lastCases_last, dotProduct]
    refine AnalyticAt.sub ?_ analyticAt_const
    refine Finset.analyticAt_fun_sum _ fun j _ => analyticAt_const.mul ?_
    exact (analyticAt_pi_iff.1 hfst) j
  | cast i =>
    simp only [line, Fin.lastCases_castSucc]
    exact ((analyticAt_const.sub hsnd).mul (hp _)).add ((analyticAt_const.mul hsnd).mul (hp _))

/-- The Jacobian matrix of the homotopy in the space variables. -/
noncomputable def lineM (F G : Fin n → MvPolynomial (Fin (n + 1)) ℂ) (v : Fin (n + 1) → ℂ) (γ s : ℂ)
    (x : Fin (n + 1) → ℂ) : Matrix (Fin (n + 1)) (Fin (n + 1)) ℂ :=
  Matrix.of fun i j => Fin.lastCases (motive := fun _ => ℂ) (v j)
    (fun i => (1 - s) * eval x (pderiv j (F i)) + γ * s * eval x (pderiv j (G i))) i

theorem jacV_line (x : Fin (n + 1) → ℂ) (s : ℂ) (w : Fin (n + 1) → ℂ) :
    jacV (line F G v γ) (x, s) w = Matrix.mulVec (lineM F G v γ s x) w := by
  have h1 : HasFDerivAt (fun x => line F G v γ (x, s)) (jacV (line F G v γ) (x, s)) x := by
    have h2 : HasFDerivAt (line F G v γ) (fderiv ℂ (line F G v γ) (x, s)) (x, s) :=
      (line_analytic (x, s)).differentiableAt.hasFDerivAt
    have h3 : HasFDerivAt (fun x : Fin (n + 1) → ℂ => (x, s))
        (ContinuousLinearMap.inl ℂ (Fin (n + 1) → ℂ) ℂ) x := hasFDerivAt_prodMk_left x s
    exact h2.comp x h3
  rw [hasFDerivAt_pi'] at h1
  ext i
  have h4 := h1 i
  induction i using Fin.lastCases with
  | last =>
    have h5 : HasFDerivAt (fun x : Fin (n + 1) → ℂ => line F G v γ (x, s) (Fin.last n))
        (∑ j, v j • (ContinuousLinearMap.proj j : (Fin (n + 1) → ℂ) →L[ℂ] ℂ)) x := by
      simp only [line, Fin.lastCases_last, dotProduct]
      refine HasFDerivAt.sub_const 1 ?_
      refine HasFDerivAt.fun_sum fun j _ => ?_
      exact (hasFDerivAt_apply j x).const_mul (v j)
    have := congrArg (fun L : (Fin (n + 1) → ℂ) →L[ℂ] ℂ => L w) (h4.unique h5)
    simpa [Matrix.mulVec, dotProduct, lineM] using this
  | cast i =>
    have h5 : HasFDerivAt (fun x : Fin (n + 1) → ℂ => line F G v γ (x, s) i.castSucc)
        ((1 - s) • (∑ j, eval x (pderiv j (F i)) • (ContinuousLinearMap.proj j : (Fin (n + 1) → ℂ) →L[ℂ] ℂ))
          + (γ * s) • (∑ j, eval x (pderiv j (G i)) •
            (ContinuousLinearMap.proj j : (Fin (n + 1) → ℂ) →L[ℂ] ℂ))) x := by
      simp only [line, Fin.lastCases_castSucc]
      exact ((hasFDerivAt_eval (F i) x).const_mul _).add ((hasFDerivAt_eval (G i) x).const_mul _)
    have := congrArg (fun L : (Fin (n + 1) → ℂ) →L[ℂ] ℂ => L w) (h4.unique h5)
    simp only [ContinuousLinearMap.comp_apply, ContinuousLinearMap.proj_apply,
      ContinuousLinearMap.add_apply, ContinuousLinearMap.smul_apply, ContinuousLinearMap.sum_apply,
      smul_eq_mul] at this
    rw [this]
    simp only [Matrix.mulVec, dotProduct, lineM, Matrix.of_apply, Fin.lastCases_castSucc, Finset.mul_sum]
    rw [← Finset.sum_add_distrib]
    exact Finset.sum_congr rfl fun j _ => by ring

theorem isUnit_jacV_line {x : Fin (n + 1) → ℂ} {s : ℂ} :
    IsUnit (jacV (line F G v γ) (x, s)) ↔ (lineM F G v γ s x).det ≠ 0 := by
  rw [ContinuousLinearMap.isUnit_iff_bijective, ← isUnit_iff_ne_zero, ← Matrix.isUnit_iff_isUnit_det,
    ← Matrix.mulVec_injective_iff_isUnit]
  have he : (jacV (line F G v γ) (x, s) : (Fin (n + 1) → ℂ) → (Fin (n + 1) → ℂ)) =
      Matrix.mulVec (lineM F G v γ s x) := funext (jacV_line x s)
  constructor
  · intro h
    rw [← he]
    exact h.1
  · intro h
    rw [← he] at h
    refine ⟨h, ?_⟩
    exact (LinearMap.injective_iff_surjective (f := (jacV (line F G v γ) (x, s) :
      (Fin (n + 1) → ℂ) →ₗ[ℂ] (Fin (n + 1) → ℂ)))).1 h

theorem lineM_eq {s : ℂ} (hs : γ * s ≠ 0) (x : Fin (n + 1) → ℂ) :
    lineM F G v γ s x = Matrix.diagonal (Fin.lastCases (motive := fun _ => ℂ) 1 fun _ => γ * s) *
      jacM F G v ((1 - s) / (γ * s)) x := by
  ext i j
  rw [Matrix.diagonal_mul]
  simp only [lineM, jacM, Matrix.of_apply]
  induction i using Fin.lastCases with
  | last => simp
  | cast i =>
    simp only [Fin.lastCases_castSucc]
    rw [mul_add, ← mul_assoc, mul_div_cancel₀ _ hs]
    ring

theorem lineM_det {s : ℂ} (hs : γ * s ≠ 0) (x : Fin (n + 1) → ℂ)
    (h : (jacM F G v ((1 - s) / (γ * s)) x).det ≠ 0) : (lineM F G v γ s x).det ≠ 0 := by
  rw [lineM_eq hs, Matrix.det_mul, Matrix.det_diagonal]
  refine mul_ne_zero (Finset.prod_ne_zero_iff.2 fun i _ => ?_) h
  induction i using Fin.lastCases with
  | last => simp
  | cast i => simpa using hs

/-- What the zeros of the homotopy are. -/
theorem line_zero {x : Fin (n + 1) → ℂ} {s : ℂ} : line F G v γ (x, s) = 0 ↔
    (∀ i, (1 - s) * eval x (F i) + γ * s * eval x (G i) = 0) ∧ v ⬝ᵥ x = 1 := by
  constructor
  · intro h
    refine ⟨fun i => ?_, ?_⟩
    · simpa [line] using congrFun h i.castSucc
    · simpa [line, sub_eq_zero] using congrFun h (Fin.last n)
  · rintro ⟨h1, h2⟩
    ext i
    induction i using Fin.lastCases with
    | last => simp [line, h2]
    | cast i => simpa [line] using h1 i

/-- The values of `γ` for which `γ`-multiples of `G` can be deformed to `F` along the whole segment. -/
def GoodGamma (F G : Fin n → MvPolynomial (Fin (n + 1)) ℂ) (v : Fin (n + 1) → ℂ) (γ : ℂ) : Prop :=
  γ ≠ 0 ∧ ∀ (s : ℝ), 0 < s → s ≤ 1 → ∀ x : Fin (n + 1) → ℂ, x ≠ 0 →
    (∀ i, (1 - (s : ℂ)) * eval x (F i) + γ * s * eval x (G i) = 0) → (lineM F G v γ s x).det ≠ 0

/-- **Almost all `γ` are good**: all but those on finitely many rays from the origin. -/
theorem good_of_rays (hF : ∀ i, (F i).IsHomogeneous (d i)) (hG : ∀ i, (G i).IsHomogeneous (d i))
    (hs : ∀ x, x ≠ 0 → (∀ i, eval x (G i) = 0) → (jacM F G v 0 x).det ≠ 0) :
    ∃ B : Finset ℂ, (∀ b ∈ B, b ≠ 0) ∧
      ∀ γ : ℂ, γ ≠ 0 → (∀ b ∈ B, ∀ ρ : ℝ, 0 < ρ → γ ≠ ρ * b) → GoodGamma F G v γ := by
  classical
  have hfin := bad_finite hF hG hs
  set S := {u : ℂ | ∃ x, x ≠ 0 ∧ (∀ i, eval x (G i) + u * eval x (F i) = 0) ∧ (jacM F G v u x).det = 0}
    with hS
  have hz : (0 : ℂ) ∉ S := by
    rintro ⟨x, h1, h2, h3⟩
    exact hs x h1 (fun i => by simpa using h2 i) h3
  refine ⟨hfin.toFinset.image (·⁻¹), ?_, ?_⟩
  · intro b hb
    obtain ⟨u, hu, rfl⟩ := Finset.mem_image.1 hb
    rw [Set.Finite.mem_toFinset] at hu
    exact inv_ne_zero fun h => hz (h ▸ hu)
  · intro γ hγ hray
    refine ⟨hγ, fun s h0 h1 x hx hzero => ?_⟩
    have hs0 : (s : ℂ) ≠ 0 := by exact_mod_cast h0.ne'
    have hgs : γ * s ≠ 0 := mul_ne_zero hγ hs0
    refine lineM_det hgs x fun hdet => ?_
    set u := (1 - (s : ℂ)) / (γ * s) with hu
    have huS : u ∈ S := by
      refine ⟨x, hx, fun i => ?_, hdet⟩
      have := hzero i
      rw [hu]
      field_simp
      linear_combination this
    have hu0 : u ≠ 0 := fun h => hz (h ▸ huS)
    refine hray u⁻¹ (Finset.mem_image.2 ⟨u, by simpa using huS, rfl⟩) ((1 - s) / s) ?_ ?_
    · rcases lt_or_eq_of_le h1 with h | h
      · exact div_pos (by linarith) h0
      · exfalso
        apply hu0
        rw [hu, h]
        simp
    · have hs1 : (1 - (s : ℂ)) ≠ 0 := by
        intro h
        apply hu0
        rw [hu, h, zero_div]
      rw [hu]
      push_cast
      field_simp

/-- All zeros at positive times are nonsingular. -/
theorem GoodGamma.nonsingular (h : GoodGamma F G v γ) {s : ℝ} (h0 : 0 < s) (h1 : s ≤ 1)
    {x : Fin (n + 1) → ℂ} (hx : line F G v γ (x, (s : ℂ)) = 0) :
    IsUnit (jacV (line F G v γ) (x, (s : ℂ))) := by
  obtain ⟨h2, h3⟩ := line_zero.1 hx
  refine isUnit_jacV_line.2 (h.2 s h0 h1 x ?_ h2)
  rintro rfl
  simp at h3

theorem eval_smul_homogeneous {p : MvPolynomial (Fin (n + 1)) ℂ} {e : ℕ} (hp : p.IsHomogeneous e) (c : ℂ)
    (x : Fin (n + 1) → ℂ) : eval (c • x) p = c ^ e * eval x p := by
  rw [eval_eq', eval_eq', Finset.mul_sum]
  refine Finset.sum_congr rfl fun m hm => ?_
  have he : ∑ i, m i = e := by
    have := hp (mem_support_iff.1 hm)
    simpa [Finsupp.weight_apply, Finsupp.sum_fintype] using this
  simp only [Pi.smul_apply, smul_eq_mul, mul_pow, Finset.prod_mul_distrib]
  rw [Finset.prod_pow_eq_pow_sum, he]
  ring

/-- When no zero of the homogeneous polynomials is at infinity for the patch, the zeros on the patch are
bounded. -/
theorem bounded_of_patch (hF : ∀ i, (F i).IsHomogeneous (d i)) (hG : ∀ i, (G i).IsHomogeneous (d i)) {a : ℝ}
    (h : ∀ (x : Fin (n + 1) → ℂ) (s : ℝ), s ∈ Set.Icc a 1 → x ≠ 0 →
      (∀ i, (1 - (s : ℂ)) * eval x (F i) + γ * s * eval x (G i) = 0) → v ⬝ᵥ x ≠ 0) :
    ∃ R, ∀ (x : Fin (n + 1) → ℂ) (s : ℝ), s ∈ Set.Icc a 1 → line F G v γ (x, (s : ℂ)) = 0 → ‖x‖ ≤ R := by
  let K : Set ((Fin (n + 1) → ℂ) × ℝ) := {q | q ∈ Metric.sphere (0 : Fin (n + 1) → ℂ) 1 ×ˢ Set.Icc a 1 ∧
    ∀ i, (1 - (q.2 : ℂ)) * eval q.1 (F i) + γ * q.2 * eval q.1 (G i) = 0}
  have hpc : ∀ p : MvPolynomial (Fin (n + 1)) ℂ,
      Continuous fun q : (Fin (n + 1) → ℂ) × ℝ => eval q.1 p := fun p =>
    (continuous_iff_continuousAt.2 fun x : Fin (n + 1) → ℂ =>
      (hasFDerivAt_eval p x).continuousAt).comp continuous_fst
  have hK : IsCompact K := by
    refine IsCompact.of_isClosed_subset ((isCompact_sphere _ _).prod isCompact_Icc) ?_ fun q hq => hq.1
    refine IsClosed.inter (Metric.isClosed_sphere.prod isClosed_Icc) ?_
    change IsClosed {q : (Fin (n + 1) → ℂ) × ℝ | ∀ i, _ = _}
    rw [Set.setOf_forall]
    refine isClosed_iInter fun i => isClosed_eq ?_ continuous_const
    have := hpc (F i)
    have := hpc (G i)
    fun_prop
  have hcont : Continuous fun q : (Fin (n + 1) → ℂ) × ℝ => ‖v ⬝ᵥ q.1‖ := by
    simp only [dotProduct]
    fun_prop
  have hone : ∀ (x : Fin (n + 1) → ℂ) (s : ℝ), s ∈ Set.Icc a 1 → line F G v γ (x, (s : ℂ)) = 0 →
      ((‖x‖⁻¹ : ℂ) • x, s) ∈ K ∧ ‖v ⬝ᵥ ((‖x‖⁻¹ : ℂ) • x)‖ = ‖x‖⁻¹ := by
    intro x s hs hx
    obtain ⟨h1, h2⟩ := line_zero.1 hx
    have hx0 : x ≠ 0 := by rintro rfl; simp at h2
    refine ⟨⟨⟨?_, hs⟩, fun i => ?_⟩, ?_⟩
    · simp [norm_smul, norm_ne_zero_iff.2 hx0]
    · simp only
      rw [eval_smul_homogeneous (hF i), eval_smul_homogeneous (hG i)]
      linear_combination ((‖x‖⁻¹ : ℂ)) ^ d i * h1 i
    · rw [dotProduct_smul, h2]
      simp
  rcases K.eq_empty_or_nonempty with hE | hne
  · refine ⟨0, fun x s hs hx => ?_⟩
    have := (hone x s hs hx).1
    rw [hE] at this
    exact this.elim
  obtain ⟨q, hq, hmin⟩ := hK.exists_isMinOn hne hcont.continuousOn
  have hm : 0 < ‖v ⬝ᵥ q.1‖ := by
    rw [norm_pos_iff]
    refine h q.1 q.2 hq.1.2 ?_ hq.2
    intro h0
    have := hq.1.1
    rw [h0] at this
    simp at this
  refine ⟨‖v ⬝ᵥ q.1‖⁻¹, fun x s hs hx => ?_⟩
  obtain ⟨h1, h2⟩ := hone x s hs hx
  have h3 : ‖v ⬝ᵥ q.1‖ ≤ ‖x‖⁻¹ := by rw [← h2]; exact hmin h1
  exact le_inv_of_le_inv₀ hm h3

theorem GoodGamma.bounded (h : GoodGamma F G v γ) (hF : ∀ i, (F i).IsHomogeneous (d i))
    (hG : ∀ i, (G i).IsHomogeneous (d i)) {ε : ℝ} (h0 : 0 < ε) :
    ∃ R, ∀ (x : Fin (n + 1) → ℂ) (s : ℝ), s ∈ Set.Icc ε 1 → line F G v γ (x, (s : ℂ)) = 0 → ‖x‖ ≤ R := by
  refine bounded_of_patch hF hG (a := ε) fun x s hs hx hz hv => ?_
  have hs0 : (s : ℂ) ≠ 0 := by exact_mod_cast (h0.trans_le hs.1).ne'
  have hgs : γ * s ≠ 0 := mul_ne_zero h.1 hs0
  have hd := h.2 s (h0.trans_le hs.1) hs.2 x hx hz
  rw [lineM_eq hgs, Matrix.det_mul] at hd
  refine dot_ne_zero hF hG hx (fun i => ?_) (right_ne_zero_of_mul hd) hv
  refine mul_left_cancel₀ hgs ?_
  rw [mul_add, ← mul_assoc, mul_div_cancel₀ _ hgs]
  linear_combination hz i

theorem GoodGamma.regular (h : GoodGamma F G v γ) (hF : ∀ i, (F i).IsHomogeneous (d i))
    (hG : ∀ i, (G i).IsHomogeneous (d i)) {ε : ℝ} (h0 : 0 < ε) : Regular (line F G v γ) ε 1 where
  analytic := line_analytic
  nonsingular := fun _ _ hs hx => h.nonsingular (h0.trans_le hs.1) hs.2 hx
  bounded := h.bounded hF hG h0

end B2.Cont
