import Mathlib.Algebra.MvPolynomial.Funext
import Verif.Cont.Gamma
import Verif.Alg.PropsSetup

/-!
# The homotopy of a zero-dimensional solve is a straight line between homogeneous polynomials
-/

namespace B2.Cont

open MvPolynomial B2.Sys B2.Start B2.Alg.Htp

/-! ### Expressions as polynomials -/

section
variable {σ : Type} {E : (σ → ℂ) → Env} (hE : ∀ v, ∃ Q : MvPolynomial σ ℂ, ∀ x, E x v = MvPolynomial.eval x Q)
include hE

theorem mono_mv (n : Node) : MonoTree n → ∃ P : MvPolynomial σ ℂ, ∀ x, B2.eval (E x) n = MvPolynomial.eval x P := by
  induction n using Node.rec (motive_2 := fun ops => MonoOps ops →
    ∃ P : MvPolynomial σ ℂ, ∀ x, evalMult (E x) ops = MvPolynomial.eval x P) with
  | nil _ => exact ⟨1, fun x => by simp [evalMult]⟩
  | cons m n r ih1 ih2 h =>
    obtain ⟨P, hP⟩ := ih1 h.1
    obtain ⟨Q, hQ⟩ := ih2 h.2.2
    cases m with
    | true => exact ⟨P * Q, fun x => by simp [evalMult, hP, hQ]⟩
    | false =>
      refine ⟨C (B2.eval (E 0) n)⁻¹ * Q, fun x => ?_⟩
      have : B2.eval (E x) n = B2.eval (E 0) n := eval_congr n (by simp [h.2.1 rfl])
      simp [evalMult, hQ, this]
  | int z => exact fun _ => ⟨C (B2.eval (E 0) (.int z)), fun x => by simp only [B2.eval, eval_C]⟩
  | float a b => exact fun _ => ⟨C (B2.eval (E 0) (.float a b)), fun x => by simp only [B2.eval, eval_C]⟩
  | rat a b => exact fun _ => ⟨C (B2.eval (E 0) (.rat a b)), fun x => by simp only [B2.eval, eval_C]⟩
  | special s => exact fun _ => ⟨C (B2.eval (E 0) (.special s)), fun x => by cases s <;> simp only [B2.eval, eval_C]⟩
  | var v =>
    intro _
    obtain ⟨Q, hQ⟩ := hE v
    exact ⟨Q, fun x => by simp only [B2.eval, hQ]⟩
  | mult ops ih =>
    intro h
    obtain ⟨P, hP⟩ := ih h
    exact ⟨P, fun x => by simp only [B2.eval, hP]⟩
  | neg n ih =>
    intro h
    obtain ⟨P, hP⟩ := ih h
    exact ⟨-P, fun x => by simp [B2.eval, hP]⟩
  | ipow n k ih =>
    intro h
    obtain ⟨P, hP⟩ := ih h.2
    obtain ⟨m, rfl⟩ := Int.eq_ofNat_of_zero_le h.1
    exact ⟨P ^ m, fun x => by simp [B2.eval, hP]⟩
  | _ => intro h; exact h.elim

theorem poly_mv (n : Node) : PolyTree n → ∃ P : MvPolynomial σ ℂ, ∀ x, B2.eval (E x) n = MvPolynomial.eval x P := by
  induction n using Node.rec (motive_2 := fun ops =>
    (PolySum ops → ∃ P : MvPolynomial σ ℂ, ∀ x, evalSum (E x) ops = MvPolynomial.eval x P) ∧
    (PolyMult ops → ∃ P : MvPolynomial σ ℂ, ∀ x, evalMult (E x) ops = MvPolynomial.eval x P)) with
  | nil => exact ⟨fun _ => ⟨0, fun x => by simp [evalSum]⟩, fun _ => ⟨1, fun x => by simp [evalMult]⟩⟩
  | cons m n r ih1 ih2 =>
    constructor
    · intro h
      obtain ⟨P, hP⟩ := ih1 h.1
      obtain ⟨Q, hQ⟩ := ih2.1 h.2
      cases m with
      | true => exact ⟨P + Q, fun x => by simp [evalSum, hP, hQ]⟩
      | false => exact ⟨-P + Q, fun x => by simp [evalSum, hP, hQ]⟩
    · intro h
      obtain ⟨P, hP⟩ := ih1 h.1
      obtain ⟨Q, hQ⟩ := ih2.2 h.2.2
      cases m with
      | true => exact ⟨P * Q, fun x => by simp [evalMult, hP, hQ]⟩
      | false =>
        refine ⟨C (B2.eval (E 0) n)⁻¹ * Q, fun x => ?_⟩
        have : B2.eval (E x) n = B2.eval (E 0) n := eval_congr n (by simp [(h.2.1 rfl).2])
        simp [evalMult, hQ, this]
  | int z => exact fun _ => ⟨C (B2.eval (E 0) (.int z)), fun x => by simp only [B2.eval, eval_C]⟩
  | float a b => exact fun _ => ⟨C (B2.eval (E 0) (.float a b)), fun x => by simp only [B2.eval, eval_C]⟩
  | rat a b => exact fun _ => ⟨C (B2.eval (E 0) (.rat a b)), fun x => by simp only [B2.eval, eval_C]⟩
  | special s => exact fun _ => ⟨C (B2.eval (E 0) (.special s)), fun x => by cases s <;> simp only [B2.eval, eval_C]⟩
  | var v =>
    intro _
    obtain ⟨Q, hQ⟩ := hE v
    exact ⟨Q, fun x => by simp only [B2.eval, hQ]⟩
  | sum ops ih =>
    intro h
    obtain ⟨P, hP⟩ := ih.1 h
    exact ⟨P, fun x => by simp only [B2.eval, hP]⟩
  | mult ops ih =>
    intro h
    obtain ⟨P, hP⟩ := ih.2 h
    exact ⟨P, fun x => by simp only [B2.eval, hP]⟩
  | fn n ih =>
    intro h
    obtain ⟨P, hP⟩ := ih h
    exact ⟨P, fun x => by simp only [B2.eval, hP]⟩
  | neg n ih => exact fun h => mono_mv hE (.neg n) h
  | ipow n k ih => exact fun h => mono_mv hE (.ipow n k) h
  | _ => intro h; exact h.elim

end

/-- A polynomial whose values scale with degree `d` is homogeneous of degree `d`. -/
theorem homogeneous_of_scaling {n : ℕ} {P : MvPolynomial (Fin (n + 1)) ℂ} {d : ℕ}
    (h : ∀ (c : ℂ) (x : Fin (n + 1) → ℂ), c ≠ 0 → MvPolynomial.eval (c • x) P = c ^ d * MvPolynomial.eval x P) :
    P.IsHomogeneous d := by
  have hzero : ∀ k, k ≠ d → homogeneousComponent k P = 0 := by
    intro k hk
    apply MvPolynomial.funext
    intro x
    rw [map_zero]
    let N := P.totalDegree + 1
    let q : Polynomial ℂ := (∑ m ∈ Finset.range N, Polynomial.monomial m (MvPolynomial.eval x (homogeneousComponent m P)))
      - Polynomial.monomial d (MvPolynomial.eval x P)
    have hq : q = 0 := by
      have hroots : ∀ c : ℂ, c ≠ 0 → q.eval c = 0 := by
        intro c hc
        have h1 := h c x hc
        conv_lhs at h1 => rw [← sum_homogeneousComponent P, map_sum]
        have h2 : ∀ m ∈ Finset.range (P.totalDegree + 1), MvPolynomial.eval (c • x) (homogeneousComponent m P) =
            c ^ m * MvPolynomial.eval x (homogeneousComponent m P) := fun m _ =>
          eval_smul_homogeneous (homogeneousComponent_isHomogeneous m P) c x
        rw [Finset.sum_congr rfl h2] at h1
        simp only [q, Polynomial.eval_sub, Polynomial.eval_finset_sum, Polynomial.eval_monomial]
        rw [sub_eq_zero]
        calc _ = ∑ m ∈ Finset.range (P.totalDegree + 1), c ^ m * MvPolynomial.eval x (homogeneousComponent m P) :=
              Finset.sum_congr rfl fun m _ => mul_comm _ _
          _ = _ := by rw [h1, mul_comm]
      refine Polynomial.eq_zero_of_infinite_isRoot q ?_
      refine Set.Infinite.mono (s := {0}ᶜ) (fun c hc => hroots c hc) ?_
      exact (Set.finite_singleton (0 : ℂ)).infinite_compl
    have hco := congrArg (fun q : Polynomial ℂ => q.coeff k) hq
    simp only [q, Polynomial.coeff_sub, Polynomial.finset_sum_coeff, Polynomial.coeff_monomial,
      Polynomial.coeff_zero, Finset.sum_ite_eq', Finset.mem_range] at hco
    rw [if_neg (Ne.symm hk), sub_zero] at hco
    by_cases hkN : k < N
    · rwa [if_pos hkN] at hco
    · rw [homogeneousComponent_eq_zero _ _ (by omega), map_zero]
  have : P = homogeneousComponent d P := by
    conv_lhs => rw [← sum_homogeneousComponent P]
    by_cases hd : d ∈ Finset.range (P.totalDegree + 1)
    · rw [Finset.sum_eq_single d (fun m _ hm => hzero m hm) (fun h => (h hd).elim)]
    · rw [homogeneousComponent_eq_zero _ _ (by simpa [Nat.lt_succ_iff] using hd)]
      exact Finset.sum_eq_zero fun m hm => hzero m (by rintro rfl; exact hd hm)
  rw [this]
  exact homogeneousComponent_isHomogeneous d P

/-! ### The environment of a point -/

/-- The values of the variables `z :: g` at the point `x`. -/
noncomputable def envOf (z : Var) (g : List Var) (x : Fin (g.length + 1) → ℂ) : Env := fun v =>
  if v = z then x 0
  else if h : v ∈ g then x (Fin.succ ⟨g.idxOf v, List.idxOf_lt_length_of_mem h⟩) else 0

theorem envOf_poly (z : Var) (g : List Var) (v : Var) :
    ∃ Q : MvPolynomial (Fin (g.length + 1)) ℂ, ∀ x, envOf z g x v = MvPolynomial.eval x Q := by
  unfold envOf
  by_cases h1 : v = z
  · exact ⟨X 0, fun x => by simp [h1]⟩
  · by_cases h2 : v ∈ g
    · exact ⟨X (Fin.succ ⟨g.idxOf v, List.idxOf_lt_length_of_mem h2⟩), fun x => by simp [h1, h2]⟩
    · exact ⟨0, fun x => by simp [h1, h2]⟩

theorem envOf_zero (z : Var) (g : List Var) (x : Fin (g.length + 1) → ℂ) : envOf z g x z = x 0 := by
  simp [envOf]

theorem envOf_get {z : Var} {g : List Var} (hn : (z :: g).Nodup) (x : Fin (g.length + 1) → ℂ)
    (j : Fin g.length) : envOf z g x g[j] = x j.succ := by
  obtain ⟨h1, h2⟩ := List.nodup_cons.1 hn
  have hz : g[j] ≠ z := fun h => h1 (h ▸ List.getElem_mem _)
  have hm : g[j] ∈ g := List.getElem_mem _
  unfold envOf
  rw [if_neg hz, dif_pos hm]
  congr 2
  exact Fin.ext (h2.idxOf_getElem j.1 j.2)

theorem envOf_binds {z : Var} {g : List Var} (hn : (z :: g).Nodup) (x : Fin (g.length + 1) → ℂ) :
    Binds (z :: g) (List.ofFn x) (envOf z g x) := by
  unfold Binds
  rw [List.ofFn_succ, List.map_cons, envOf_zero]
  congr 1
  apply List.ext_getElem
  · simp
  · intro j h1 h2
    simp only [List.length_map] at h1
    simp only [List.getElem_map, List.getElem_ofFn]
    exact envOf_get hn x ⟨j, h1⟩

theorem envOf_scale (z : Var) (g : List Var) (c : ℂ) (x : Fin (g.length + 1) → ℂ) :
    envOf z g (c • x) = scale c (z :: g) (envOf z g x) := by
  funext v
  unfold envOf scale
  by_cases h1 : v = z
  · simp [h1]
  · by_cases h2 : v ∈ g <;> simp [h1, h2]

end B2.Cont
