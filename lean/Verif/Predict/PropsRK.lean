/-
C44: the explicit Runge-Kutta predictors have their advertised order.
C45: every selectable predictor can be used.
-/
import Verif.Predict.RK
import Mathlib.Algebra.BigOperators.Ring.Finset
import Mathlib.Algebra.BigOperators.Module
import Mathlib.Algebra.Module.BigOperators
import Mathlib.Algebra.Module.LinearMap.End
import Mathlib.Data.Nat.Choose.Sum
import Mathlib.Data.Rat.Cast.CharZero
import Mathlib.Data.Rat.BigOperators
import Mathlib.Tactic.FieldSimp
import Mathlib.Tactic.Ring
import Mathlib.Tactic.Module
import Mathlib.Tactic.LinearCombination

set_option linter.unusedSectionVars false

namespace B2.Predict
open B2.Track (Code)
open Finset

/-! ### Order conditions -/

/-- Coefficient of `z^m` in the `i`-th stage of the method applied to `x' = a x`, `z = a δ`. -/
def kap (T : Table) : ℕ → ℕ → ℚ
  | 0, _ => 1
  | m + 1, i => ∑ j ∈ range i, T.a i j * kap T m j

/-- The conditions checked on each table: `c 0 = 0`, quadrature up to degree `p-1`, tall trees up to
order `p`; for the embedded difference the same with right-hand side zero up to order `q`. -/
def conds (T : Table) (p q : ℕ) : Prop :=
  0 < T.s ∧ T.c 0 = 0 ∧
  (∀ k ∈ List.range p, ∑ i ∈ range T.s, T.b i * T.c i ^ k = 1 / (k + 1 : ℚ)) ∧
  (∀ m ∈ List.range p, ∑ i ∈ range T.s, T.b i * kap T m i = 1 / ((m + 1).factorial : ℚ)) ∧
  (∀ k ∈ List.range q, ∑ i ∈ range T.s, T.d i * T.c i ^ k = 0) ∧
  (∀ m ∈ List.range q, ∑ i ∈ range T.s, T.d i * kap T m i = 0)

instance (T : Table) (p q : ℕ) : Decidable (conds T p q) := by unfold conds; infer_instance

theorem conds_constant : conds constantT 0 1 := by decide +kernel
theorem conds_euler : conds eulerT 1 1 := by decide +kernel
theorem conds_heunEuler : conds heunEulerT 2 1 := by decide +kernel
theorem conds_rk4 : conds rk4T 4 1 := by decide +kernel
theorem conds_rkf45 : conds rkf45T 5 4 := by decide +kernel
theorem conds_rkck45 : conds rkck45T 5 4 := by decide +kernel
theorem conds_rkdp56 : conds rkdp56T 5 5 := by decide +kernel
theorem conds_rkv67 : conds rkv67T 7 6 := by decide +kernel

/-! ### Running a step on a right-hand side that never fails -/

variable {K V : Type} [Field K] [CharZero K] [AddCommGroup V] [Module K V]

/-- If `S i` satisfies the stage equations, the loop fills the columns with `S`. -/
theorem stageLoop_spec (T : Table) (f : V → K → Option V) (x : V) (t δ : K) (S : ℕ → V)
    (hS : ∀ i < T.s,
      f (x + δ • ∑ j ∈ range i, (T.a i j : K) • S j) (t + (T.c i : K) * δ) = some (S i)) :
    ∀ n ii Kc, ii + n ≤ T.s → (∀ j < ii, Kc j = S j) →
      ∃ Kc', stageLoop T f x t δ n ii Kc = some Kc' ∧ ∀ j < ii + n, Kc' j = S j := by
  intro n
  induction n with
  | zero => intro ii Kc _ h; exact ⟨Kc, rfl, by simpa using h⟩
  | succ n ih =>
    intro ii Kc hle h
    have hsum : ∑ jj ∈ range ii, (T.a ii jj : K) • Kc jj = ∑ jj ∈ range ii, (T.a ii jj : K) • S jj :=
      sum_congr rfl fun j hj => by rw [h j (mem_range.1 hj)]
    obtain ⟨Kc', h1, h2⟩ := ih (ii + 1) (Function.update Kc ii (S ii)) (by omega) (by
      intro j hj
      by_cases hji : j = ii
      · subst hji; simp
      · rw [Function.update_of_ne hji]; exact h j (by omega))
    refine ⟨Kc', ?_, fun j hj => h2 j (by omega)⟩
    rw [stageLoop, hsum, hS ii (by omega)]
    exact h1

theorem fullStep_spec (T : Table) (hs : 0 < T.s) (hc : T.c 0 = 0) (f : V → K → Option V) (x : V)
    (t δ : K) (S : ℕ → V)
    (hS : ∀ i < T.s,
      f (x + δ • ∑ j ∈ range i, (T.a i j : K) • S j) (t + (T.c i : K) * δ) = some (S i)) :
    ∃ Kc, fullStep T f x t δ = .ok (x + δ • ∑ i ∈ range T.s, (T.b i : K) • S i, Kc) ∧
      errVec T Kc δ = δ • ∑ i ∈ range T.s, (T.d i : K) • S i := by
  have h0 : f x t = some (S 0) := by simpa [hc] using hS 0 hs
  obtain ⟨Kc, h1, h2⟩ := stageLoop_spec T f x t δ S hS (T.s - 1) 1 (Function.update (fun _ => 0) 0 (S 0))
    (by omega) (by
      intro j hj
      obtain rfl : j = 0 := by omega
      simp)
  have hK : ∀ j < T.s, Kc j = S j := fun j hj => h2 j (by omega)
  refine ⟨Kc, ?_, ?_⟩
  · unfold fullStep
    rw [if_neg (by omega), h0]
    simp only [h1]
    rw [sum_congr rfl fun i hi => by rw [hK i (mem_range.1 hi)]]
  · unfold errVec
    rw [sum_congr rfl fun i hi => by rw [hK i (mem_range.1 hi)]]

/-! ### Polynomials in `t` -/

theorem moment (w c : ℕ → ℚ) (s k : ℕ) (r : ℕ → ℚ)
    (h : ∀ m ≤ k, ∑ i ∈ range s, w i * c i ^ m = r m) (t δ : K) :
    ∑ i ∈ range s, (w i : K) * (t + (c i : K) * δ) ^ k
      = ∑ m ∈ range (k + 1), (r m : K) * δ ^ m * t ^ (k - m) * (k.choose m : K) := by
  have : ∀ i, (w i : K) * (t + (c i : K) * δ) ^ k
      = ∑ m ∈ range (k + 1), ((w i * c i ^ m : ℚ) : K) * (δ ^ m * t ^ (k - m) * (k.choose m : K)) := by
    intro i
    rw [add_comm, add_pow, mul_sum]
    refine sum_congr rfl fun m _ => ?_
    push_cast
    rw [mul_pow]; ring
  simp_rw [this]
  rw [sum_comm]
  refine sum_congr rfl fun m hm => ?_
  rw [← sum_mul, ← Rat.cast_sum, h m (by have := mem_range.1 hm; omega)]
  ring

theorem integral_monomial (t δ : K) (k : ℕ) :
    δ * ∑ m ∈ range (k + 1), (((1 : ℚ) / (m + 1 : ℚ) : ℚ) : K) * δ ^ m * t ^ (k - m) * (k.choose m : K)
      = ((t + δ) ^ (k + 1) - t ^ (k + 1)) / (k + 1 : K) := by
  have hk : (k + 1 : K) ≠ 0 := by exact_mod_cast Nat.succ_ne_zero k
  rw [eq_div_iff hk, add_comm t δ, add_pow, sum_range_succ' _ (k + 1)]
  simp only [pow_zero, Nat.sub_zero, Nat.choose_zero_right, Nat.cast_one, mul_one, one_mul,
    add_sub_cancel_right]
  rw [mul_sum, sum_mul]
  refine sum_congr rfl fun m hm => ?_
  have hm' : (m + 1 : K) ≠ 0 := by exact_mod_cast Nat.succ_ne_zero m
  have hc : ((k + 1 : ℕ) : K) * (k.choose m : K) = ((k + 1).choose (m + 1) : K) * ((m + 1 : ℕ) : K) := by
    exact_mod_cast Nat.add_one_mul_choose_eq k m
  push_cast at hc ⊢
  field_simp
  linear_combination (δ ^ m * δ * t ^ (k - m)) * hc

/-! ### Linear equations -/

theorem kap_zero (T : Table) : ∀ m i, i < m → kap T m i = 0 := by
  intro m
  induction m with
  | zero => intro i h; omega
  | succ m ih =>
    intro i h
    rw [kap]
    exact sum_eq_zero fun j hj => by rw [ih j (by have := mem_range.1 hj; omega), mul_zero]

/-- The stages of the method on `x' = A x`. -/
def linStage (T : Table) (A : Module.End K V) (x : V) (δ : K) (i : ℕ) : V :=
  ∑ m ∈ range T.s, ((kap T m i : ℚ) : K) • δ ^ m • (A ^ (m + 1)) x

theorem linStage_eq (T : Table) (A : Module.End K V) (x : V) (δ : K) (i : ℕ) (hi : i < T.s) :
    A (x + δ • ∑ j ∈ range i, (T.a i j : K) • linStage T A x δ j) = linStage T A x δ i := by
  have h1 : ∀ j, A (linStage T A x δ j)
      = ∑ m ∈ range T.s, ((kap T m j : ℚ) : K) • δ ^ m • (A ^ (m + 2)) x := by
    intro j
    simp only [linStage, map_sum, map_smul]
    refine sum_congr rfl fun m _ => ?_
    rw [show m + 2 = (m + 1) + 1 from rfl, pow_succ' A (m + 1)]
    rfl
  rw [map_add, map_smul, map_sum]
  simp_rw [map_smul, h1]
  obtain ⟨s, hs⟩ : ∃ s, T.s = s + 1 := ⟨T.s - 1, by omega⟩
  have h2 : ∑ j ∈ range i, (T.a i j : K) •
        ∑ m ∈ range T.s, ((kap T m j : ℚ) : K) • δ ^ m • (A ^ (m + 2)) x
      = ∑ m ∈ range s, ((kap T (m + 1) i : ℚ) : K) • δ ^ m • (A ^ (m + 2)) x := by
    simp_rw [smul_sum]
    rw [sum_comm, hs, sum_range_succ]
    have hlast : ∑ j ∈ range i, (T.a i j : K) • ((kap T s j : ℚ) : K) • δ ^ s • (A ^ (s + 2)) x = 0 :=
      sum_eq_zero fun j hj => by
        rw [kap_zero T s j (by have := mem_range.1 hj; omega)]; simp
    rw [hlast, add_zero]
    refine sum_congr rfl fun m _ => ?_
    simp_rw [smul_smul]
    rw [← sum_smul, kap]
    push_cast
    simp_rw [← mul_assoc]
    rw [← sum_mul]
  rw [h2, linStage, hs, sum_range_succ']
  simp only [kap, smul_sum]
  rw [add_comm]
  congr 1
  · refine sum_congr rfl fun m _ => ?_
    rw [smul_comm δ, smul_smul δ, ← pow_succ']
  · simp


/-! ### C44 -/

/-- Order up to which the embedded estimate vanishes: the smaller of the orders of the two formulas. -/
def estOrder : Method → ℕ
  | .heunEuler => 1
  | M => order M

theorem conds_of_method (M : Method) (T : Table) (h : predictorMethod M = some T) :
    conds T (order M) (if hasErrorEstimate M then estOrder M else 0) := by
  have mono : ∀ {T p q p' q'}, conds T p q → p' ≤ p → q' ≤ q → conds T p' q' := by
    intro T p q p' q' ⟨h1, h2, h3, h4, h5, h6⟩ hp hq
    refine ⟨h1, h2, fun k hk => h3 k ?_, fun k hk => h4 k ?_, fun k hk => h5 k ?_, fun k hk => h6 k ?_⟩ <;>
      · rw [List.mem_range] at hk ⊢; omega
  cases M <;> simp only [predictorMethod, Option.some.injEq, reduceCtorEq] at h <;> subst h
  · exact mono conds_constant (by decide) (by decide)
  · exact mono conds_euler (by decide) (by decide)
  · exact mono conds_rk4 (by decide) (by decide)
  · exact mono conds_heunEuler (by decide) (by decide)
  · exact mono conds_rkf45 (by decide) (by decide)
  · exact mono conds_rkck45 (by decide) (by decide)
  · exact mono conds_rkdp56 (by decide) (by decide)
  · exact mono conds_rkv67 (by decide) (by decide)

/-- The curve `τ ↦ u 0 + τ u 1 + … + τ^p u p`. -/
def curve (p : ℕ) (u : ℕ → V) (τ : K) : V := ∑ k ∈ range (p + 1), τ ^ k • u k

/-- Its derivative, `u 1 + 2 τ u 2 + … + p τ^(p-1) u p`: an arbitrary polynomial of degree `< p`. -/
def curve' (p : ℕ) (u : ℕ → V) (τ : K) : V := ∑ k ∈ range p, ((k + 1 : K) * τ ^ k) • u (k + 1)

theorem poly_sum (T : Table) (p : ℕ) (w : ℕ → ℚ) (u : ℕ → V) (t δ : K) :
    δ • ∑ i ∈ range T.s, (w i : K) • curve' p u (t + (T.c i : K) * δ)
      = ∑ k ∈ range p, ((k + 1 : K) * (δ * ∑ i ∈ range T.s, (w i : K) * (t + (T.c i : K) * δ) ^ k))
          • u (k + 1) := by
  simp only [curve', smul_sum, smul_smul]
  rw [sum_comm]
  refine sum_congr rfl fun k _ => ?_
  rw [← sum_smul]
  congr 1
  rw [mul_sum, mul_sum]
  exact sum_congr rfl fun i _ => by ring

/-- **C44, polynomial right-hand sides.**  For every installable method, one step of any size started on
a polynomial curve of degree at most the advertised order `p`, with right-hand side the derivative of the
curve (any polynomial in time of degree `< p`, vector-valued), succeeds and lands on the curve. -/
theorem C44_polynomial (M : Method) (T : Table) (hM : predictorMethod M = some T) (u : ℕ → V)
    (f : V → K → Option V) (hf : ∀ y τ, f y τ = some (curve' (order M) u τ)) (t δ : K) :
    ∃ Kc, fullStep T f (curve (order M) u t) t δ = .ok (curve (order M) u (t + δ), Kc) := by
  obtain ⟨hs, hc, hq, -, -, -⟩ := conds_of_method M T hM
  obtain ⟨Kc, h1, -⟩ := fullStep_spec T hs hc f (curve (order M) u t) t δ
    (fun i => curve' (order M) u (t + (T.c i : K) * δ)) (fun i _ => hf _ _)
  refine ⟨Kc, h1.trans ?_⟩
  congr 2
  rw [poly_sum]
  have : ∀ k ∈ range (order M),
      ((k + 1 : K) * (δ * ∑ i ∈ range T.s, (T.b i : K) * (t + (T.c i : K) * δ) ^ k)) • u (k + 1)
        = ((t + δ) ^ (k + 1) - t ^ (k + 1)) • u (k + 1) := by
    intro k hk
    have hk' := mem_range.1 hk
    rw [moment T.b T.c T.s k (fun m => 1 / (m + 1 : ℚ))
      (fun m hm => hq m (List.mem_range.2 (by omega))) t δ, integral_monomial]
    have : (k + 1 : K) ≠ 0 := by exact_mod_cast Nat.succ_ne_zero k
    rw [mul_div_cancel₀ _ this]
  rw [sum_congr rfl this]
  simp only [curve]
  rw [sum_range_succ' _ (order M), sum_range_succ' _ (order M)]
  simp only [pow_zero, sub_smul, sum_sub_distrib]
  abel

/-- **C44, embedded estimate on polynomials.**  For every installable method with an embedded formula, on
right-hand sides of degree below the smaller of the two orders the vector whose norm is the error estimate
is zero. -/
theorem C44_estimate (M : Method) (T : Table) (hM : predictorMethod M = some T)
    (hE : hasErrorEstimate M = true) (u : ℕ → V)
    (f : V → K → Option V) (hf : ∀ y τ, f y τ = some (curve' (estOrder M) u τ)) (x : V) (t δ : K) :
    ∃ next Kc, fullStep T f x t δ = .ok (next, Kc) ∧ errVec T Kc δ = 0 := by
  have hcond := conds_of_method M T hM
  rw [if_pos hE] at hcond
  obtain ⟨hs, hc, -, -, hq, -⟩ := hcond
  obtain ⟨Kc, h1, h2⟩ := fullStep_spec T hs hc f x t δ
    (fun i => curve' (estOrder M) u (t + (T.c i : K) * δ)) (fun i _ => hf _ _)
  refine ⟨_, Kc, h1, h2.trans ?_⟩
  rw [poly_sum]
  refine sum_eq_zero fun k hk => ?_
  rw [moment T.d T.c T.s k (fun _ => 0)
      (fun m hm => hq m (List.mem_range.2 (by have := mem_range.1 hk; omega))) t δ]
  simp

theorem lin_sum (T : Table) (w : ℕ → ℚ) (A : Module.End K V) (x : V) (δ : K) :
    δ • ∑ i ∈ range T.s, (w i : K) • linStage T A x δ i
      = ∑ m ∈ range T.s, (((∑ i ∈ range T.s, w i * kap T m i : ℚ) : K) * δ ^ (m + 1)) • (A ^ (m + 1)) x := by
  simp only [linStage, smul_sum, smul_smul]
  rw [sum_comm]
  refine sum_congr rfl fun m _ => ?_
  rw [← sum_smul]
  congr 1
  push_cast
  rw [sum_mul]
  exact sum_congr rfl fun i _ => by ring

/-- **C44, linear equations.**  For every installable method there are coefficients `w`, with
`w m = 1/m!` for every `m` up to the advertised order, such that one step of any size for any linear
equation `x' = A x` (any linear map on any vector space) gives `Σ_m w_m δ^m A^m x`: the step agrees with
the Taylor polynomial of `exp (δ A) x` up to the advertised order. -/
theorem C44_linear (M : Method) (T : Table) (hM : predictorMethod M = some T) :
    ∃ w : ℕ → ℚ, (∀ m ≤ order M, w m = 1 / (m.factorial : ℚ)) ∧
      ∀ (K V : Type) [Field K] [CharZero K] [AddCommGroup V] [Module K V] (A : Module.End K V)
        (f : V → K → Option V), (∀ y τ, f y τ = some (A y)) → ∀ (x : V) (t δ : K),
        ∃ Kc, fullStep T f x t δ
          = .ok (∑ m ∈ range (T.s + 1), ((w m : K) * δ ^ m) • (A ^ m) x, Kc) := by
  obtain ⟨hs, hc, -, hq, -, -⟩ := conds_of_method M T hM
  refine ⟨fun m => match m with
    | 0 => 1
    | m + 1 => ∑ i ∈ range T.s, T.b i * kap T m i, ?_, ?_⟩
  · intro m hm
    cases m with
    | zero => simp
    | succ m => exact hq m (List.mem_range.2 (by omega))
  · intro K V _ _ _ _ A f hf x t δ
    obtain ⟨Kc, h1, -⟩ := fullStep_spec T hs hc f x t δ (linStage T A x δ)
      (fun i hi => by rw [hf, linStage_eq T A x δ i hi])
    refine ⟨Kc, h1.trans ?_⟩
    rw [lin_sum, sum_range_succ', add_comm]
    simp

/-- **C44, embedded estimate on linear equations.**  The estimate has no terms of degree `≤ q` in the step
size, `q` being the smaller of the orders of the two formulas. -/
theorem C44_estimateLinear (M : Method) (T : Table) (hM : predictorMethod M = some T)
    (hE : hasErrorEstimate M = true) :
    ∃ e : ℕ → ℚ, (∀ m ≤ estOrder M, e m = 0) ∧
      ∀ (K V : Type) [Field K] [CharZero K] [AddCommGroup V] [Module K V] (A : Module.End K V)
        (f : V → K → Option V), (∀ y τ, f y τ = some (A y)) → ∀ (x : V) (t δ : K),
        ∃ next Kc, fullStep T f x t δ = .ok (next, Kc) ∧
          errVec T Kc δ = ∑ m ∈ range (T.s + 1), ((e m : K) * δ ^ m) • (A ^ m) x := by
  have hcond := conds_of_method M T hM
  rw [if_pos hE] at hcond
  obtain ⟨hs, hc, -, -, -, hq⟩ := hcond
  refine ⟨fun m => match m with
    | 0 => 0
    | m + 1 => ∑ i ∈ range T.s, T.d i * kap T m i, ?_, ?_⟩
  · intro m hm
    cases m with
    | zero => rfl
    | succ m => exact hq m (List.mem_range.2 (by omega))
  · intro K V _ _ _ _ A f hf x t δ
    obtain ⟨Kc, h1, h2⟩ := fullStep_spec T hs hc f x t δ (linStage T A x δ)
      (fun i hi => by rw [hf, linStage_eq T A x δ i hi])
    refine ⟨_, Kc, h1, h2.trans ?_⟩
    rw [lin_sum, sum_range_succ']
    simp

/-- A concrete case: RKF45 on the cubic curve `τ³` (right-hand side `3τ²`), from `t = 1` by `δ = 1/2`. -/
example : ∃ Kc, fullStep (K := ℚ) (V := ℚ) rkf45T
    (fun _ τ => some (curve' 4 (fun k => if k = 3 then 1 else 0) τ)) 1 1 (1/2) = .ok (27/8, Kc) := by
  have h := C44_polynomial (K := ℚ) (V := ℚ) .rkf45 rkf45T rfl (fun k => if k = 3 then 1 else 0)
    _ (fun _ _ => rfl) 1 (1/2)
  norm_num [curve, order, sum_range_succ] at h
  exact h

/-- Failure of the right-hand side is reported, and reported differently for the first stage. -/
theorem fullStep_fails_first (T : Table) (hs : 0 < T.s) (f : V → K → Option V) (x : V) (t δ : K)
    (h : f x t = none) : fullStep T f x t δ = .error .matrixSolveFailureFirstPart := by
  unfold fullStep; rw [if_neg (by omega), h]

/-! ### C45 -/

/-- **C45, full statement**: every enumeration value can be installed, and every value accepted by the
`odepredictor` setting is an installable method. -/
def C45_full : Prop :=
  (∀ M : Method, (predictorMethod M).isSome) ∧
  ∀ (n : ℤ) (M : Method), odePredictor n = some M → (predictorMethod M).isSome

/-- **C45 fails**: `Heun` and `RKNorsett34` throw; the setting values 1, 3 and 4 select them. -/
theorem C45_refuted : ¬ C45_full ∧ predictorMethod .heun = none ∧ predictorMethod .rkNorsett34 = none ∧
    (∀ n ∈ [1, 3, 4], ∃ M, odePredictor n = some M ∧ predictorMethod M = none) := by
  refine ⟨fun h => ?_, rfl, rfl, ?_⟩
  · have := h.1 .heun
    simp [predictorMethod] at this
  · intro n hn
    simp only [List.mem_cons, List.not_mem_nil, or_false] at hn
    rcases hn with rfl | rfl | rfl
    · exact ⟨.heun, rfl, rfl⟩
    · exact ⟨.heun, rfl, rfl⟩
    · exact ⟨.rkNorsett34, rfl, rfl⟩

/-- **C45, partial**: exactly the other eight methods can be installed, and exactly the setting values
-1, 0, 2, 5, 6, 7, 8 select an installable one; an installed method has a step that reports success
whenever the right-hand side can be evaluated everywhere. -/
theorem C45_partial :
    (∀ M : Method, (predictorMethod M).isSome ↔ M ≠ .heun ∧ M ≠ .rkNorsett34) ∧
    (∀ n : ℤ, (∃ M, odePredictor n = some M ∧ (predictorMethod M).isSome) ↔
      n ∈ [-1, 0, 2, 5, 6, 7, 8]) ∧
    (∀ (M : Method) (T : Table), predictorMethod M = some T →
      ∀ (f : V → K → Option V), (∀ y τ, (f y τ).isSome) → ∀ (x : V) (t δ : K),
        ∃ r, fullStep T f x t δ = .ok r) := by
  refine ⟨by intro M; cases M <;> simp [predictorMethod], ?_, ?_⟩
  · intro n
    constructor
    · rintro ⟨M, h1, h2⟩
      unfold odePredictor at h1
      split at h1 <;> first
        | (simp only [Option.some.injEq] at h1; subst h1; simp_all [predictorMethod])
        | simp at h1
    · intro h
      simp only [List.mem_cons, List.not_mem_nil, or_false] at h
      rcases h with rfl | rfl | rfl | rfl | rfl | rfl | rfl <;> exact ⟨_, rfl, rfl⟩
  · intro M T hM f hf x t δ
    obtain ⟨hs, -⟩ := conds_of_method M T hM
    have loop : ∀ n ii Kc, ∃ Kc', stageLoop T f x t δ n ii Kc = some Kc' := by
      intro n
      induction n with
      | zero => intro ii Kc; exact ⟨_, rfl⟩
      | succ n ih =>
        intro ii Kc
        obtain ⟨k, hk⟩ := Option.isSome_iff_exists.1
          (hf (x + δ • ∑ jj ∈ range ii, (T.a ii jj : K) • Kc jj) (t + (T.c ii : K) * δ))
        rw [stageLoop, hk]
        exact ih _ _
    obtain ⟨k0, hk0⟩ := Option.isSome_iff_exists.1 (hf x t)
    obtain ⟨Kc, hKc⟩ := loop (T.s - 1) 1 (Function.update (fun _ => 0) 0 k0)
    unfold fullStep
    rw [if_neg (by omega), hk0]
    simp only [hKc]
    exact ⟨_, rfl⟩

end B2.Predict
