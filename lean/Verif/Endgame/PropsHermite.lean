/-
C46: Hermite interpolation reproduces polynomials of degree below `2n`.
-/
import Verif.Endgame.HermiteProof
import Mathlib.Algebra.Module.Pi
import Mathlib.Algebra.Module.LinearMap.Defs
import Mathlib.LinearAlgebra.Pi
import Mathlib.Algebra.Field.Rat
import Mathlib.Tactic.NormNum.Inv

namespace B2.Endgame
open Polynomial Finset

variable {K : Type} [Field K] {ι : Type}

/-- The data given to the routine are values and derivatives, at distinct times, of the vector of
polynomials `P`. -/
structure Samples (P : ι → K[X]) (times : List K) (samples derivs : List (ι → K)) : Prop where
  nodup : times.Nodup
  samples_eq : samples = times.map fun t j => (P j).eval t
  derivs_eq : derivs = times.map fun t j => (derivative (P j)).eval t

/-- **C46, full statement**: given at least `n` samples of a vector of polynomials of degree below `2n`,
the routine returns the value of the polynomials at the target time (whichever end of the containers it is
told to use). -/
def C46_full : Prop :=
  ∀ (K : Type) [Field K] (ι : Type) (P : ι → K[X]) (n : ℕ) (times : List K) (samples derivs : List (ι → K))
    (T : K) (front : Bool), 0 < n → n ≤ times.length → (∀ j, (P j).natDegree < 2 * n) →
    Samples P times samples derivs →
    hermite T n times samples derivs front = some fun j => (P j).eval T

/-- What the routine is applied to, coordinate by coordinate. -/
theorem hermite_coord (P : ι → K[X]) (n : ℕ) (times : List K) (samples derivs : List (ι → K))
    (T : K) (front : Bool) (hn : 0 < n) (hlen : n ≤ times.length) (h : Samples P times samples derivs) :
    ∃ y : ℕ → K, (∀ i < n, ∀ j < n, y i = y j → i = j) ∧ (∀ i < n, y i ∈ times) ∧
      (front = true → ∀ i < n, times[n - 1 - i]? = some (y i)) ∧
      (front = false → ∀ i < n, times[times.length - 1 - i]? = some (y i)) ∧
      ∃ v, hermite T n times samples derivs front = some v ∧
      ∀ j, ∃ x d : ℕ → K, (∀ i < n, x i = (P j).eval (y i)) ∧
        (∀ i < n, d i = (derivative (P j)).eval (y i)) ∧ v j = hermiteCore T n y x d := by
  obtain ⟨hnd, rfl, rfl⟩ := h
  obtain ⟨m, hm, hm1, hm2, hm3⟩ : ∃ m, m = (if front then n - 1 else times.length - 1) ∧ n ≤ m + 1 ∧
      m < times.length ∧ True := by
    refine ⟨_, rfl, ?_, ?_, trivial⟩ <;> (split_ifs <;> omega)
  have hget : ∀ i < n, times[m - i]? = some (times.getD (m - i) 0) := by
    intro i hi
    rw [List.getD_eq_getElem?_getD, List.getElem?_eq_getElem (by omega)]; rfl
  refine ⟨fun i => times.getD (m - i) 0, ?_, ?_, ?_, ?_, ?_⟩
  · intro i hi j hj hij
    have h1 := hget i hi
    have h2 := hget j hj
    have h3 : times[m - i]? = times[m - j]? := by
      rw [h1, h2]; exact congrArg some hij
    have := (List.getElem?_inj (by omega) hnd).1 h3
    omega
  · intro i hi
    exact List.mem_of_getElem? (hget i hi)
  · intro hf i hi
    rw [if_pos hf] at hm
    rw [← hm]; exact hget i hi
  · intro hf i hi
    rw [if_neg (by simp [hf])] at hm
    rw [← hm]; exact hget i hi
  · refine ⟨hermiteCore T n (fun i => times.getD (m - i) 0)
      (fun i => (times.map fun t j => (P j).eval t).getD (m - i) 0)
      (fun i => (times.map fun t j => (derivative (P j)).eval t).getD (m - i) 0), ?_, fun j => ?_⟩
    · unfold hermite
      rw [if_pos ⟨hn, hlen, by simpa using hlen, by simpa using hlen⟩]
      simp only [List.length_map, ← hm]
    refine ⟨fun i => (times.map fun t j => (P j).eval t).getD (m - i) 0 j,
      fun i => (times.map fun t j => (derivative (P j)).eval t).getD (m - i) 0 j, ?_, ?_, ?_⟩
    · intro i hi
      simp [List.getD_eq_getElem?_getD, List.getElem?_eq_getElem (show m - i < times.length by omega)]
    · intro i hi
      simp [List.getD_eq_getElem?_getD, List.getElem?_eq_getElem (show m - i < times.length by omega)]
    · exact hermiteCore_map (LinearMap.proj (R := K) (φ := fun _ : ι => K) j) T n _ _ _

/-- **C46, partial**: for every number of samples, every choice of distinct times and every target time,
polynomials of degree at most two (and below `2n`) are reproduced exactly.  Missing: degrees 3 to `2n-1`,
where the claim is false (`C46_refuted`). -/
theorem C46_partial (P : ι → K[X]) (n : ℕ) (times : List K) (samples derivs : List (ι → K))
    (T : K) (front : Bool) (hn : 0 < n) (hlen : n ≤ times.length)
    (hdeg : ∀ j, (P j).natDegree < 2 * n) (hdeg2 : ∀ j, (P j).natDegree ≤ 2)
    (h : Samples P times samples derivs) :
    hermite T n times samples derivs front = some fun j => (P j).eval T := by
  obtain ⟨y, hy, -, -, -, v, hv, hc⟩ := hermite_coord P n times samples derivs T front hn hlen h
  rw [hv]
  congr 1
  funext j
  obtain ⟨x, d, hx, hd, e⟩ := hc j
  rw [e]
  exact hermiteCore_low (P j) y x d n hn hy hx hd (hdeg j) (hdeg2 j) T

/-- **C46, the difference table is right**: for polynomials of any degree below `2n` the diagonal of the
table built by the routine holds the coefficients of Newton's form over the nodes `y 0, y 0, y 1, y 1, …`,
so evaluating that form at the target time would give the exact value. -/
theorem C46_table (p : K[X]) (n : ℕ) (y x d : ℕ → K) (hy : ∀ i < n, ∀ j < n, y i = y j → i = j)
    (hx : ∀ i < n, x i = p.eval (y i)) (hd : ∀ i < n, d i = (derivative p).eval (y i))
    (hp : p.natDegree < 2 * n) (T : K) :
    p.eval T = ∑ k ∈ range (2 * n), table y x d k k * ∏ j ∈ range k, (T - y (j / 2)) := by
  rw [newton_form p (node y) (2 * n) hp T]
  refine sum_congr rfl fun k hk => ?_
  rw [table_eq_dd p y x d n hy hx hd k k (Nat.le_refl _) (mem_range.1 hk)]
  rfl

/-- **C46, what is returned**: for any data the routine evaluates, with the coefficients of the table, products over the
nodes `y (j/4)` instead of `y (j/2)`. Together with `C46_table` this is the exact error for every degree and every number of
samples. -/
theorem C46_value (y x d : ℕ → K) (n : ℕ) (hn : 0 < n) (T : K) :
    hermiteCore T n y x d = ∑ k ∈ range (2 * n), table y x d k k * ∏ j ∈ range k, (T - y (j / 4)) := by
  have key : ∀ (F : ℕ → ℕ → K) (m : ℕ) (r : K), (T - node y 0) * hornerLoop T y F m r + F 0 0 =
      (∑ k ∈ range (2 * m + 1), F k k * ∏ j ∈ range k, (T - y (j / 4))) +
        r * ∏ j ∈ range (2 * m + 1), (T - y (j / 4)) := by
    intro F m
    induction m with
    | zero => intro r; simp [hornerLoop, node]; ring
    | succ m ih =>
      intro r
      rw [hornerLoop, ih, show 2 * (m + 1) + 1 = 2 * m + 1 + 1 + 1 by ring, sum_range_succ _ (2 * m + 1 + 1),
        sum_range_succ _ (2 * m + 1), prod_range_succ _ (2 * m + 1 + 1), prod_range_succ _ (2 * m + 1)]
      have e1 : (2 * m + 1) / 4 = m / 2 := by omega
      have e2 : (2 * m + 1 + 1) / 4 = (m + 1) / 2 := by omega
      rw [e1, e2]
      simp only [smul_eq_mul, node, show 2 * (m + 1) = 2 * m + 1 + 1 by ring]
      ring
  obtain ⟨m, rfl⟩ : ∃ m, n = m + 1 := ⟨n - 1, by omega⟩
  unfold hermiteCore
  simp only [smul_eq_mul, Nat.add_sub_cancel]
  rw [key, show 2 * (m + 1) - 1 = 2 * m + 1 by omega, show 2 * (m + 1) = 2 * m + 1 + 1 by ring,
    sum_range_succ _ (2 * m + 1)]

/-- **C46, the size of the error for two samples**: on a cubic with leading coefficient `a` the routine
returns the true value plus `a (T - y₀)² (y₁ - y₀)`, `y₀` being the latest time and `y₁` the one before.  It
is therefore never right for a proper cubic unless the target time is the latest sample time. -/
theorem C46_error_two (p : K[X]) (y x d : ℕ → K) (hy : y 0 ≠ y 1)
    (hx : ∀ i < 2, x i = p.eval (y i)) (hd : ∀ i < 2, d i = (derivative p).eval (y i))
    (hp : p.natDegree ≤ 3) (T : K) :
    hermiteCore T 2 y x d = p.eval T + p.coeff 3 * (T - y 0) ^ 2 * (y 1 - y 0) := by
  have hy' : ∀ i < 2, ∀ j < 2, y i = y j → i = j := by
    intro i hi j hj h
    have hi' : i = 0 ∨ i = 1 := by omega
    have hj' : j = 0 ∨ j = 1 := by omega
    rcases hi' with rfl | rfl <;> rcases hj' with rfl | rfl <;> first | rfl | exact absurd h hy | exact absurd h.symm hy
  have ht := table_eq_dd p y x d 2 hy' hx hd
  rw [newton_form p (node y) 4 (by omega) T]
  have h3 : dd p (node y) 3 3 = p.coeff 3 := by
    rw [dd, (modByMonic_eq_self_iff (W_monic _ _ _)).2]
    rw [degree_eq_natDegree (W_monic _ _ _).ne_zero, W_natDegree]
    exact lt_of_le_of_lt degree_le_natDegree (by exact_mod_cast (by omega : p.natDegree < 3 + 1))
  simp only [hermiteCore, hornerLoop, show (2 : ℕ) - 1 = 0 + 1 from rfl,
    show 2 * (0 + 1 + 1) - 1 = 3 from rfl, show 2 * (0 + 1) = 2 from rfl, show 2 * 0 + 1 = 1 from rfl]
  rw [ht 0 0 (by omega) (by omega), ht 1 1 (by omega) (by omega), ht 2 2 (by omega) (by omega),
    ht 3 3 (by omega) (by omega), h3]
  simp [sum_range_succ, prod_range_succ, node, h3]
  ring

/-- **C46 fails**: two samples of `t³` at the times 2 and 1 are extrapolated to 1 at time 0. -/
theorem C46_refuted : ¬ C46_full := by
  intro h
  have h1 := h ℚ Unit (fun _ => X ^ 3) 2 [2, 1]
    ([2, 1].map fun t _ => (X ^ 3 : ℚ[X]).eval t) ([2, 1].map fun t _ => (derivative (X ^ 3 : ℚ[X])).eval t)
    0 false (by omega) (by simp) (fun _ => by simp) ⟨by simp, rfl, rfl⟩
  have h2 := congrArg (fun o => o.map fun v => v ()) h1
  have e : (hermite (0 : ℚ) 2 [2, 1] ([2, 1].map fun t _ => (X ^ 3 : ℚ[X]).eval t)
      ([2, 1].map fun t (_ : Unit) => (derivative (X ^ 3 : ℚ[X])).eval t) false).map (fun v => v ())
      = some 1 := by
    unfold hermite
    simp [hermiteCore, hornerLoop, table, node]
    norm_num
  rw [e] at h2
  simp at h2

/-- A concrete case of `C46_partial`: three samples of `t² + 1` at times 4, 2, 1, extrapolated to 0. -/
example : hermite (0 : ℚ) 3 [4, 2, 1] ([4, 2, 1].map fun t (_ : Unit) => (X ^ 2 + 1 : ℚ[X]).eval t)
    ([4, 2, 1].map fun t (_ : Unit) => (derivative (X ^ 2 + 1 : ℚ[X])).eval t) false
    = some fun _ => 1 := by
  have hd : ((X : ℚ[X]) ^ 2 + 1).natDegree = 2 := by
    have : (X : ℚ[X]) ^ 2 + 1 = X ^ 2 + C 1 := by simp
    rw [this]; exact natDegree_X_pow_add_C
  have := C46_partial (fun _ : Unit => (X ^ 2 + 1 : ℚ[X])) 3 [4, 2, 1] _ _ 0 false (by omega) (by simp)
    (fun _ => by rw [hd]; omega) (fun _ => by rw [hd]) ⟨by simp, rfl, rfl⟩
  rw [this]; simp

end B2.Endgame
