/-
Divided differences with repeated nodes, as coefficients of remainders; the table of the code is that
table.
-/
import Verif.Endgame.Hermite
import Mathlib.Algebra.Polynomial.Div
import Mathlib.Algebra.Polynomial.Derivative
import Mathlib.Algebra.Polynomial.Monic
import Mathlib.Algebra.Polynomial.BigOperators
import Mathlib.Tactic.LinearCombination
import Mathlib.Tactic.Ring
import Mathlib.Tactic.FieldSimp

namespace B2.Endgame
open Polynomial Finset

variable {K : Type} [Field K]

/-- Dropping one node from the modulus: `p mod g = p mod g(X-b) - c g`, `c` the top coefficient. -/
theorem mod_drop (p g : K[X]) (hg : g.Monic) (m : ℕ) (hm : g.natDegree = m) (b : K) :
    p %ₘ g = p %ₘ (g * (X - C b)) - C ((p %ₘ (g * (X - C b))).coeff m) * g := by
  have hX : (X - C b : K[X]).Monic := monic_X_sub_C b
  have hh : (g * (X - C b)).Monic := hg.mul hX
  have hhd : (g * (X - C b)).natDegree = m + 1 := by
    rw [hg.natDegree_mul hX, hm, natDegree_X_sub_C]
  set R := p %ₘ (g * (X - C b)) with hR
  have hRdeg : R.degree < ((m + 1 : ℕ) : WithBot ℕ) := by
    have := degree_modByMonic_lt p hh
    rwa [degree_eq_natDegree hh.ne_zero, hhd] at this
  have hlt : (R - C (R.coeff m) * g).degree < g.degree := by
    rw [degree_eq_natDegree hg.ne_zero, hm, degree_lt_iff_coeff_zero]
    intro k hk
    rcases Nat.lt_or_ge m k with h | h
    · have h1 : R.coeff k = 0 := (degree_lt_iff_coeff_zero R (m + 1)).1 hRdeg k (by omega)
      have h2 : g.coeff k = 0 := coeff_eq_zero_of_natDegree_lt (by omega)
      simp [h1, h2]
    · have : k = m := by omega
      subst this
      have : g.coeff k = 1 := by rw [← hm]; exact hg.coeff_natDegree
      simp [this]
  have hdiv := modByMonic_add_div p (g * (X - C b))
  exact (div_modByMonic_unique ((X - C b) * (p /ₘ (g * (X - C b))) + C (R.coeff m)) _ hg
    ⟨by rw [← hR] at hdiv; linear_combination hdiv, hlt⟩).2

/-- The recurrence of divided differences. -/
theorem mod_recurrence (p w : K[X]) (hw : w.Monic) (m : ℕ) (hm : w.natDegree = m) (a b : K) :
    (p %ₘ (w * (X - C a) * (X - C b))).coeff (m + 1) * (b - a)
      = (p %ₘ (w * (X - C b))).coeff m - (p %ₘ (w * (X - C a))).coeff m := by
  have hga : (w * (X - C a)).Monic := hw.mul (monic_X_sub_C a)
  have hgb : (w * (X - C b)).Monic := hw.mul (monic_X_sub_C b)
  have hda : (w * (X - C a)).natDegree = m + 1 := by
    rw [hw.natDegree_mul (monic_X_sub_C a), hm, natDegree_X_sub_C]
  have hdb : (w * (X - C b)).natDegree = m + 1 := by
    rw [hw.natDegree_mul (monic_X_sub_C b), hm, natDegree_X_sub_C]
  have e1 := mod_drop p _ hga (m + 1) hda b
  have e2 := mod_drop p _ hgb (m + 1) hdb a
  have hcomm : w * (X - C b) * (X - C a) = w * (X - C a) * (X - C b) := by ring
  rw [hcomm] at e2
  rw [e1, e2]
  have hwm : w.coeff m = 1 := by rw [← hm]; exact hw.coeff_natDegree
  have hc : ∀ r : K, (w * (X - C r)).coeff m = (w * X).coeff m - r := by
    intro r
    rw [mul_sub, coeff_sub, coeff_mul_C, hwm, one_mul]
  simp only [coeff_sub, coeff_C_mul, hc]
  ring

/-- `Π_{k<j} (X - z (i-k))`: the `j` nodes ending at `z i`. -/
noncomputable def W (z : ℕ → K) (i j : ℕ) : K[X] := ∏ k ∈ range j, (X - C (z (i - k)))

theorem W_monic (z : ℕ → K) (i j : ℕ) : (W z i j).Monic :=
  monic_prod_of_monic _ _ fun _ _ => monic_X_sub_C _

theorem W_natDegree (z : ℕ → K) (i j : ℕ) : (W z i j).natDegree = j := by
  unfold W
  rw [natDegree_prod_of_monic _ _ fun _ _ => monic_X_sub_C _]
  simp

theorem W_last (z : ℕ → K) (i j : ℕ) : W z i (j + 1) = W z i j * (X - C (z (i - j))) := by
  unfold W; rw [prod_range_succ]

theorem W_first (z : ℕ → K) (i j : ℕ) : W z (i + 1) (j + 1) = W z i j * (X - C (z (i + 1))) := by
  unfold W
  rw [prod_range_succ']
  simp only [Nat.sub_zero, Nat.add_sub_add_right]

/-- The divided difference over the nodes `z (i-j) … z i`. -/
noncomputable def dd (p : K[X]) (z : ℕ → K) (i j : ℕ) : K := (p %ₘ W z i (j + 1)).coeff j

theorem dd_zero (p : K[X]) (z : ℕ → K) (i : ℕ) : dd p z i 0 = p.eval (z i) := by
  have : W z i 1 = X - C (z i) := by simp [W]
  rw [dd, this, modByMonic_X_sub_C_eq_C_eval, coeff_C_zero]

theorem dd_step (p : K[X]) (z : ℕ → K) (i j : ℕ) :
    dd p z (i + 1) (j + 1) * (z (i + 1) - z (i - j)) = dd p z (i + 1) j - dd p z i j := by
  have e : W z (i + 1) (j + 2) = W z i j * (X - C (z (i - j))) * (X - C (z (i + 1))) := by
    rw [W_first, W_last]
  unfold dd
  rw [e, W_first, W_last]
  exact mod_recurrence p _ (W_monic z i j) j (W_natDegree z i j) _ _

theorem dd_double (p : K[X]) (z : ℕ → K) (i : ℕ) (h : z (i + 1) = z i) :
    dd p z (i + 1) 1 = (derivative p).eval (z i) := by
  have e : W z (i + 1) 2 = (X - C (z i)) * (X - C (z i)) := by
    rw [W_first, h]; simp [W]
  rw [dd, e]
  set g : K[X] := (X - C (z i)) * (X - C (z i)) with hg
  have hmon : g.Monic := (monic_X_sub_C _).mul (monic_X_sub_C _)
  have hdeg : g.natDegree = 2 := by
    rw [hg, (monic_X_sub_C (z i)).natDegree_mul (monic_X_sub_C _)]; simp
  have hdiv := modByMonic_add_div p g
  have hR : (p %ₘ g).natDegree ≤ 1 := by
    have := natDegree_modByMonic_lt p hmon (by intro h1; rw [h1] at hdeg; simp at hdeg)
    omega
  have hform := eq_X_add_C_of_natDegree_le_one hR
  have hd : derivative (p %ₘ g) = C ((p %ₘ g).coeff 1) := by
    rw [hform]; simp
  have : (derivative p).eval (z i) = (derivative (p %ₘ g + g * (p /ₘ g))).eval (z i) := by rw [hdiv]
  rw [this, derivative_add, hd, hg]
  simp

/-- Newton's form. -/
theorem newton_form (p : K[X]) (z : ℕ → K) (n : ℕ) (hp : p.natDegree < n) (T : K) :
    p.eval T = ∑ k ∈ range n, dd p z k k * ∏ j ∈ range k, (T - z j) := by
  have key : ∀ m, (p %ₘ W z (m - 1) m).eval T
      = ∑ k ∈ range m, dd p z k k * ∏ j ∈ range k, (T - z j) := by
    intro m
    induction m with
    | zero => simp [W, modByMonic_one]
    | succ m ih =>
      have hW : ∀ m, (W z (m - 1) m).eval T = ∏ j ∈ range m, (T - z j) := by
        intro m
        rw [W, eval_prod, ← prod_range_reflect]
        refine prod_congr rfl fun j hj => ?_
        have := mem_range.1 hj
        simp only [eval_sub, eval_X, eval_C]
        congr 2
        omega
      have hstep : W z m (m + 1) = W z (m - 1) m * (X - C (z m)) := by
        cases m with
        | zero => simp [W]
        | succ m => rw [W_first]; rfl
      have e := mod_drop p (W z (m - 1) m) (W_monic z _ _) m (W_natDegree z _ _) (z m)
      rw [← hstep] at e
      rw [sum_range_succ, ← ih, e]
      simp only [eval_sub, eval_mul, eval_C, hW, Nat.add_sub_cancel, dd]
      ring
  rw [← key n, (modByMonic_eq_self_iff (W_monic z _ _)).2]
  rw [degree_eq_natDegree (W_monic z _ _).ne_zero, W_natDegree]
  exact lt_of_le_of_lt degree_le_natDegree (by exact_mod_cast hp)

/-! ### The table of the code -/

variable {V : Type} [AddCommGroup V] [Module K V]

theorem node_ne (y : ℕ → K) (n : ℕ) (hy : ∀ i < n, ∀ j < n, y i = y j → i = j) (a b : ℕ) (ha : a < 2 * n)
    (hb : b / 2 < a / 2) : node y a - node y b ≠ 0 := by
  intro h
  have := hy (a / 2) (by omega) (b / 2) (by omega) (sub_eq_zero.1 h)
  omega

/-- On data coming from a polynomial with values and derivatives at distinct times, the matrix of the code
holds the divided differences. -/
theorem table_eq_dd (p : K[X]) (y : ℕ → K) (x d : ℕ → K) (n : ℕ)
    (hy : ∀ i < n, ∀ j < n, y i = y j → i = j)
    (hx : ∀ i < n, x i = p.eval (y i)) (hd : ∀ i < n, d i = (derivative p).eval (y i)) :
    ∀ j i, j ≤ i → i < 2 * n → table y x d i j = dd p (node y) i j
  | 0, i, _, hi => by
    rw [table, dd_zero, hx _ (by omega)]; rfl
  | 1, i, hji, hi => by
    obtain ⟨i, rfl⟩ : ∃ k, i = k + 1 := ⟨i - 1, by omega⟩
    rw [table]
    split_ifs with hodd
    · have hnode : node y (i + 1) = node y i := by
        unfold node; congr 1; omega
      rw [dd_double p (node y) i hnode, hd _ (by omega), ← hnode]
      rfl
    · have hne := node_ne y n hy (i + 1) i hi (by omega)
      have e := dd_step p (node y) i 0
      rw [dd_zero, dd_zero, Nat.sub_zero] at e
      rw [hx _ (by omega), hx _ (by omega), smul_eq_mul, inv_mul_eq_iff_eq_mul₀ (by simpa using hne)]
      simp only [Nat.add_sub_cancel]
      unfold node at e ⊢
      linear_combination -e
  | j + 2, i, hji, hi => by
    obtain ⟨i, rfl⟩ : ∃ k, i = k + 1 := ⟨i - 1, by omega⟩
    have e := dd_step p (node y) i (j + 1)
    have hne := node_ne y n hy (i + 1) (i - (j + 1)) hi (by omega)
    rw [table, table_eq_dd p y x d n hy hx hd (j + 1) (i + 1) (by omega) hi,
      table_eq_dd p y x d n hy hx hd (j + 1) (i + 1 - 1) (by omega) (by omega), smul_eq_mul,
      show i + 1 - (j + 2) = i - (j + 1) by omega, inv_mul_eq_iff_eq_mul₀ hne]
    simp only [Nat.add_sub_cancel]
    linear_combination -e

/-- The code commutes with linear maps: coordinates may be treated one at a time. -/
theorem table_map (φ : V →ₗ[K] K) (y : ℕ → K) (x d : ℕ → V) :
    ∀ j i, φ (table y x d i j) = table y (fun k => φ (x k)) (fun k => φ (d k)) i j
  | 0, i => rfl
  | 1, i => by
    rw [table, table]
    split_ifs
    · rfl
    · simp
  | j + 2, i => by
    rw [table, table, map_smul, map_sub, table_map φ y x d (j + 1), table_map φ y x d (j + 1)]

theorem hornerLoop_map (φ : V →ₗ[K] K) (T : K) (y : ℕ → K) (F : ℕ → ℕ → V) :
    ∀ n r, φ (hornerLoop T y F n r) = hornerLoop T y (fun i j => φ (F i j)) n (φ r)
  | 0, r => rfl
  | n + 1, r => by
    rw [hornerLoop, hornerLoop, hornerLoop_map φ T y F n]
    simp only [map_add, map_smul]

theorem hermiteCore_map (φ : V →ₗ[K] K) (T : K) (n : ℕ) (y : ℕ → K) (x d : ℕ → V) :
    φ (hermiteCore T n y x d) = hermiteCore T n y (fun k => φ (x k)) (fun k => φ (d k)) := by
  simp only [hermiteCore, map_add, map_smul, hornerLoop_map, table_map]

/-- If the diagonal vanishes from position 3 on, the loop reduces to its last step. -/
theorem hornerLoop_low (T : K) (y : ℕ → K) (F : ℕ → ℕ → K) (m : ℕ)
    (hF : ∀ k, 3 ≤ k → k ≤ 2 * m + 2 → F k k = 0) :
    hornerLoop T y F (m + 1) 0 = (T - node y 0) * F 2 2 + F 1 1 := by
  induction m with
  | zero => simp [hornerLoop]
  | succ m ih =>
    rw [hornerLoop, hF (2 * (m + 1 + 1)) (by omega) (by omega), hF (2 * (m + 1) + 1) (by omega) (by omega)]
    simp only [smul_eq_mul, mul_zero, add_zero]
    exact ih fun k h1 h2 => hF k h1 (by omega)

theorem dd_top (p : K[X]) (z : ℕ → K) (k : ℕ) (h : p.natDegree < k) : dd p z k k = 0 := by
  rw [dd, (modByMonic_eq_self_iff (W_monic z _ _)).2]
  · exact coeff_eq_zero_of_natDegree_lt h
  · rw [degree_eq_natDegree (W_monic z _ _).ne_zero, W_natDegree]
    exact lt_of_le_of_lt degree_le_natDegree (by exact_mod_cast (by omega : p.natDegree < k + 1))

/-- The loop is right on data from polynomials of degree at most two. -/
theorem hermiteCore_low (p : K[X]) (y : ℕ → K) (x d : ℕ → K) (n : ℕ) (hn : 0 < n)
    (hy : ∀ i < n, ∀ j < n, y i = y j → i = j)
    (hx : ∀ i < n, x i = p.eval (y i)) (hd : ∀ i < n, d i = (derivative p).eval (y i))
    (hp : p.natDegree < 2 * n) (hp2 : p.natDegree ≤ 2) (T : K) :
    hermiteCore T n y x d = p.eval T := by
  have ht := table_eq_dd p y x d n hy hx hd
  rw [newton_form p (node y) (2 * n) hp T]
  obtain ⟨n, rfl⟩ : ∃ m, n = m + 1 := ⟨n - 1, by omega⟩
  cases n with
  | zero =>
    show (T - node y 0) • table y x d 1 1 + table y x d 0 0 = _
    rw [ht 1 1 (by omega) (by omega), ht 0 0 (by omega) (by omega)]
    simp [sum_range_succ]
    ring
  | succ n =>
    have h0 : table y x d (2 * (n + 1 + 1) - 1) (2 * (n + 1 + 1) - 1) = 0 := by
      rw [ht _ _ (by omega) (by omega), dd_top p _ _ (by omega)]
    simp only [hermiteCore]
    rw [h0, show n + 1 + 1 - 1 = n + 1 from rfl, hornerLoop_low T y _ n fun k h1 h2 => by
      rw [ht _ _ (by omega) (by omega), dd_top p _ _ (by omega)]]
    rw [ht 2 2 (by omega) (by omega), ht 1 1 (by omega) (by omega), ht 0 0 (by omega) (by omega)]
    rw [show 2 * (n + 1 + 1) = 3 + (2 * n + 1) by omega, sum_range_add]
    have : ∑ k ∈ range (2 * n + 1), dd p (node y) (3 + k) (3 + k) * ∏ j ∈ range (3 + k), (T - node y j) = 0 :=
      sum_eq_zero fun k _ => by rw [dd_top p _ _ (by omega), zero_mul]
    rw [this]
    have hz : node y 1 = node y 0 := rfl
    simp [sum_range_succ, prod_range_succ, hz]
    ring

end B2.Endgame
