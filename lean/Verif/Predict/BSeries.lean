import Mathlib.Analysis.Analytic.Basic
import Mathlib.Analysis.Analytic.Constructions
import Mathlib.Analysis.Calculus.MeanValue
import Mathlib.Analysis.Calculus.Deriv.Pow
import Mathlib.Analysis.Calculus.Deriv.Add
import Mathlib.Analysis.Calculus.Deriv.Mul
import Mathlib.Analysis.Calculus.Deriv.Prod
import Mathlib.Analysis.Asymptotics.Lemmas
import Mathlib.Analysis.Normed.Module.Multilinear.Basic

/-!
# Series over rooted trees (lemmas for C83)

Planar rooted trees are used: the expansion of `f (x + δ)` into multilinear maps then needs no
symmetry factors.
-/

namespace B2.Predict

open Finset Asymptotics Filter Topology

/-- Planar rooted trees. -/
inductive PTree
  | node (m : ℕ) (c : Fin m → PTree)

namespace PTree

/-- Number of vertices. -/
def size : PTree → ℕ
  | node _ c => 1 + ∑ i, (c i).size

/-- The density `γ`. -/
def gam : PTree → ℕ
  | node m c => (node m c).size * ∏ i, (c i).gam

theorem size_pos (τ : PTree) : 0 < τ.size := by
  cases τ; simp only [size]; omega

theorem gam_pos (τ : PTree) : 0 < τ.gam := by
  induction τ with
  | node m c ih =>
    simp only [gam]
    exact Nat.mul_pos (size_pos _) (Finset.prod_pos fun i _ => ih i)

end PTree

open PTree

theorem node_injective : Function.Injective
    (fun p : (Σ m : ℕ, (Fin m → PTree)) => PTree.node p.1 p.2) := by
  rintro ⟨m, c⟩ ⟨m', c'⟩ h
  simp only [PTree.node.injEq] at h
  obtain ⟨rfl, h⟩ := h
  rw [eq_of_heq h]

open Classical in
/-- The trees with at most `n` vertices. -/
noncomputable def trees : ℕ → Finset PTree
  | 0 => ∅
  | n + 1 => (((range (n + 1)).sigma fun m => Fintype.piFinset fun _ : Fin m => trees n).map
      ⟨_, node_injective⟩).filter fun τ => τ.size ≤ n + 1

theorem mem_trees (n : ℕ) (τ : PTree) : τ ∈ trees n ↔ τ.size ≤ n := by
  induction n generalizing τ with
  | zero => simp [trees, (size_pos τ).ne']
  | succ n ih =>
    rw [trees, mem_filter, Finset.mem_map]
    refine ⟨fun h => h.2, fun h => ⟨?_, h⟩⟩
    obtain ⟨m, c⟩ := τ
    simp only [PTree.size] at h
    have hm : m ≤ ∑ i, (c i).size := by
      calc m = ∑ _i : Fin m, 1 := by simp
        _ ≤ _ := Finset.sum_le_sum fun i _ => (c i).size_pos
    refine ⟨⟨m, c⟩, ?_, rfl⟩
    rw [mem_sigma]
    refine ⟨mem_range.mpr (by dsimp only; omega), ?_⟩
    rw [Fintype.mem_piFinset]
    intro i
    rw [ih]
    have : (c i).size ≤ ∑ i, (c i).size :=
      Finset.single_le_sum (f := fun i => (c i).size) (fun _ _ => Nat.zero_le _) (mem_univ i)
    show (c i).size ≤ n
    omega

variable {𝕜 E : Type*} [RCLike 𝕜] [NormedAddCommGroup E] [NormedSpace 𝕜 E]

/-- The elementary differential of a tree, from the power series of the right-hand side. -/
noncomputable def elem (p : FormalMultilinearSeries 𝕜 E E) : PTree → E
  | .node m c => p m fun i => elem p (c i)

/-- Product of a weight over the branches at the root. -/
def lift (a : PTree → 𝕜) : PTree → 𝕜
  | .node _ c => ∏ i, a (c i)

/-- The truncated series. -/
noncomputable def bsum (p : FormalMultilinearSeries 𝕜 E E) (a : PTree → 𝕜) (n : ℕ) (h : 𝕜) : E :=
  ∑ τ ∈ trees n, (h ^ τ.size * a τ) • elem p τ

/-- The same with one power of `h` less: the series of the derivative. -/
noncomputable def dsum (p : FormalMultilinearSeries 𝕜 E E) (a : PTree → 𝕜) (n : ℕ) (h : 𝕜) : E :=
  ∑ τ ∈ trees n, (h ^ (τ.size - 1) * a τ) • elem p τ

theorem pow_isBigO_pow {m n : ℕ} (h : n ≤ m) :
    (fun x : 𝕜 => x ^ m) =O[𝓝 0] fun x => x ^ n := by
  refine IsBigO.of_bound 1 ?_
  have : ∀ᶠ x : 𝕜 in 𝓝 0, ‖x‖ < 1 := by
    have := Metric.ball_mem_nhds (0 : 𝕜) one_pos
    filter_upwards [this] with x hx
    simpa using hx
  filter_upwards [this] with x hx
  rw [norm_pow, norm_pow, one_mul]
  exact pow_le_pow_of_le_one (norm_nonneg _) hx.le h

theorem smul_pow_isBigO (n : ℕ) (c : 𝕜) (v : E) {k : ℕ} (h : n ≤ k) :
    (fun x : 𝕜 => (x ^ k * c) • v) =O[𝓝 0] fun x => x ^ n := by
  have h1 : (fun x : 𝕜 => (x ^ k * c) • v) =O[𝓝 0] fun x : 𝕜 => x ^ k := by
    refine IsBigO.of_bound (‖c‖ * ‖v‖) (Eventually.of_forall fun x => ?_)
    rw [norm_smul, norm_mul]
    exact le_of_eq (by ring)
  exact h1.trans (pow_isBigO_pow h)

theorem bsum_isBigO (p : FormalMultilinearSeries 𝕜 E E) (a : PTree → 𝕜) (n : ℕ) :
    bsum p a n =O[𝓝 0] fun x : 𝕜 => x := by
  unfold bsum
  have := IsBigO.fun_sum (s := trees n) (l := 𝓝 (0 : 𝕜)) (g := fun x : 𝕜 => x ^ 1)
    (A := fun τ x => (x ^ τ.size * a τ) • elem p τ)
    fun τ _ => smul_pow_isBigO 1 _ _ τ.size_pos
  simpa using this

theorem bsum_zero (p : FormalMultilinearSeries 𝕜 E E) (a : PTree → 𝕜) (n : ℕ) :
    bsum p a n 0 = 0 := by
  unfold bsum
  refine sum_eq_zero fun τ _ => ?_
  rw [zero_pow τ.size_pos.ne', zero_mul, zero_smul]

/-- A multilinear map applied to a truncated series in every slot. -/
theorem multilinear_bsum (p : FormalMultilinearSeries 𝕜 E E) (a : PTree → 𝕜) (n m : ℕ) (h : 𝕜) :
    (p m fun _ => bsum p a n h) = ∑ r ∈ Fintype.piFinset (fun _ : Fin m => trees n),
      (h ^ ((PTree.node m r).size - 1) * lift a (.node m r)) • elem p (.node m r) := by
  unfold bsum
  rw [ContinuousMultilinearMap.map_sum_finset]
  refine sum_congr rfl fun r _ => ?_
  rw [ContinuousMultilinearMap.map_smul_univ]
  simp only [elem, lift, PTree.size, Nat.add_sub_cancel_left, prod_mul_distrib, prod_pow_eq_pow_sum]

/-- The sum of the multilinear expansions is the series with lifted weights. -/
theorem sum_multilinear_bsum (p : FormalMultilinearSeries 𝕜 E E) (a : PTree → 𝕜) (n : ℕ) :
    (fun h => ∑ m ∈ range (n + 1), (p m fun _ => bsum p a n h) - dsum p (lift a) (n + 1) h)
      =O[𝓝 0] fun x : 𝕜 => x ^ (n + 1) := by
  have h1 : ∀ h : 𝕜, ∑ m ∈ range (n + 1), (p m fun _ => bsum p a n h) -
      dsum p (lift a) (n + 1) h =
      ∑ τ ∈ (((range (n + 1)).sigma fun m => Fintype.piFinset fun _ : Fin m => trees n).map
        ⟨_, node_injective⟩).filter (fun τ => ¬ τ.size ≤ n + 1),
        (h ^ (τ.size - 1) * lift a τ) • elem p τ := by
    intro h
    rw [sub_eq_iff_eq_add', dsum, trees, sum_filter_add_sum_filter_not, sum_map, sum_sigma]
    refine sum_congr rfl fun m _ => ?_
    rw [multilinear_bsum]
    rfl
  simp only [h1]
  refine IsBigO.fun_sum fun τ hτ => smul_pow_isBigO _ _ _ ?_
  have := (mem_filter.mp hτ).2
  omega

theorem multilinear_sub_isBigO {m : ℕ} (q : ContinuousMultilinearMap 𝕜 (fun _ : Fin m => E) E)
    (u v : 𝕜 → E) (n : ℕ) (hu : u =O[𝓝 0] fun _ => (1 : 𝕜)) (hv : v =O[𝓝 0] fun _ => (1 : 𝕜))
    (huv : (fun h => u h - v h) =O[𝓝 0] fun h : 𝕜 => h ^ n) :
    (fun h => (q fun _ => u h) - q fun _ => v h) =O[𝓝 0] fun h : 𝕜 => h ^ n := by
  obtain ⟨C, hC⟩ := huv.bound
  obtain ⟨A, hA⟩ := hu.bound
  obtain ⟨B, hB⟩ := hv.bound
  refine IsBigO.of_bound (‖q‖ * m * (max (max A B) 0) ^ (m - 1) * C) ?_
  filter_upwards [hC, hA, hB] with h h1 h2 h3
  have h4 := q.norm_image_sub_le (fun _ => u h) (fun _ => v h)
  rw [Fintype.card_fin] at h4
  rw [norm_one, mul_one] at h2 h3
  have e1 : ‖(fun _ : Fin m => u h)‖ ≤ max (max A B) 0 :=
    (pi_norm_le_iff_of_nonneg (le_max_right _ _)).mpr fun _ =>
      h2.trans ((le_max_left _ _).trans (le_max_left _ _))
  have e2 : ‖(fun _ : Fin m => v h)‖ ≤ max (max A B) 0 :=
    (pi_norm_le_iff_of_nonneg (le_max_right _ _)).mpr fun _ =>
      h3.trans ((le_max_right _ _).trans (le_max_left _ _))
  have e3 : ‖(fun _ : Fin m => u h) - fun _ => v h‖ ≤ C * ‖h ^ n‖ :=
    (pi_norm_le_iff_of_nonneg ((norm_nonneg _).trans h1)).mpr fun _ => h1
  refine h4.trans ?_
  have e4 := max_le e1 e2
  rw [mul_assoc _ C]
  exact mul_le_mul (mul_le_mul_of_nonneg_left (pow_le_pow_left₀ (by positivity) e4 _) (by positivity))
    e3 (norm_nonneg _) (by positivity)

/-- The expansion of `f (x + δ)`: if `δ` has a tree series up to order `n`, then `f (x + δ h)` has,
up to order `n`, the series with lifted weights. -/
theorem comp_series {f : E → E} {p : FormalMultilinearSeries 𝕜 E E} {x : E}
    (hf : HasFPowerSeriesAt f p x) (a : PTree → 𝕜) (n : ℕ) (δ : 𝕜 → E)
    (hδ : (fun h => δ h - bsum p a n h) =O[𝓝 0] fun h : 𝕜 => h ^ (n + 1)) :
    (fun h => f (x + δ h) - dsum p (lift a) (n + 1) h) =O[𝓝 0] fun h : 𝕜 => h ^ (n + 1) := by
  have hid : (fun x : 𝕜 => x ^ (n + 1)) =O[𝓝 0] fun x => x := by
    simpa using pow_isBigO_pow (𝕜 := 𝕜) (show 1 ≤ n + 1 by omega)
  have hδ1 : δ =O[𝓝 0] fun h : 𝕜 => h := by
    have := (hδ.trans hid).add (bsum_isBigO p a n)
    simpa using this
  have hlim : Tendsto δ (𝓝 0) (𝓝 0) :=
    hδ1.trans_tendsto tendsto_id
  have hone : (fun x : 𝕜 => x) =O[𝓝 0] fun _ => (1 : 𝕜) := by
    simpa using pow_isBigO_pow (𝕜 := 𝕜) (show 0 ≤ 1 by omega)
  have h1 : (fun h => f (x + δ h) - p.partialSum (n + 1) (δ h)) =O[𝓝 0]
      fun h : 𝕜 => h ^ (n + 1) := by
    have h2 := (hf.isBigO_sub_partialSum_pow (n + 1)).comp_tendsto hlim
    refine h2.trans ?_
    have h3 := (hδ1.norm_left.pow (n + 1))
    exact h3
  have h2 : (fun h => p.partialSum (n + 1) (δ h) -
      ∑ m ∈ range (n + 1), (p m fun _ => bsum p a n h)) =O[𝓝 0] fun h : 𝕜 => h ^ (n + 1) := by
    simp only [FormalMultilinearSeries.partialSum, ← sum_sub_distrib]
    exact IsBigO.fun_sum fun m _ => multilinear_sub_isBigO (p m) _ _ _ (hδ1.trans hone)
      ((bsum_isBigO p a n).trans hone) hδ
  have h3 := (h1.add h2).add (sum_multilinear_bsum p a n)
  refine h3.congr_left fun h => ?_
  abel

/-! ### The exact solution -/

/-- If `e 0 = 0` and `e' = O(h^n)` then `e = O(h^(n+1))`. -/
theorem isBigO_of_deriv {e e' : 𝕜 → E} (n : ℕ) (h0 : e 0 = 0)
    (hd : ∀ᶠ h in 𝓝 (0 : 𝕜), HasDerivAt e (e' h) h) (hb : e' =O[𝓝 0] fun h : 𝕜 => h ^ n) :
    e =O[𝓝 0] fun h : 𝕜 => h ^ (n + 1) := by
  obtain ⟨C, hC⟩ := hb.bound
  obtain ⟨r, hr, hball⟩ := Metric.eventually_nhds_iff_ball.mp (hd.and hC)
  refine IsBigO.of_bound C ?_
  filter_upwards [Metric.ball_mem_nhds (0 : 𝕜) hr] with h hh
  have hsub : ∀ y ∈ Metric.closedBall (0 : 𝕜) ‖h‖, y ∈ Metric.ball (0 : 𝕜) r := by
    intro y hy
    rw [mem_closedBall_zero_iff] at hy
    rw [mem_ball_zero_iff] at hh ⊢
    exact hy.trans_lt hh
  have hC0 : 0 ≤ C ∨ h = 0 := by
    by_cases hz : h = 0
    · exact .inr hz
    · left
      have h1 := (hball h hh).2
      have h2 : 0 < ‖h ^ n‖ := norm_pos_iff.mpr (pow_ne_zero _ hz)
      by_contra hneg
      have h3 : C * ‖h ^ n‖ < 0 := mul_neg_of_neg_of_pos (not_le.mp hneg) h2
      exact absurd ((norm_nonneg _).trans h1) (not_le.mpr h3)
  rcases hC0 with hC0 | rfl
  · have key := Convex.norm_image_sub_le_of_norm_hasDerivWithin_le (𝕜 := 𝕜) (f := e) (f' := e')
      (C := C * ‖h‖ ^ n) (s := Metric.closedBall (0 : 𝕜) ‖h‖) (x := 0) (y := h)
      (fun y hy => (hball y (hsub y hy)).1.hasDerivWithinAt)
      (fun y hy => by
        have h1 := (hball y (hsub y hy)).2
        rw [norm_pow] at h1
        rw [mem_closedBall_zero_iff] at hy
        exact h1.trans (by gcongr))
      (convex_closedBall _ _) (by simp) (by simp)
    rw [h0, sub_zero, sub_zero] at key
    rw [norm_pow, pow_succ, ← mul_assoc]
    exact key
  · rw [h0]; simp

/-- Weights of the exact solution. -/
noncomputable def exactW (τ : PTree) : 𝕜 := 1 / (τ.gam : 𝕜)

theorem exactW_node (τ : PTree) : (τ.size : 𝕜) * exactW τ = lift exactW τ := by
  obtain ⟨m, c⟩ := τ
  have h1 : ((PTree.node m c).size : 𝕜) ≠ 0 := by exact_mod_cast (size_pos _).ne'
  have h2 : ∀ i, ((c i).gam : 𝕜) ≠ 0 := fun i => by exact_mod_cast (gam_pos _).ne'
  simp only [exactW, lift, gam, Nat.cast_mul, Nat.cast_prod, one_div, prod_inv_distrib, mul_inv]
  rw [mul_inv_cancel_left₀ h1]

theorem hasDerivAt_bsum (p : FormalMultilinearSeries 𝕜 E E) (n : ℕ) (h : 𝕜) :
    HasDerivAt (bsum p exactW n) (dsum p (lift exactW) n h) h := by
  unfold bsum dsum
  have : ∀ τ ∈ trees n, HasDerivAt (fun h : 𝕜 => (h ^ τ.size * exactW τ) • elem p τ)
      ((h ^ (τ.size - 1) * lift exactW τ) • elem p τ) h := by
    intro τ _
    have h1 := ((hasDerivAt_pow τ.size h).mul_const (exactW τ)).smul_const (elem p τ)
    refine h1.congr_deriv ?_
    rw [← exactW_node τ]
    congr 1
    ring
  exact HasDerivAt.fun_sum this

/-- The exact solution has the tree series with weights `1/γ`. -/
theorem exact_series {f : E → E} {p : FormalMultilinearSeries 𝕜 E E} {x : E}
    (hf : HasFPowerSeriesAt f p x) (y : 𝕜 → E) (hy0 : y 0 = x)
    (hy : ∀ᶠ h in 𝓝 (0 : 𝕜), HasDerivAt y (f (y h)) h) (n : ℕ) :
    (fun h => y h - x - bsum p exactW n h) =O[𝓝 0] fun h : 𝕜 => h ^ (n + 1) := by
  induction n with
  | zero =>
    have h1 := hy.self_of_nhds.isBigO_sub
    rw [hy0] at h1
    simpa [bsum, trees] using h1
  | succ n ih =>
    have hc := comp_series hf exactW n (fun h => y h - x) ih
    refine isBigO_of_deriv (e' := fun h => f (y h) - dsum p (lift exactW) (n + 1) h) (n + 1)
      (by rw [hy0, bsum_zero]; simp) ?_ ?_
    · filter_upwards [hy] with h hh
      exact (hh.sub_const x).sub (hasDerivAt_bsum p (n + 1) h)
    · simpa using hc

/-! ### The numerical solution -/

/-- Weights of the stages of a method with coefficients `A i j`. -/
def stageW {R : Type*} [CommSemiring R] (s : ℕ) (A : ℕ → ℕ → R) : PTree → ℕ → R
  | .node _ c => fun i => ∏ k, ∑ j ∈ range s, A i j * stageW s A (c k) j

/-- The stages of an explicit method have the tree series with weights `stageW`. -/
theorem stage_series {f : E → E} {p : FormalMultilinearSeries 𝕜 E E} {x : E}
    (hf : HasFPowerSeriesAt f p x) (s : ℕ) (A : ℕ → ℕ → 𝕜)
    (S : ℕ → 𝕜 → E)
    (hS : ∀ i < s, ∀ᶠ h in 𝓝 (0 : 𝕜), S i h = f (x + h • ∑ j ∈ range s, A i j • S j h))
    (hB : ∀ i < s, S i =O[𝓝 0] fun _ => (1 : 𝕜)) (n : ℕ) :
    ∀ i < s, (fun h => S i h - dsum p (fun τ => stageW s A τ i) n h) =O[𝓝 0]
      fun h : 𝕜 => h ^ n := by
  induction n with
  | zero =>
    intro i hi
    simpa [dsum, trees] using hB i hi
  | succ n ih =>
    intro i hi
    have h1 : (fun h => h • ∑ j ∈ range s, A i j • S j h -
        bsum p (fun τ => ∑ j ∈ range s, A i j * stageW s A τ j) n h) =O[𝓝 0]
        fun h : 𝕜 => h ^ (n + 1) := by
      have h2 : ∀ h : 𝕜, h • ∑ j ∈ range s, A i j • S j h -
          bsum p (fun τ => ∑ j ∈ range s, A i j * stageW s A τ j) n h =
          h • ∑ j ∈ range s, A i j • (S j h - dsum p (fun τ => stageW s A τ j) n h) := by
        intro h
        simp only [smul_sub, sum_sub_distrib]
        congr 1
        unfold bsum dsum
        simp only [smul_sum, smul_smul, mul_sum, sum_smul]
        rw [sum_comm]
        refine sum_congr rfl fun j _ => sum_congr rfl fun τ _ => ?_
        congr 1
        obtain ⟨k, hk⟩ : ∃ k, τ.size = k + 1 := ⟨τ.size - 1, by have := τ.size_pos; omega⟩
        rw [hk, Nat.add_sub_cancel, pow_succ]
        ring
      simp only [h2]
      have h3 : (fun h => ∑ j ∈ range s, A i j • (S j h - dsum p (fun τ => stageW s A τ j) n h))
          =O[𝓝 0] fun h : 𝕜 => h ^ n :=
        IsBigO.fun_sum fun j hj => (ih j (mem_range.mp hj)).const_smul_left (_ : 𝕜)
      have h4 := (isBigO_refl (fun h : 𝕜 => h) (𝓝 0)).smul h3
      refine h4.congr_right fun h => ?_
      rw [smul_eq_mul, pow_succ]; ring
    have h5 := comp_series hf _ n _ h1
    refine h5.congr' ?_ (Eventually.of_forall fun _ => rfl)
    filter_upwards [hS i hi] with h hh
    rw [← hh]
    congr 1
    unfold dsum
    refine sum_congr rfl fun τ _ => ?_
    obtain ⟨m, c⟩ := τ
    rfl

/-- Order of the method: if the weights of the result agree with those of the exact solution for all
trees with at most `q` vertices, the local error is `O(h^(q+1))`. -/
theorem result_series {f : E → E} {p : FormalMultilinearSeries 𝕜 E E} {x : E}
    (hf : HasFPowerSeriesAt f p x) (s : ℕ) (A : ℕ → ℕ → 𝕜) (b : ℕ → 𝕜)
    (S : ℕ → 𝕜 → E)
    (hS : ∀ i < s, ∀ᶠ h in 𝓝 (0 : 𝕜), S i h = f (x + h • ∑ j ∈ range s, A i j • S j h))
    (hB : ∀ i < s, S i =O[𝓝 0] fun _ => (1 : 𝕜)) (n : ℕ) :
    (fun h => h • ∑ j ∈ range s, b j • S j h -
        bsum p (fun τ => ∑ j ∈ range s, b j * stageW s A τ j) n h) =O[𝓝 0]
        fun h : 𝕜 => h ^ (n + 1) := by
  have h2 : ∀ h : 𝕜, h • ∑ j ∈ range s, b j • S j h -
      bsum p (fun τ => ∑ j ∈ range s, b j * stageW s A τ j) n h =
      h • ∑ j ∈ range s, b j • (S j h - dsum p (fun τ => stageW s A τ j) n h) := by
    intro h
    simp only [smul_sub, sum_sub_distrib]
    congr 1
    unfold bsum dsum
    simp only [smul_sum, smul_smul, mul_sum, sum_smul]
    rw [sum_comm]
    refine sum_congr rfl fun j _ => sum_congr rfl fun τ _ => ?_
    congr 1
    obtain ⟨k, hk⟩ : ∃ k, τ.size = k + 1 := ⟨τ.size - 1, by have := τ.size_pos; omega⟩
    rw [hk, Nat.add_sub_cancel, pow_succ]
    ring
  simp only [h2]
  have h3 : (fun h => ∑ j ∈ range s, b j • (S j h - dsum p (fun τ => stageW s A τ j) n h))
      =O[𝓝 0] fun h : 𝕜 => h ^ n :=
    IsBigO.fun_sum fun j hj =>
      (stage_series hf s A S hS hB n j (mem_range.mp hj)).const_smul_left (_ : 𝕜)
  have h4 := (isBigO_refl (fun h : 𝕜 => h) (𝓝 0)).smul h3
  refine h4.congr_right fun h => ?_
  rw [smul_eq_mul, pow_succ]; ring

end B2.Predict
