import Verif.Predict.BSeries
import Verif.Predict.PropsRK
import Mathlib.Data.List.GetD

/-!
# The order conditions of the tables, for all rooted trees (lemmas for C83)

All trees up to a given number of vertices are enumerated by forests; the enumeration is proved
complete, and the finitely many conditions are then evaluated on each table.
-/

namespace B2.Predict
open Finset

/-- The coefficients an explicit method uses: entries on and above the diagonal are never read. -/
def Table.low (T : Table) (i j : ℕ) : ℚ := if j < i then T.a i j else 0

/-- Weights of a forest: the value at each stage, and the product of the densities. -/
abbrev FEntry := List ℚ × ℕ

/-- Adding a tree (root over the forest `e1` of `k` vertices) to the forest `e2`. -/
def fcomb (T : Table) (k : ℕ) (e1 e2 : FEntry) : FEntry :=
  ((List.range T.s).map fun i =>
    (∑ j ∈ range T.s, T.low i j * e1.1.getD j 0) * e2.1.getD i 0, (k + 1) * e1.2 * e2.2)

/-- Entry `k` of the list: all forests with `k` vertices, for `k ≤ n`. -/
def ftab (T : Table) : ℕ → List (List FEntry)
  | 0 => [[((List.range T.s).map fun _ => 1, 1)]]
  | n + 1 =>
    ftab T n ++ [(List.range (n + 1)).flatMap fun k =>
      ((ftab T n).getD k []).flatMap fun e1 =>
        ((ftab T n).getD (n - k) []).map fun e2 => fcomb T k e1 e2]

/-- The weights of the forest `c`. -/
def fentry (T : Table) (m : ℕ) (c : Fin m → PTree) : FEntry :=
  ((List.range T.s).map fun i => stageW T.s T.low (.node m c) i, ∏ i, (c i).gam)

theorem ftab_length (T : Table) (n : ℕ) : (ftab T n).length = n + 1 := by
  induction n with
  | zero => rfl
  | succ n ih => simp [ftab, ih]

theorem getD_map_range {α : Type*} (s i : ℕ) (f : ℕ → α) (d : α) (h : i < s) :
    ((List.range s).map f).getD i d = f i := by
  simp [List.getD, h]

theorem mem_ftab (T : Table) (n : ℕ) : ∀ k ≤ n, ∀ (m : ℕ) (c : Fin m → PTree),
    ∑ i, (c i).size = k → fentry T m c ∈ (ftab T n).getD k [] := by
  induction n with
  | zero =>
    intro k hk m c hc
    obtain rfl : k = 0 := by omega
    have hm : m = 0 := by
      by_contra hm
      have := PTree.size_pos (c ⟨0, by omega⟩)
      have h2 : (c ⟨0, by omega⟩).size ≤ ∑ i, (c i).size :=
        Finset.single_le_sum (f := fun i => (c i).size) (fun _ _ => Nat.zero_le _) (mem_univ _)
      omega
    subst hm
    simp [ftab, fentry, stageW]
  | succ n ih =>
    intro k hk m c hc
    by_cases hkn : k ≤ n
    · rw [ftab, List.getD_append _ _ _ _ (by rw [ftab_length]; omega)]
      exact ih k hkn m c hc
    · obtain rfl : k = n + 1 := by omega
      rw [ftab, List.getD_append_right _ _ _ _ (by rw [ftab_length]), ftab_length, Nat.sub_self]
      cases m with
      | zero => simp at hc
      | succ m =>
        rw [Fin.sum_univ_succ] at hc
        rcases h0 : c 0 with ⟨m', c'⟩
        have hsz : (c 0).size = 1 + ∑ i, (c' i).size := by rw [h0]; rfl
        have e1 := ih (∑ i, (c' i).size) (by omega) m' c' rfl
        have e2 := ih (n - ∑ i, (c' i).size) (by omega) m (fun i => c i.succ) (by omega)
        simp only [List.getD_cons_zero, List.mem_flatMap, List.mem_range, List.mem_map]
        refine ⟨∑ i, (c' i).size, by omega, _, e1, _, e2, ?_⟩
        unfold fcomb fentry
        refine Prod.ext ?_ ?_
        · refine List.map_congr_left fun i hi => ?_
          have hi' := List.mem_range.1 hi
          rw [getD_map_range _ _ _ _ hi']
          simp only [stageW]
          rw [Fin.prod_univ_succ, h0]
          congr 1
          refine sum_congr rfl fun j hj => ?_
          rw [getD_map_range _ _ _ _ (mem_range.1 hj)]
          rfl
        · simp only
          rw [Fin.prod_univ_succ, h0, PTree.gam, PTree.size, Nat.add_comm 1]

/-- The order conditions: `0 < s`, `c` are the row sums, the weights of the result are those of the
exact solution for all trees with at most `p` vertices, and those of the embedded difference vanish for
all trees with at most `q` vertices. -/
def tconds (T : Table) (p q : ℕ) : Prop :=
  0 < T.s ∧ (∀ i ∈ List.range T.s, T.c i = ∑ j ∈ range T.s, T.low i j) ∧
  (∀ k ∈ List.range p, ∀ e ∈ (ftab T p).getD k [],
    ∑ i ∈ range T.s, T.b i * e.1.getD i 0 = 1 / (((k + 1) * e.2 : ℕ) : ℚ)) ∧
  (∀ k ∈ List.range q, ∀ e ∈ (ftab T q).getD k [],
    ∑ i ∈ range T.s, T.d i * e.1.getD i 0 = 0)

instance (T : Table) (p q : ℕ) : Decidable (tconds T p q) := by unfold tconds; infer_instance

theorem tconds_constant : tconds constantT 0 0 := by decide +kernel
theorem tconds_euler : tconds eulerT 1 0 := by decide +kernel
theorem tconds_heunEuler : tconds heunEulerT 2 1 := by decide +kernel
theorem tconds_rk4 : tconds rk4T 4 0 := by decide +kernel
theorem tconds_rkf45 : tconds rkf45T 4 4 := by decide +kernel
theorem tconds_rkck45 : tconds rkck45T 4 4 := by decide +kernel
theorem tconds_rkdp56 : tconds rkdp56T 5 5 := by decide +kernel
set_option maxRecDepth 4000 in
theorem tconds_rkv67 : tconds rkv67T 6 6 := by decide +kernel

theorem tconds_of_method (M : Method) (T : Table) (h : predictorMethod M = some T) :
    tconds T (order M) (if hasErrorEstimate M then estOrder M else 0) := by
  cases M <;> simp only [predictorMethod, Option.some.injEq, reduceCtorEq] at h <;> subst h
  · exact tconds_constant
  · exact tconds_euler
  · exact tconds_rk4
  · exact tconds_heunEuler
  · exact tconds_rkf45
  · exact tconds_rkck45
  · exact tconds_rkdp56
  · exact tconds_rkv67

theorem stage_getD (T : Table) (m : ℕ) (c : Fin m → PTree) (w : ℕ → ℚ) :
    ∑ i ∈ range T.s, w i * (fentry T m c).1.getD i 0 =
      ∑ i ∈ range T.s, w i * stageW T.s T.low (.node m c) i := by
  refine sum_congr rfl fun i hi => ?_
  unfold fentry
  rw [getD_map_range _ _ _ _ (mem_range.1 hi)]

/-- The conditions, for every tree. -/
theorem tree_conds {T : Table} {p q : ℕ} (h : tconds T p q) :
    (∀ τ : PTree, τ.size ≤ p → ∑ i ∈ range T.s, T.b i * stageW T.s T.low τ i = 1 / (τ.gam : ℚ)) ∧
    (∀ τ : PTree, τ.size ≤ q → ∑ i ∈ range T.s, T.d i * stageW T.s T.low τ i = 0) := by
  obtain ⟨-, -, h3, h4⟩ := h
  constructor
  · rintro ⟨m, c⟩ hτ
    simp only [PTree.size] at hτ
    have h5 := h3 (∑ i, (c i).size) (List.mem_range.2 (by omega)) _
      (mem_ftab T p _ (by omega) m c rfl)
    rw [stage_getD] at h5
    rw [h5, PTree.gam, PTree.size, Nat.add_comm 1]
    rfl
  · rintro ⟨m, c⟩ hτ
    simp only [PTree.size] at hτ
    have h5 := h4 (∑ i, (c i).size) (List.mem_range.2 (by omega)) _
      (mem_ftab T q _ (by omega) m c rfl)
    rwa [stage_getD] at h5

end B2.Predict
