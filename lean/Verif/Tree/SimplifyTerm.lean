import Verif.Tree.SimplifyProof

/-!
# Simplification shrinks the tree; the loop terminates
-/

namespace B2

open Classical

/-- The measure does not grow, and drops if the pass reports a change. -/
def Shrinks (w w' k : ℕ) : Prop := w' ≤ w ∧ (0 < k → w' < w)

theorem shrink_sumReduceSubSums (ops : Ops) :
    Shrinks ops.weight (sumReduceSubSums ops).1.weight (sumReduceSubSums ops).2 := by
  unfold Shrinks
  fun_induction sumReduceSubSums ops <;>
    simp only [Ops.weight, Node.weight, weight_append, weight_splice] <;> omega

theorem shrink_sumReduceSubMults (ops : Ops) :
    Shrinks ops.weight (sumReduceSubMults ops).1.weight (sumReduceSubMults ops).2 := by
  unfold Shrinks
  fun_induction sumReduceSubMults ops <;> simp only [Ops.weight, Node.weight] <;> omega

theorem shrink_multReduceSubSums (ops : Ops) :
    Shrinks ops.weight (multReduceSubSums ops).1.weight (multReduceSubSums ops).2 := by
  unfold Shrinks
  fun_induction multReduceSubSums ops <;> simp only [Ops.weight, Node.weight] <;>
    (try split_ifs) <;> (try simp only [Node.weight]) <;> omega

theorem shrink_multReduceSubMults (ops : Ops) :
    Shrinks ops.weight (multReduceSubMults ops).1.weight (multReduceSubMults ops).2 := by
  unfold Shrinks
  fun_induction multReduceSubMults ops <;>
    simp only [Ops.weight, Node.weight, weight_append, weight_splice] <;> omega

theorem shrink_twoPasses (o : Bool) (a b : Ops → Ops × ℕ)
    (ha : ∀ x, Shrinks x.weight (a x).1.weight (a x).2)
    (hb : ∀ x, Shrinks x.weight (b x).1.weight (b x).2) (ops : Ops) :
    Shrinks ops.weight (twoPasses o a b ops).1.weight (twoPasses o a b ops).2 := by
  unfold twoPasses Shrinks at *
  split_ifs
  · have h1 := ha ops
    have h2 := hb (a ops).1
    dsimp only; omega
  · have h1 := hb ops
    have h2 := ha (b ops).1
    dsimp only; omega

mutual
theorem shrink_reduceDepth (o : Bool) : ∀ n : Node,
    Shrinks n.weight (reduceDepth o n).1.weight (reduceDepth o n).2
  | .sum ops => by
      have h := weight_sumPasses o ops
      have p := shrink_twoPasses o _ _ shrink_sumReduceSubSums shrink_sumReduceSubMults ops
      have q := shrink_reduceOps o (twoPasses o sumReduceSubSums sumReduceSubMults ops).1
      rw [reduceDepth]
      simp only [Shrinks, Node.weight] at *; omega
  | .mult ops => by
      have h := weight_multPasses o ops
      have p := shrink_twoPasses o _ _ shrink_multReduceSubSums shrink_multReduceSubMults ops
      have q := shrink_reduceOps o (twoPasses o multReduceSubSums multReduceSubMults ops).1
      rw [reduceDepth]
      simp only [Shrinks, Node.weight] at *; omega
  | .int _ | .float _ _ | .rat _ _ | .special _ | .var _ | .pow _ _ | .neg _ | .ipow _ _
  | .sqrt _ | .exp _ | .log _ | .sin _ | .cos _ | .tan _
  | .asin _ | .acos _ | .atan _ | .fn _ => by simp [reduceDepth, Shrinks]
termination_by n => n.weight
decreasing_by
  all_goals simp only [Node.weight]; omega
theorem shrink_reduceOps (o : Bool) : ∀ ops : Ops,
    Shrinks ops.weight (reduceOps o ops).1.weight (reduceOps o ops).2
  | .nil => by simp [reduceOps, Shrinks]
  | .cons f n r => by
      have h1 := shrink_reduceDepth o n
      have h2 := shrink_reduceOps o r
      rw [reduceOps]
      simp only [Shrinks, Ops.weight] at *; omega
termination_by ops => ops.weight
decreasing_by
  all_goals simp only [Ops.weight]; omega
end

mutual
theorem shrink_elimZeros (cur : Env) : ∀ n : Node,
    Shrinks n.weight (elimZeros cur n).1.weight (elimZeros cur n).2
  | .sum ops => by
      have p := weight_sumDropZeros cur ops
      have q := shrink_elimZerosOps cur (sumDropZeros cur ops).1
      rw [elimZeros]
      simp only [Shrinks, Node.weight] at *; omega
  | .mult ops => by
      rw [elimZeros]
      split_ifs with h
      · have h2 := two_length_le_weight ops
        have h3 : 0 < ops.length := by
          cases ops
          · exact h.elim
          · simp [Ops.length]
        simp only [Shrinks, Node.weight, Ops.weight]; omega
      · have q := shrink_elimZerosOps cur ops
        simp only [Shrinks, Node.weight] at *; omega
  | .int _ | .float _ _ | .rat _ _ | .special _ | .var _ | .pow _ _ | .neg _ | .ipow _ _
  | .sqrt _ | .exp _ | .log _ | .sin _ | .cos _ | .tan _
  | .asin _ | .acos _ | .atan _ | .fn _ => by simp [elimZeros, Shrinks]
termination_by n => n.weight
decreasing_by
  all_goals simp only [Node.weight]; omega
theorem shrink_elimZerosOps (cur : Env) : ∀ ops : Ops,
    Shrinks ops.weight (elimZerosOps cur ops).1.weight (elimZerosOps cur ops).2
  | .nil => by simp [elimZerosOps, Shrinks]
  | .cons f n r => by
      have h1 := shrink_elimZeros cur n
      have h2 := shrink_elimZerosOps cur r
      rw [elimZerosOps]
      simp only [Shrinks, Ops.weight] at *; omega
termination_by ops => ops.weight
decreasing_by
  all_goals simp only [Ops.weight]; omega
end

mutual
theorem shrink_elimOnes (cur : Env) : ∀ n : Node,
    Shrinks n.weight (elimOnes cur n).1.weight (elimOnes cur n).2
  | .sum ops => by
      have q := shrink_elimOnesOps cur ops
      rw [elimOnes]
      simp only [Shrinks, Node.weight] at *; omega
  | .mult ops => by
      have p := weight_multDropOnes cur ops
      have q := shrink_elimOnesOps cur (multDropOnes cur ops).1
      rw [elimOnes]
      simp only [Shrinks, Node.weight] at *; omega
  | .int _ | .float _ _ | .rat _ _ | .special _ | .var _ | .pow _ _ | .neg _ | .ipow _ _
  | .sqrt _ | .exp _ | .log _ | .sin _ | .cos _ | .tan _
  | .asin _ | .acos _ | .atan _ | .fn _ => by simp [elimOnes, Shrinks]
termination_by n => n.weight
decreasing_by
  all_goals simp only [Node.weight]; omega
theorem shrink_elimOnesOps (cur : Env) : ∀ ops : Ops,
    Shrinks ops.weight (elimOnesOps cur ops).1.weight (elimOnesOps cur ops).2
  | .nil => by simp [elimOnesOps, Shrinks]
  | .cons f n r => by
      have h1 := shrink_elimOnes cur n
      have h2 := shrink_elimOnesOps cur r
      rw [elimOnesOps]
      simp only [Shrinks, Ops.weight] at *; omega
termination_by ops => ops.weight
decreasing_by
  all_goals simp only [Ops.weight]; omega
end

/-! ### Node counts -/

theorem Node.size_pos (n : Node) : 0 < n.size := by
  cases n <;> simp only [Node.size] <;> omega

theorem size_dropValue (cur : Env) (x : ℂ) (ops : Ops) :
    (dropValue cur x ops).1.size ≤ ops.size := by
  induction ops using Ops.rec (motive_1 := fun _ => True) with
  | nil => simp [dropValue]
  | cons f n r _ ih => simp only [dropValue]; split_ifs <;> simp only [Ops.size] <;> omega
  | _ => trivial

theorem length_le_size (ops : Ops) : ops.length ≤ ops.size := by
  induction ops using Ops.rec (motive_1 := fun _ => True) with
  | nil => simp [Ops.length]
  | cons f n r _ ih =>
    have := n.size_pos
    simp only [Ops.length, Ops.size]; omega
  | _ => trivial

theorem size_sumDropZeros (cur : Env) (ops : Ops) : (sumDropZeros cur ops).1.size ≤ ops.size := by
  have h := size_dropValue cur 0 ops
  have h2 := length_le_size ops
  unfold sumDropZeros
  split_ifs with h1
  · split
    · simp only [Ops.size, Node.size]; omega
    · exact h
  · exact le_rfl

theorem size_multDropOnes (cur : Env) (ops : Ops) : (multDropOnes cur ops).1.size ≤ ops.size := by
  cases ops with
  | nil => simp [multDropOnes]
  | cons f n r =>
    have h := size_dropValue cur 1 (.cons f n r)
    simp only [multDropOnes]
    split_ifs with h1
    · split
      · simp only [Ops.size]; omega
      · exact h
    · exact le_rfl

mutual
theorem size_reduceDepth (o : Bool) : ∀ n : Node, (reduceDepth o n).1.size ≤ n.size
  | .sum ops => by
      have h := weight_sumPasses o ops
      have p := (sumPasses_ok o ops).size
      have q := size_reduceOps o (twoPasses o sumReduceSubSums sumReduceSubMults ops).1
      rw [reduceDepth]
      simp only [Node.size]; omega
  | .mult ops => by
      have h := weight_multPasses o ops
      have p := (multPasses_ok o ops).size
      have q := size_reduceOps o (twoPasses o multReduceSubSums multReduceSubMults ops).1
      rw [reduceDepth]
      simp only [Node.size]; omega
  | .int _ | .float _ _ | .rat _ _ | .special _ | .var _ | .pow _ _ | .neg _ | .ipow _ _
  | .sqrt _ | .exp _ | .log _ | .sin _ | .cos _ | .tan _
  | .asin _ | .acos _ | .atan _ | .fn _ => by simp [reduceDepth]
termination_by n => n.weight
decreasing_by
  all_goals simp only [Node.weight]; omega
theorem size_reduceOps (o : Bool) : ∀ ops : Ops, (reduceOps o ops).1.size ≤ ops.size
  | .nil => by simp [reduceOps]
  | .cons f n r => by
      have h1 := size_reduceDepth o n
      have h2 := size_reduceOps o r
      rw [reduceOps]
      simp only [Ops.size]; omega
termination_by ops => ops.weight
decreasing_by
  all_goals simp only [Ops.weight]; omega
end

mutual
theorem size_elimZeros (cur : Env) : ∀ n : Node, (elimZeros cur n).1.size ≤ n.size
  | .sum ops => by
      have h := weight_sumDropZeros cur ops
      have p := size_sumDropZeros cur ops
      have q := size_elimZerosOps cur (sumDropZeros cur ops).1
      rw [elimZeros]
      simp only [Node.size]; omega
  | .mult ops => by
      rw [elimZeros]
      split_ifs with h
      · have h2 := length_le_size ops
        have h3 : 0 < ops.length := by
          cases ops
          · exact h.elim
          · simp [Ops.length]
        simp only [Node.size, Ops.size]; omega
      · have q := size_elimZerosOps cur ops
        simp only [Node.size]; omega
  | .int _ | .float _ _ | .rat _ _ | .special _ | .var _ | .pow _ _ | .neg _ | .ipow _ _
  | .sqrt _ | .exp _ | .log _ | .sin _ | .cos _ | .tan _
  | .asin _ | .acos _ | .atan _ | .fn _ => by simp [elimZeros]
termination_by n => n.weight
decreasing_by
  all_goals simp only [Node.weight]; omega
theorem size_elimZerosOps (cur : Env) : ∀ ops : Ops, (elimZerosOps cur ops).1.size ≤ ops.size
  | .nil => by simp [elimZerosOps]
  | .cons f n r => by
      have h1 := size_elimZeros cur n
      have h2 := size_elimZerosOps cur r
      rw [elimZerosOps]
      simp only [Ops.size]; omega
termination_by ops => ops.weight
decreasing_by
  all_goals simp only [Ops.weight]; omega
end

mutual
theorem size_elimOnes (cur : Env) : ∀ n : Node, (elimOnes cur n).1.size ≤ n.size
  | .sum ops => by
      have q := size_elimOnesOps cur ops
      rw [elimOnes]
      simp only [Node.size]; omega
  | .mult ops => by
      have h := weight_multDropOnes cur ops
      have p := size_multDropOnes cur ops
      have q := size_elimOnesOps cur (multDropOnes cur ops).1
      rw [elimOnes]
      simp only [Node.size]; omega
  | .int _ | .float _ _ | .rat _ _ | .special _ | .var _ | .pow _ _ | .neg _ | .ipow _ _
  | .sqrt _ | .exp _ | .log _ | .sin _ | .cos _ | .tan _
  | .asin _ | .acos _ | .atan _ | .fn _ => by simp [elimOnes]
termination_by n => n.weight
decreasing_by
  all_goals simp only [Node.weight]; omega
theorem size_elimOnesOps (cur : Env) : ∀ ops : Ops, (elimOnesOps cur ops).1.size ≤ ops.size
  | .nil => by simp [elimOnesOps]
  | .cons f n r => by
      have h1 := size_elimOnes cur n
      have h2 := size_elimOnesOps cur r
      rw [elimOnesOps]
      simp only [Ops.size]; omega
termination_by ops => ops.weight
decreasing_by
  all_goals simp only [Ops.weight]; omega
end

theorem weight_le_size (n : Node) : n.weight + 1 ≤ 3 * n.size := by
  induction n using Node.rec (motive_2 := fun ops => ops.weight ≤ 3 * ops.size) with
  | nil => simp [Ops.weight]
  | cons f n r ih1 ih2 => simp only [Ops.weight, Ops.size]; omega
  | int | float | rat | special | var => simp [Node.weight, Node.size]
  | sum ops ih => simp only [Node.weight, Node.size]; omega
  | mult ops ih => simp only [Node.weight, Node.size]; omega
  | pow b e ih1 ih2 => simp only [Node.weight, Node.size]; omega
  | ipow n k ih => simp only [Node.weight, Node.size]; omega
  | _ n ih => simp only [Node.weight, Node.size]; omega

theorem size_rounds (o : Bool) (cur : Env) (n : Node) (k : ℕ) :
    (rounds o cur n k).size ≤ n.size := by
  induction k with
  | zero => exact le_rfl
  | succ k ih =>
    have h1 := size_reduceDepth o (rounds o cur n k)
    have h2 := size_elimOnes cur (reduceDepth o (rounds o cur n k)).1
    have h3 := size_elimZeros cur (elimOnes cur (reduceDepth o (rounds o cur n k)).1).1
    simp only [rounds, simplifyRound]; omega

theorem shrink_round (o : Bool) (cur : Env) (n : Node)
    (h : (simplifyRound o cur n).2 ≠ (0, 0, 0)) :
    (simplifyRound o cur n).1.weight < n.weight := by
  have h1 := shrink_reduceDepth o n
  have h2 := shrink_elimOnes cur (reduceDepth o n).1
  have h3 := shrink_elimZeros cur (elimOnes cur (reduceDepth o n).1).1
  simp only [simplifyRound, Shrinks, ne_eq, Prod.mk.injEq] at *
  omega

theorem rounds_weight (o : Bool) (cur : Env) (n : Node) (k : ℕ)
    (h : ∀ j < k, (simplifyRound o cur (rounds o cur n j)).2 ≠ (0, 0, 0)) :
    (rounds o cur n k).weight + k ≤ n.weight := by
  induction k with
  | zero => simp [rounds]
  | succ k ih =>
    have h1 := ih fun j hj => h j (by omega)
    have h2 := shrink_round o cur _ (h k (by omega))
    simp only [rounds]; omega

end B2
