import Verif.Tree.Simplify
import Mathlib.Tactic.Ring
import Mathlib.Tactic.FieldSimp
import Mathlib.Tactic.Linarith

/-!
# Proofs about the simplification passes
-/

namespace B2

open Classical

/-! ### Specification predicates -/

mutual
/-- Evaluation at `env` performs no division by zero, no negative power of zero, no logarithm
of zero. -/
def Defined (env : Env) : Node → Prop
  | .int _ | .float _ _ | .rat _ _ | .special _ | .var _ => True
  | .sum ops => DefinedSum env ops
  | .mult ops => DefinedMult env ops
  | .pow b e => Defined env b ∧ Defined env e
  | .ipow n k => Defined env n ∧ (k < 0 → eval env n ≠ 0)
  | .log n => Defined env n ∧ eval env n ≠ 0
  | .neg n | .sqrt n | .exp n | .sin n | .cos n | .tan n
  | .asin n | .acos n | .atan n | .fn n => Defined env n
/-- All summands are defined. -/
def DefinedSum (env : Env) : Ops → Prop
  | .nil => True
  | .cons _ n r => Defined env n ∧ DefinedSum env r
/-- All factors are defined and all divisors are nonzero. -/
def DefinedMult (env : Env) : Ops → Prop
  | .nil => True
  | .cons f n r => Defined env n ∧ (f = false → eval env n ≠ 0) ∧ DefinedMult env r
end

mutual
/-- No operand of a sum or product, at any depth below the root, has the value 0 (or 1) at `cur`
without having it at `env` too. -/
def Stable (cur env : Env) : Node → Prop
  | .sum ops => StableOps cur env ops
  | .mult ops => StableOps cur env ops
  | _ => True
/-- Same for an operand list. -/
def StableOps (cur env : Env) : Ops → Prop
  | .nil => True
  | .cons _ n r => (eval cur n = 0 → eval env n = 0) ∧ (eval cur n = 1 → eval env n = 1) ∧
      Stable cur env n ∧ StableOps cur env r
end

mutual
/-- Number of nodes of an expression tree. -/
def Node.size : Node → ℕ
  | .int _ | .float _ _ | .rat _ _ | .special _ | .var _ => 1
  | .sum ops | .mult ops => 1 + ops.size
  | .pow b e => 1 + b.size + e.size
  | .neg n | .ipow n _ | .sqrt n | .exp n | .log n | .sin n | .cos n | .tan n
  | .asin n | .acos n | .atan n | .fn n => 1 + n.size
/-- Number of nodes in an operand list. -/
def Ops.size : Ops → ℕ
  | .nil => 0
  | .cons _ n r => n.size + r.size
end

/-! ### Append and splice -/

theorem evalSum_append (env : Env) (a b : Ops) :
    evalSum env (a.append b) = evalSum env a + evalSum env b := by
  induction a using Ops.rec (motive_1 := fun _ => True) with
  | nil => simp [Ops.append, evalSum]
  | cons f n r _ ih => simp only [Ops.append, evalSum, ih]; ring
  | _ => trivial

theorem evalMult_append (env : Env) (a b : Ops) :
    evalMult env (a.append b) = evalMult env a * evalMult env b := by
  induction a using Ops.rec (motive_1 := fun _ => True) with
  | nil => simp [Ops.append, evalMult]
  | cons f n r _ ih => simp only [Ops.append, evalMult, ih]; ring
  | _ => trivial

theorem evalSum_splice (env : Env) (m : Bool) (a : Ops) :
    evalSum env (splice m a) = if m then evalSum env a else -evalSum env a := by
  induction a using Ops.rec (motive_1 := fun _ => True) with
  | nil => cases m <;> simp [splice, evalSum]
  | cons f n r _ ih =>
    simp only [splice, evalSum, ih]
    cases m <;> cases f <;> simp <;> ring
  | _ => trivial

theorem evalMult_splice (env : Env) (m : Bool) (a : Ops) :
    evalMult env (splice m a) = if m then evalMult env a else (evalMult env a)⁻¹ := by
  induction a using Ops.rec (motive_1 := fun _ => True) with
  | nil => cases m <;> simp [splice, evalMult]
  | cons f n r _ ih =>
    simp only [splice, evalMult, ih]
    cases m <;> cases f <;> simp [mul_comm]
  | _ => trivial

theorem stableOps_append (cur env : Env) (a b : Ops) :
    StableOps cur env (a.append b) ↔ StableOps cur env a ∧ StableOps cur env b := by
  induction a using Ops.rec (motive_1 := fun _ => True) with
  | nil => simp [Ops.append, StableOps]
  | cons f n r _ ih => simp only [Ops.append, StableOps, ih]; tauto
  | _ => trivial

theorem stableOps_splice (cur env : Env) (m : Bool) (a : Ops) :
    StableOps cur env (splice m a) ↔ StableOps cur env a := by
  induction a using Ops.rec (motive_1 := fun _ => True) with
  | nil => simp [splice]
  | cons f n r _ ih => simp only [splice, StableOps, ih]
  | _ => trivial

theorem definedSum_append (env : Env) (a b : Ops) :
    DefinedSum env (a.append b) ↔ DefinedSum env a ∧ DefinedSum env b := by
  induction a using Ops.rec (motive_1 := fun _ => True) with
  | nil => simp [Ops.append, DefinedSum]
  | cons f n r _ ih => simp only [Ops.append, DefinedSum, ih]; tauto
  | _ => trivial

theorem definedMult_append (env : Env) (a b : Ops) :
    DefinedMult env (a.append b) ↔ DefinedMult env a ∧ DefinedMult env b := by
  induction a using Ops.rec (motive_1 := fun _ => True) with
  | nil => simp [Ops.append, DefinedMult]
  | cons f n r _ ih => simp only [Ops.append, DefinedMult, ih]; tauto
  | _ => trivial

theorem definedSum_splice (env : Env) (m : Bool) (a : Ops) :
    DefinedSum env (splice m a) ↔ DefinedSum env a := by
  induction a using Ops.rec (motive_1 := fun _ => True) with
  | nil => simp [splice]
  | cons f n r _ ih => simp only [splice, DefinedSum, ih]
  | _ => trivial

/-- If the product is defined, and nonzero when it is a divisor, the spliced operands are
defined. -/
theorem definedMult_splice (env : Env) (m : Bool) (a : Ops) (h : DefinedMult env a)
    (h0 : m = false → evalMult env a ≠ 0) : DefinedMult env (splice m a) := by
  induction a using Ops.rec (motive_1 := fun _ => True) with
  | nil => simp [splice, DefinedMult]
  | cons f n r _ ih =>
    simp only [splice, DefinedMult, evalMult] at *
    obtain ⟨h1, h2, h3⟩ := h
    refine ⟨h1, ?_, ih h3 fun hm => right_ne_zero_of_mul (h0 hm)⟩
    cases m
    · cases f
      · simp
      · intro _
        have := left_ne_zero_of_mul (h0 rfl)
        simpa using this
    · cases f <;> simp_all
  | _ => trivial

theorem size_append (a b : Ops) : (a.append b).size = a.size + b.size := by
  induction a using Ops.rec (motive_1 := fun _ => True) with
  | nil => simp [Ops.append, Ops.size]
  | cons f n r _ ih => simp only [Ops.append, Ops.size, ih]; omega
  | _ => trivial

theorem size_splice (m : Bool) (a : Ops) : (splice m a).size = a.size := by
  induction a using Ops.rec (motive_1 := fun _ => True) with
  | nil => simp [splice]
  | cons f n r _ ih => simp [splice, Ops.size, ih]
  | _ => trivial

/-! ### The reduction passes -/

/-- What a pass over the operands of a sum guarantees. -/
structure SumPass (a b : Ops) : Prop where
  val : ∀ env, evalSum env b = evalSum env a
  stable : ∀ cur env, StableOps cur env a → StableOps cur env b
  defd : ∀ env, DefinedSum env a → DefinedSum env b
  size : b.size ≤ a.size

/-- What a pass over the operands of a product guarantees. -/
structure MultPass (a b : Ops) : Prop where
  val : ∀ env, evalMult env b = evalMult env a
  stable : ∀ cur env, StableOps cur env a → StableOps cur env b
  defd : ∀ env, DefinedMult env a → DefinedMult env b
  size : b.size ≤ a.size

theorem SumPass.trans {a b c : Ops} (h : SumPass a b) (g : SumPass b c) : SumPass a c :=
  ⟨fun e => (g.val e).trans (h.val e), fun c e s => g.stable c e (h.stable c e s),
   fun e d => g.defd e (h.defd e d), g.size.trans h.size⟩

theorem MultPass.trans {a b c : Ops} (h : MultPass a b) (g : MultPass b c) : MultPass a c :=
  ⟨fun e => (g.val e).trans (h.val e), fun c e s => g.stable c e (h.stable c e s),
   fun e d => g.defd e (h.defd e d), g.size.trans h.size⟩

theorem SumPass.cons {a b : Ops} (h : SumPass a b) (f : Bool) (n : Node) :
    SumPass (.cons f n a) (.cons f n b) :=
  ⟨fun e => by simp only [evalSum, h.val],
   fun c e s => ⟨s.1, s.2.1, s.2.2.1, h.stable c e s.2.2.2⟩,
   fun e d => ⟨d.1, h.defd e d.2⟩, by have := h.size; simp only [Ops.size]; omega⟩

theorem MultPass.cons {a b : Ops} (h : MultPass a b) (f : Bool) (n : Node) :
    MultPass (.cons f n a) (.cons f n b) :=
  ⟨fun e => by simp only [evalMult, h.val],
   fun c e s => ⟨s.1, s.2.1, s.2.2.1, h.stable c e s.2.2.2⟩,
   fun e d => ⟨d.1, d.2.1, h.defd e d.2.2⟩, by have := h.size; simp only [Ops.size]; omega⟩

theorem sumReduceSubSums_ok (ops : Ops) : SumPass ops (sumReduceSubSums ops).1 := by
  fun_induction sumReduceSubSums ops with
  | case1 => exact ⟨fun _ => rfl, fun _ _ h => h, fun _ h => h, le_rfl⟩
  | case2 s inner r ih =>
    refine ⟨fun e => ?_, fun c e h => ?_, fun e h => ?_, ?_⟩
    · simp only [evalSum_append, evalSum_splice, ih.val, evalSum, eval]
    · simp only [stableOps_append, stableOps_splice]
      exact ⟨h.2.2.1, ih.stable c e h.2.2.2⟩
    · simp only [definedSum_append, definedSum_splice]
      exact ⟨h.1, ih.defd e h.2⟩
    · have := ih.size
      simp only [size_append, size_splice, Ops.size, Node.size]; omega
  | case3 s n r _ ih => exact ih.cons s n

theorem sumReduceSubMults_ok (ops : Ops) : SumPass ops (sumReduceSubMults ops).1 := by
  fun_induction sumReduceSubMults ops with
  | case1 => exact ⟨fun _ => rfl, fun _ _ h => h, fun _ h => h, le_rfl⟩
  | case2 s m r ih =>
    refine ⟨fun e => ?_, fun c e h => ?_, fun e h => ?_, ?_⟩
    · simp [evalSum, evalMult, eval, ih.val]
    · obtain ⟨-, -, h3, h4⟩ := h
      exact ⟨h3.1, h3.2.1, h3.2.2.1, ih.stable c e h4⟩
    · exact ⟨h.1.1, ih.defd e h.2⟩
    · have := ih.size
      simp only [Ops.size, Node.size]; omega
  | case3 s n r _ ih => exact ih.cons s n

theorem multReduceSubSums_ok (ops : Ops) : MultPass ops (multReduceSubSums ops).1 := by
  fun_induction multReduceSubSums ops with
  | case1 => exact ⟨fun _ => rfl, fun _ _ h => h, fun _ h => h, le_rfl⟩
  | case2 m s x r ih =>
    have key : ∀ e, eval e (if s then x else .neg x) =
        eval e (.sum (.cons s x .nil)) := by
      intro e; cases s <;> simp [eval, evalSum]
    refine ⟨fun e => ?_, fun c e h => ?_, fun e h => ?_, ?_⟩
    · simp only [evalMult, key, ih.val]
    · obtain ⟨h1, h2, h3, h4⟩ := h
      refine ⟨by simpa only [key] using h1, by simpa only [key] using h2, ?_,
        ih.stable c e h4⟩
      cases s
      · exact trivial
      · exact h3.2.2.1
    · obtain ⟨h1, h2, h3⟩ := h
      refine ⟨?_, by simpa only [key] using h2, ih.defd e h3⟩
      cases s
      · exact h1.1
      · exact h1.1
    · have := ih.size
      cases s <;> simp only [Ops.size, Node.size, if_true, Bool.false_eq_true, if_false] <;> omega
  | case3 s n r _ ih => exact ih.cons s n

theorem multReduceSubMults_ok (ops : Ops) : MultPass ops (multReduceSubMults ops).1 := by
  fun_induction multReduceSubMults ops with
  | case1 => exact ⟨fun _ => rfl, fun _ _ h => h, fun _ h => h, le_rfl⟩
  | case2 m inner r ih =>
    refine ⟨fun e => ?_, fun c e h => ?_, fun e h => ?_, ?_⟩
    · simp only [evalMult_append, evalMult_splice, ih.val, evalMult, eval]
    · simp only [stableOps_append, stableOps_splice]
      exact ⟨h.2.2.1, ih.stable c e h.2.2.2⟩
    · simp only [definedMult_append]
      obtain ⟨h1, h2, h3⟩ := h
      exact ⟨definedMult_splice e m inner h1 h2, ih.defd e h3⟩
    · have := ih.size
      simp only [size_append, size_splice, Ops.size, Node.size]; omega
  | case3 s n r _ ih => exact ih.cons s n

theorem sumPasses_ok (o : Bool) (ops : Ops) :
    SumPass ops (twoPasses o sumReduceSubSums sumReduceSubMults ops).1 := by
  cases o
  · exact (sumReduceSubMults_ok ops).trans (sumReduceSubSums_ok _)
  · exact (sumReduceSubSums_ok ops).trans (sumReduceSubMults_ok _)

theorem multPasses_ok (o : Bool) (ops : Ops) :
    MultPass ops (twoPasses o multReduceSubSums multReduceSubMults ops).1 := by
  cases o
  · exact (multReduceSubMults_ok ops).trans (multReduceSubSums_ok _)
  · exact (multReduceSubSums_ok ops).trans (multReduceSubMults_ok _)

/-! ### Operand-wise rewriting -/

/-- What rewriting a node guarantees at `env` when the elimination tests were made at `cur`. -/
structure NodeOK (cur env : Env) (n n' : Node) : Prop where
  val : eval env n' = eval env n
  stable : Stable cur env n'
  defd : Defined env n → Defined env n'

/-- The same for the operands of a sum or product. -/
structure OpsOK (cur env : Env) (a b : Ops) : Prop where
  sum : evalSum env b = evalSum env a
  mult : evalMult env b = evalMult env a
  stable : StableOps cur env b
  defdSum : DefinedSum env a → DefinedSum env b
  defdMult : DefinedMult env a → DefinedMult env b

theorem OpsOK.nil (cur env : Env) : OpsOK cur env .nil .nil :=
  ⟨rfl, rfl, trivial, fun _ => trivial, fun _ => trivial⟩

theorem OpsOK.cons {cur env : Env} {n n' : Node} {r r' : Ops} (f : Bool)
    (hc : eval cur n' = eval cur n)
    (hs : StableOps cur env (.cons f n r))
    (h : NodeOK cur env n n') (g : OpsOK cur env r r') :
    OpsOK cur env (.cons f n r) (.cons f n' r') := by
  refine ⟨by simp only [evalSum, h.val, g.sum], by simp only [evalMult, h.val, g.mult],
    ⟨?_, ?_, h.stable, g.stable⟩, fun d => ⟨h.defd d.1, g.defdSum d.2⟩,
    fun d => ⟨h.defd d.1, by rw [h.val]; exact d.2.1, g.defdMult d.2.2⟩⟩
  · rw [hc, h.val]; exact hs.1
  · rw [hc, h.val]; exact hs.2.1

theorem NodeOK.refl {cur env : Env} {n : Node} (h : Stable cur env n) : NodeOK cur env n n :=
  ⟨rfl, h, id⟩

theorem NodeOK.trans {cur env : Env} {a b c : Node} (h : NodeOK cur env a b)
    (g : NodeOK cur env b c) : NodeOK cur env a c :=
  ⟨g.val.trans h.val, g.stable, fun d => g.defd (h.defd d)⟩

mutual
theorem stable_self (cur : Env) : ∀ n, Stable cur cur n
  | .sum ops => by rw [Stable]; exact stableOps_self cur ops
  | .mult ops => by rw [Stable]; exact stableOps_self cur ops
  | .int _ | .float _ _ | .rat _ _ | .special _ | .var _ | .pow _ _ | .neg _ | .ipow _ _
  | .sqrt _ | .exp _ | .log _ | .sin _ | .cos _ | .tan _
  | .asin _ | .acos _ | .atan _ | .fn _ => trivial
theorem stableOps_self (cur : Env) : ∀ ops, StableOps cur cur ops
  | .nil => trivial
  | .cons _ n r => ⟨id, id, stable_self cur n, stableOps_self cur r⟩
end

/-! ### ReduceDepth -/

mutual
theorem eval_reduceDepth (o : Bool) (env : Env) : ∀ n, eval env (reduceDepth o n).1 = eval env n
  | .sum ops => by
      have h := weight_sumPasses o ops
      have := (eval_reduceOps o env
        (twoPasses o sumReduceSubSums sumReduceSubMults ops).1).1
      rw [reduceDepth]
      simp only [eval, this, (sumPasses_ok o ops).val]
  | .mult ops => by
      have h := weight_multPasses o ops
      have := (eval_reduceOps o env
        (twoPasses o multReduceSubSums multReduceSubMults ops).1).2
      rw [reduceDepth]
      simp only [eval, this, (multPasses_ok o ops).val]
  | .int _ | .float _ _ | .rat _ _ | .special _ | .var _ | .pow _ _ | .neg _ | .ipow _ _
  | .sqrt _ | .exp _ | .log _ | .sin _ | .cos _ | .tan _
  | .asin _ | .acos _ | .atan _ | .fn _ => by simp [reduceDepth]
termination_by n => n.weight
decreasing_by
  all_goals simp only [Node.weight]; omega
theorem eval_reduceOps (o : Bool) (env : Env) : ∀ ops,
    evalSum env (reduceOps o ops).1 = evalSum env ops ∧
    evalMult env (reduceOps o ops).1 = evalMult env ops
  | .nil => by simp [reduceOps]
  | .cons f n r => by
      have h1 := eval_reduceDepth o env n
      have h2 := eval_reduceOps o env r
      rw [reduceOps]
      simp only [evalSum, evalMult, h1, h2, and_self]
termination_by ops => ops.weight
decreasing_by
  all_goals simp only [Ops.weight]; omega
end

mutual
theorem reduceDepth_ok (o : Bool) (cur env : Env) :
    ∀ n, Stable cur env n → NodeOK cur env n (reduceDepth o n).1
  | .sum ops => by
      intro hs
      have h := weight_sumPasses o ops
      have p := sumPasses_ok o ops
      have q := reduceOps_ok o cur env
        (twoPasses o sumReduceSubSums sumReduceSubMults ops).1 (p.stable _ _ hs)
      rw [reduceDepth]
      exact ⟨by simp only [eval, q.sum, p.val], q.stable, fun d => q.defdSum (p.defd env d)⟩
  | .mult ops => by
      intro hs
      have h := weight_multPasses o ops
      have p := multPasses_ok o ops
      have q := reduceOps_ok o cur env
        (twoPasses o multReduceSubSums multReduceSubMults ops).1 (p.stable _ _ hs)
      rw [reduceDepth]
      exact ⟨by simp only [eval, q.mult, p.val], q.stable, fun d => q.defdMult (p.defd env d)⟩
  | .int _ | .float _ _ | .rat _ _ | .special _ | .var _ | .pow _ _ | .neg _ | .ipow _ _
  | .sqrt _ | .exp _ | .log _ | .sin _ | .cos _ | .tan _
  | .asin _ | .acos _ | .atan _ | .fn _ => by
      intro hs; simpa [reduceDepth] using NodeOK.refl hs
termination_by n => n.weight
decreasing_by
  all_goals simp only [Node.weight]; omega
theorem reduceOps_ok (o : Bool) (cur env : Env) :
    ∀ ops, StableOps cur env ops → OpsOK cur env ops (reduceOps o ops).1
  | .nil => by intro _; simpa [reduceOps] using OpsOK.nil cur env
  | .cons f n r => by
      intro hs
      have h1 := reduceDepth_ok o cur env n hs.2.2.1
      have h2 := reduceOps_ok o cur env r hs.2.2.2
      rw [reduceOps]
      exact OpsOK.cons f (eval_reduceDepth o cur n) hs h1 h2
termination_by ops => ops.weight
decreasing_by
  all_goals simp only [Ops.weight]; omega
end

/-! ### The elimination steps -/

theorem dropZero_ok (cur env : Env) (ops : Ops) (hs : StableOps cur env ops) :
    evalSum env (dropValue cur 0 ops).1 = evalSum env ops ∧
    StableOps cur env (dropValue cur 0 ops).1 ∧
    (DefinedSum env ops → DefinedSum env (dropValue cur 0 ops).1) := by
  induction ops using Ops.rec (motive_1 := fun _ => True) with
  | nil => exact ⟨rfl, trivial, fun _ => trivial⟩
  | cons f n r _ ih =>
    obtain ⟨i1, i2, i3⟩ := ih hs.2.2.2
    simp only [dropValue]
    split_ifs with h
    · refine ⟨?_, i2, fun d => i3 d.2⟩
      simp [evalSum, hs.1 h, i1]
    · exact ⟨by simp only [evalSum, i1], ⟨hs.1, hs.2.1, hs.2.2.1, i2⟩, fun d => ⟨d.1, i3 d.2⟩⟩
  | _ => trivial

theorem dropOne_ok (cur env : Env) (ops : Ops) (hs : StableOps cur env ops) :
    evalMult env (dropValue cur 1 ops).1 = evalMult env ops ∧
    StableOps cur env (dropValue cur 1 ops).1 ∧
    (DefinedMult env ops → DefinedMult env (dropValue cur 1 ops).1) := by
  induction ops using Ops.rec (motive_1 := fun _ => True) with
  | nil => exact ⟨rfl, trivial, fun _ => trivial⟩
  | cons f n r _ ih =>
    obtain ⟨i1, i2, i3⟩ := ih hs.2.2.2
    simp only [dropValue]
    split_ifs with h
    · refine ⟨?_, i2, fun d => i3 d.2.2⟩
      simp [evalMult, hs.2.1 h, i1]
    · exact ⟨by simp only [evalMult, i1], ⟨hs.1, hs.2.1, hs.2.2.1, i2⟩,
        fun d => ⟨d.1, d.2.1, i3 d.2.2⟩⟩
  | _ => trivial

/-- All operands dropped: every operand has the tested value. -/
theorem dropValue_nil (cur : Env) (x : ℂ) (ops : Ops) (h : (dropValue cur x ops).1 = .nil) :
    ∀ f n r, ops = .cons f n r → eval cur n = x := by
  rintro f n r rfl
  simp only [dropValue] at h
  split_ifs at h with h1
  exact h1

theorem sumDropZeros_ok (cur env : Env) (ops : Ops) (hs : StableOps cur env ops) :
    evalSum env (sumDropZeros cur ops).1 = evalSum env ops ∧
    StableOps cur env (sumDropZeros cur ops).1 ∧
    (DefinedSum env ops → DefinedSum env (sumDropZeros cur ops).1) := by
  have h := dropZero_ok cur env ops hs
  unfold sumDropZeros
  split_ifs with h1
  · split
    · rename_i k hk
      rw [hk] at h
      refine ⟨?_, ?_, fun _ => ⟨trivial, trivial⟩⟩
      · rw [← h.1]; simp [evalSum, eval]
      · simp [StableOps, Stable, eval]
    · exact h
  · exact ⟨rfl, hs, id⟩

theorem multDropOnes_ok (cur env : Env) (ops : Ops) (hs : StableOps cur env ops) :
    evalMult env (multDropOnes cur ops).1 = evalMult env ops ∧
    StableOps cur env (multDropOnes cur ops).1 ∧
    (DefinedMult env ops → DefinedMult env (multDropOnes cur ops).1) := by
  cases ops with
  | nil => exact ⟨rfl, hs, id⟩
  | cons f n r =>
    have h := dropOne_ok cur env _ hs
    simp only [multDropOnes]
    split_ifs with h1
    · split
      · rename_i k hk
        have h2 := dropValue_nil cur 1 (.cons f n r) (by rw [hk]) f n r rfl
        rw [hk] at h
        refine ⟨?_, ⟨hs.1, hs.2.1, hs.2.2.1, trivial⟩, fun d => ⟨d.1, d.2.1, trivial⟩⟩
        rw [← h.1]
        simp [evalMult, hs.2.1 h2]
      · exact h
    · exact ⟨rfl, hs, id⟩

theorem hasZero_evalMult (cur env : Env) (ops : Ops) (hs : StableOps cur env ops)
    (hz : hasZero cur ops) : evalMult env ops = 0 := by
  induction ops using Ops.rec (motive_1 := fun _ => True) with
  | nil => exact hz.elim
  | cons f n r _ ih =>
    rcases hz with hz | hz
    · simp [evalMult, hs.1 hz]
    · simp [evalMult, ih hs.2.2.2 hz]
  | _ => trivial

/-! ### EliminateZeros -/

mutual
theorem eval_elimZeros (cur : Env) : ∀ n, eval cur (elimZeros cur n).1 = eval cur n
  | .sum ops => by
      have h := weight_sumDropZeros cur ops
      have p := sumDropZeros_ok cur cur ops (stableOps_self _ _)
      have q := (eval_elimZerosOps cur (sumDropZeros cur ops).1).1
      rw [elimZeros]
      simp only [eval, q, p.1]
  | .mult ops => by
      rw [elimZeros]
      split_ifs with h
      · have := hasZero_evalMult cur cur ops (stableOps_self _ _) h
        simp [eval, evalMult, this]
      · simp only [eval, (eval_elimZerosOps cur ops).2]
  | .int _ | .float _ _ | .rat _ _ | .special _ | .var _ | .pow _ _ | .neg _ | .ipow _ _
  | .sqrt _ | .exp _ | .log _ | .sin _ | .cos _ | .tan _
  | .asin _ | .acos _ | .atan _ | .fn _ => by simp [elimZeros]
termination_by n => n.weight
decreasing_by
  all_goals simp only [Node.weight]; omega
theorem eval_elimZerosOps (cur : Env) : ∀ ops,
    evalSum cur (elimZerosOps cur ops).1 = evalSum cur ops ∧
    evalMult cur (elimZerosOps cur ops).1 = evalMult cur ops
  | .nil => by simp [elimZerosOps]
  | .cons f n r => by
      have h1 := eval_elimZeros cur n
      have h2 := eval_elimZerosOps cur r
      rw [elimZerosOps]
      simp only [evalSum, evalMult, h1, h2, and_self]
termination_by ops => ops.weight
decreasing_by
  all_goals simp only [Ops.weight]; omega
end

mutual
theorem elimZeros_ok (cur env : Env) :
    ∀ n, Stable cur env n → NodeOK cur env n (elimZeros cur n).1
  | .sum ops => by
      intro hs
      have h := weight_sumDropZeros cur ops
      have p := sumDropZeros_ok cur env ops hs
      have q := elimZerosOps_ok cur env (sumDropZeros cur ops).1 p.2.1
      rw [elimZeros]
      exact ⟨by simp only [eval, q.sum, p.1], q.stable, fun d => q.defdSum (p.2.2 d)⟩
  | .mult ops => by
      intro hs
      rw [elimZeros]
      split_ifs with h
      · have := hasZero_evalMult cur env ops hs h
        exact ⟨by simp [eval, evalMult, this], by simp [Stable, StableOps, eval],
          fun _ => by simp [Defined, DefinedMult]⟩
      · have q := elimZerosOps_ok cur env ops hs
        exact ⟨by simp only [eval, q.mult], q.stable, fun d => q.defdMult d⟩
  | .int _ | .float _ _ | .rat _ _ | .special _ | .var _ | .pow _ _ | .neg _ | .ipow _ _
  | .sqrt _ | .exp _ | .log _ | .sin _ | .cos _ | .tan _
  | .asin _ | .acos _ | .atan _ | .fn _ => by
      intro hs; simpa [elimZeros] using NodeOK.refl hs
termination_by n => n.weight
decreasing_by
  all_goals simp only [Node.weight]; omega
theorem elimZerosOps_ok (cur env : Env) :
    ∀ ops, StableOps cur env ops → OpsOK cur env ops (elimZerosOps cur ops).1
  | .nil => by intro _; simpa [elimZerosOps] using OpsOK.nil cur env
  | .cons f n r => by
      intro hs
      have h1 := elimZeros_ok cur env n hs.2.2.1
      have h2 := elimZerosOps_ok cur env r hs.2.2.2
      rw [elimZerosOps]
      exact OpsOK.cons f (eval_elimZeros cur n) hs h1 h2
termination_by ops => ops.weight
decreasing_by
  all_goals simp only [Ops.weight]; omega
end

/-! ### EliminateOnes -/

mutual
theorem eval_elimOnes (cur : Env) : ∀ n, eval cur (elimOnes cur n).1 = eval cur n
  | .sum ops => by
      rw [elimOnes]
      simp only [eval, (eval_elimOnesOps cur ops).1]
  | .mult ops => by
      have h := weight_multDropOnes cur ops
      have p := multDropOnes_ok cur cur ops (stableOps_self _ _)
      have q := (eval_elimOnesOps cur (multDropOnes cur ops).1).2
      rw [elimOnes]
      simp only [eval, q, p.1]
  | .int _ | .float _ _ | .rat _ _ | .special _ | .var _ | .pow _ _ | .neg _ | .ipow _ _
  | .sqrt _ | .exp _ | .log _ | .sin _ | .cos _ | .tan _
  | .asin _ | .acos _ | .atan _ | .fn _ => by simp [elimOnes]
termination_by n => n.weight
decreasing_by
  all_goals simp only [Node.weight]; omega
theorem eval_elimOnesOps (cur : Env) : ∀ ops,
    evalSum cur (elimOnesOps cur ops).1 = evalSum cur ops ∧
    evalMult cur (elimOnesOps cur ops).1 = evalMult cur ops
  | .nil => by simp [elimOnesOps]
  | .cons f n r => by
      have h1 := eval_elimOnes cur n
      have h2 := eval_elimOnesOps cur r
      rw [elimOnesOps]
      simp only [evalSum, evalMult, h1, h2, and_self]
termination_by ops => ops.weight
decreasing_by
  all_goals simp only [Ops.weight]; omega
end

mutual
theorem elimOnes_ok (cur env : Env) :
    ∀ n, Stable cur env n → NodeOK cur env n (elimOnes cur n).1
  | .sum ops => by
      intro hs
      have q := elimOnesOps_ok cur env ops hs
      rw [elimOnes]
      exact ⟨by simp only [eval, q.sum], q.stable, fun d => q.defdSum d⟩
  | .mult ops => by
      intro hs
      have h := weight_multDropOnes cur ops
      have p := multDropOnes_ok cur env ops hs
      have q := elimOnesOps_ok cur env (multDropOnes cur ops).1 p.2.1
      rw [elimOnes]
      exact ⟨by simp only [eval, q.mult, p.1], q.stable, fun d => q.defdMult (p.2.2 d)⟩
  | .int _ | .float _ _ | .rat _ _ | .special _ | .var _ | .pow _ _ | .neg _ | .ipow _ _
  | .sqrt _ | .exp _ | .log _ | .sin _ | .cos _ | .tan _
  | .asin _ | .acos _ | .atan _ | .fn _ => by
      intro hs; simpa [elimOnes] using NodeOK.refl hs
termination_by n => n.weight
decreasing_by
  all_goals simp only [Node.weight]; omega
theorem elimOnesOps_ok (cur env : Env) :
    ∀ ops, StableOps cur env ops → OpsOK cur env ops (elimOnesOps cur ops).1
  | .nil => by intro _; simpa [elimOnesOps] using OpsOK.nil cur env
  | .cons f n r => by
      intro hs
      have h1 := elimOnes_ok cur env n hs.2.2.1
      have h2 := elimOnesOps_ok cur env r hs.2.2.2
      rw [elimOnesOps]
      exact OpsOK.cons f (eval_elimOnes cur n) hs h1 h2
termination_by ops => ops.weight
decreasing_by
  all_goals simp only [Ops.weight]; omega
end

theorem simplifyRound_ok (o : Bool) (cur env : Env) (n : Node) (hs : Stable cur env n) :
    NodeOK cur env n (simplifyRound o cur n).1 := by
  have h1 := reduceDepth_ok o cur env n hs
  have h2 := elimOnes_ok cur env _ h1.stable
  have h3 := elimZeros_ok cur env _ h2.stable
  exact (h1.trans h2).trans h3

theorem rounds_ok (o : Bool) (cur env : Env) (n : Node) (hs : Stable cur env n) (k : ℕ) :
    NodeOK cur env n (rounds o cur n k) := by
  induction k with
  | zero => exact NodeOK.refl hs
  | succ k ih => exact ih.trans (simplifyRound_ok o cur env _ ih.stable)

end B2
