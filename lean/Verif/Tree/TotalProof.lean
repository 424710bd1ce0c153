import Verif.Tree.Total

/-! The induction behind C171: differentiating first and choosing the variable afterwards. -/

namespace B2

theorem diffWith_leaf (M : Marks) (v : Var) (n : Node) : differentiateNode M (some v) n = diff v n := by
  unfold differentiateNode
  induction n using Node.rec (motive_2 := fun ops =>
      diffWithSum (leaf M (some v)) ops = diffSum v ops ∧
      ∀ pre, diffWithMult (leaf M (some v)) pre ops = diffMult v pre ops) with
  | nil => exact ⟨by simp [diffWithSum, diffSum], fun pre => by simp [diffWithMult, diffMult]⟩
  | cons f n r ih1 ih2 =>
    refine ⟨?_, fun pre => ?_⟩
    · simp only [diffWithSum, diffSum, ih1, ih2.1]
    · simp only [diffWithMult, diffMult, ih1, ih2.2]
  | var w => simp only [diffWith, diff, leaf]
  | sum ops ih => simp only [diffWith, diff, ih.1]
  | mult ops ih => simp only [diffWith, diff, ih.2]
  | pow b e ih1 ih2 => simp only [diffWith, diff, ih1]
  | _ => simp_all only [diffWith, diff]

/-- What is never a `Float` node. -/
def NoFloat (D : Var → Node) : Prop := ∀ w a b, D w ≠ .float a b

theorem diffWith_ne_float {D : Var → Node} (hD : NoFloat D) (n : Node) (a b : ℚ) : diffWith D n ≠ .float a b := by
  induction n using Node.rec (motive_2 := fun _ => True) with
  | nil => trivial
  | cons => trivial
  | var w => simpa [diffWith] using hD w a b
  | sum ops => simpa [diffWith] using sumOrZero_ne_float _ a b
  | mult ops => simpa [diffWith] using sumOrZero_ne_float _ a b
  | ipow n k ih => unfold diffWith; split_ifs <;> simp_all
  | fn n ih => simpa [diffWith] using ih
  | _ => simp [diffWith]

theorem diffWith_isFloatOne {D : Var → Node} (hD : NoFloat D) (n : Node) : (diffWith D n).isFloatOne = false := by
  have h := diffWith_ne_float hD n
  cases hd : diffWith D n <;> simp_all [Node.isFloatOne]

theorem diffWith_isFloatZero {D : Var → Node} (hD : NoFloat D) (n : Node) : (diffWith D n).isFloatZero = false := by
  have h := diffWith_ne_float hD n
  cases hd : diffWith D n <;> simp_all [Node.isFloatZero]

theorem diffWith_isNumber_eval (env : Env) (D : Var → Node) (n : Node) (h : n.isNumber = true) :
    eval env (diffWith D n) = 0 := by
  cases n <;> simp_all [Node.isNumber, eval, diffWith]

theorem evalSum_diffWithSum_cons (env : Env) (D : Var → Node) (f : Bool) (n : Node) (r : Ops) :
    evalSum env (diffWithSum D (.cons f n r)) =
      (if f then eval env (diffWith D n) else -eval env (diffWith D n)) + evalSum env (diffWithSum D r) := by
  rw [diffWithSum]
  split_ifs with h1 h2 h3
  all_goals first
    | (have := diffWith_isNumber_eval env D n h1; simp [this]; done)
    | (have := eval_numIsZero env (diffWith D n) (by simp_all; done); simp [this]; done)
    | simp_all [evalSum]

theorem evalSum_diffWithMult_cons (env : Env) {D : Var → Node} (hD : NoFloat D) (m : Bool) (n : Node) (pre r : Ops) :
    evalSum env (diffWithMult D pre (.cons m n r)) =
      (if m then eval env (diffWith D n) * (evalMult env pre * evalMult env r)
        else -(eval env (diffWith D n) * (evalMult env pre * evalMult env r * (eval env n ^ 2)⁻¹))) +
      evalSum env (diffWithMult D (pre.append (.cons m n .nil)) r) := by
  simp only [diffWithMult, diffWith_isFloatZero hD, diffWith_isFloatOne hD, Bool.false_eq_true, if_false, evalSum, eval,
    evalMult, evalMult_append, evalMult_quotientTail]
  cases m <;> simp

/-- Trees whose leaves have the same values have the same value. -/
theorem eval_agree {e₁ e₂ : Env} (n : Node) (h : ∀ w ∈ n.vars, e₁ w = e₂ w) : eval e₁ n = eval e₂ n := by
  induction n using Node.rec (motive_2 := fun ops => (∀ w ∈ ops.vars, e₁ w = e₂ w) →
      evalSum e₁ ops = evalSum e₂ ops ∧ evalMult e₁ ops = evalMult e₂ ops) with
  | nil => simp [evalSum, evalMult]
  | cons f n r ih1 ih2 h =>
    simp only [Ops.vars, List.mem_append] at h
    have a := ih1 fun w hw => h w (Or.inl hw)
    have b := ih2 fun w hw => h w (Or.inr hw)
    simp [evalSum, evalMult, a, b]
  | int => simp [eval]
  | float => simp [eval]
  | rat => simp [eval]
  | special s => cases s <;> simp [eval]
  | var w => simpa [eval] using h w (by simp [Node.vars])
  | sum ops ih => simp only [Node.vars] at h; simp [eval, (ih h).1]
  | mult ops ih => simp only [Node.vars] at h; simp [eval, (ih h).2]
  | pow b e ih1 ih2 =>
    simp only [Node.vars, List.mem_append] at h
    simp [eval, ih1 fun w hw => h w (Or.inl hw), ih2 fun w hw => h w (Or.inr hw)]
  | _ => simp_all [eval, Node.vars]

theorem eval_agree_ops {e₁ e₂ : Env} (ops : Ops) (h : ∀ w ∈ ops.vars, e₁ w = e₂ w) :
    evalMult e₁ ops = evalMult e₂ ops := by
  have := eval_agree (.mult ops) (by simpa [Node.vars] using h)
  simpa [eval] using this

theorem vars_append (a b : Ops) : (a.append b).vars = a.vars ++ b.vars := by
  induction a using Ops.rec (motive_1 := fun _ => True) with
  | nil => simp [Ops.vars]
  | cons f n r _ ih => simp [Ops.vars, ih]
  | _ => trivial

/-- The value of a derivative depends only on the values of the variables and of their derivatives. -/
theorem eval_diffWith_agree {D₁ D₂ : Var → Node} (h₁ : NoFloat D₁) (h₂ : NoFloat D₂) {e₁ e₂ : Env} (n : Node)
    (he : ∀ w ∈ n.vars, e₁ w = e₂ w) (hd : ∀ w ∈ n.vars, eval e₁ (D₁ w) = eval e₂ (D₂ w)) :
    eval e₁ (diffWith D₁ n) = eval e₂ (diffWith D₂ n) := by
  induction n using Node.rec (motive_2 := fun ops => (∀ w ∈ ops.vars, e₁ w = e₂ w) →
      (∀ w ∈ ops.vars, eval e₁ (D₁ w) = eval e₂ (D₂ w)) →
      evalSum e₁ (diffWithSum D₁ ops) = evalSum e₂ (diffWithSum D₂ ops) ∧
      ∀ pre : Ops, (∀ w ∈ pre.vars, e₁ w = e₂ w) →
        evalSum e₁ (diffWithMult D₁ pre ops) = evalSum e₂ (diffWithMult D₂ pre ops)) with
  | nil => simp [evalSum, diffWithSum, diffWithMult]
  | cons f n r ih1 ih2 he hd =>
    simp only [Ops.vars, List.mem_append] at he hd
    have a := ih1 (fun w hw => he w (Or.inl hw)) fun w hw => hd w (Or.inl hw)
    have b := ih2 (fun w hw => he w (Or.inr hw)) fun w hw => hd w (Or.inr hw)
    have hn := eval_agree n fun w hw => he w (Or.inl hw)
    have hr := eval_agree_ops r fun w hw => he w (Or.inr hw)
    refine ⟨?_, fun pre hp => ?_⟩
    · rw [evalSum_diffWithSum_cons, evalSum_diffWithSum_cons, a, b.1]
    · have hq : ∀ w ∈ (pre.append (.cons f n .nil)).vars, e₁ w = e₂ w := by
        intro w hw
        rw [vars_append, List.mem_append] at hw
        rcases hw with hw | hw
        · exact hp w hw
        · simp only [Ops.vars, List.append_nil] at hw
          exact he w (Or.inl hw)
      rw [evalSum_diffWithMult_cons e₁ h₁, evalSum_diffWithMult_cons e₂ h₂, a, b.2 _ hq, hn, hr, eval_agree_ops pre hp]
  | int => simp [eval, diffWith]
  | float => simp [eval, diffWith]
  | rat => simp [eval, diffWith]
  | special s => simp [eval, diffWith]
  | var w => simpa [diffWith] using hd w (by simp [Node.vars])
  | sum ops ih =>
    simp only [Node.vars] at he hd
    simp only [diffWith, eval_sumOrZero, (ih he hd).1]
  | mult ops ih =>
    simp only [Node.vars] at he hd
    simp only [diffWith, eval_sumOrZero, (ih he hd).2 .nil (by simp [Ops.vars])]
  | pow b e ih1 ih2 =>
    simp only [Node.vars, List.mem_append] at he hd
    have a := ih1 (fun w hw => he w (Or.inl hw)) fun w hw => hd w (Or.inl hw)
    simp only [diffWith, eval, evalMult, evalSum, a, eval_agree b fun w hw => he w (Or.inl hw),
      eval_agree e fun w hw => he w (Or.inr hw)]
  | ipow n k ih =>
    simp only [Node.vars] at he hd
    have a := ih he hd
    have hn := eval_agree n he
    unfold diffWith
    split_ifs
    · simp [eval]
    · exact a
    · simp only [eval, evalMult, a, hn]
    · simp only [eval, evalMult, a, hn]
  | neg n ih => simp only [Node.vars] at he hd; simp only [diffWith, eval, ih he hd]
  | fn n ih => simp only [Node.vars] at he hd; simp only [diffWith, ih he hd]
  | sqrt n ih | exp n ih | log n ih | sin n ih | cos n ih | tan n ih | asin n ih | acos n ih | atan n ih =>
    simp only [Node.vars] at he hd
    simp only [diffWith, eval, evalMult, evalSum, ih he hd, eval_agree n he]

theorem noFloat_leaf (M : Marks) (u : Option Var) : NoFloat (leaf M u) := by
  intro w a b
  unfold leaf
  cases u with
  | none => simp
  | some v => by_cases h : v = w <;> simp [h]

/-- No ordinary variable of the tree is the number of a differential. -/
def Unmarked (M : Marks) (n : Node) : Prop := ∀ w ∈ n.vars, M.of w = none

/-- Evaluating the total differential with the variable `v` gives the derivative with respect to `v`. -/
theorem evalJ_total (M : Marks) (n : Node) (hn : Unmarked M n) (env : Env) (v : Var) :
    evalJ M env v (differentiateNode M none n) = eval env (diff v n) := by
  rw [← diffWith_leaf M v n]
  unfold evalJ differentiateNode
  refine eval_diffWith_agree (noFloat_leaf _ _) (noFloat_leaf _ _) n ?_ ?_
  · intro w hw
    simp [jacEnv, hn w hw]
  · intro w _
    simp only [leaf, eval, jacEnv, M.of_d]
    by_cases h : v = w
    · subst h; simp [eval]
    · have : (w : Var) ≠ v := fun h' => h h'.symm
      simp [h, this, eval]

end B2
