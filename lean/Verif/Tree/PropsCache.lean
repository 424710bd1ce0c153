import Verif.Tree.CacheProof
import Mathlib.Tactic.Ring

/-!
# C12: cached evaluation on graphs with shared nodes

`value G vals d i` is the mathematical value of node `i` (no caches). `d` is the variable of
differentiation passed to `Eval` (`none` for plain evaluation).
-/

namespace B2.Cache

open B2 (Var)

variable {V : Type}

/-- A `set` operation. -/
def Op.IsSet : Op V → Prop
  | .set _ _ _ => True
  | _ => False

/-- Not a `set` of number type `t`, nor an evaluation of number type `t` with a variable of
differentiation other than `d`. -/
def Op.Quiet (t : NumType) (d : Option Var) : Op V → Prop
  | .set t' _ _ => t' ≠ t
  | .reset _ => True
  | .eval t' d' _ | .evalJ t' d' _ => t' = t → d' = d

/-- The operation does not evaluate node `i`. -/
def Op.NotEvalOf (i : ℕ) : Op V → Prop
  | .eval _ _ j | .evalJ _ _ j => j ≠ i
  | _ => True

/-- The operation does not reset node `i`, directly or through a node above it. -/
def Op.NotResetOf (G : Graph V) (i : ℕ) : Op V → Prop
  | .reset k | .evalJ _ _ k => ¬ Below G k i
  | _ => True

/-- C12, full statement: after `Reset` on an expression, and any further operations that do not
evaluate that expression, the next `Eval` on it returns the value given by the current variable
values. -/
def C12_full : Prop :=
  ∀ (V : Type) (G : Graph V) (s : State V) (t : NumType) (i : ℕ) (ops : List (Op V)),
    (∀ o ∈ ops, o.NotEvalOf i) →
    (evalC G t none i (run G (reset G i s) ops)).1 =
      value G ((run G (reset G i s) ops).vals t) none i

/-- The graph of `f = g' = -x`, two functions sharing the node `-x`. -/
def sharedNeg : Graph ℤ where
  cell
    | 1 => .op (fun l => -l.headD 0) [0]
    | 2 => .op (fun l => l.headD 0) [1]
    | 3 => .op (fun l => l.headD 0) [1]
    | _ => .var 0
  acyclic := by
    intro i j hj
    match i with
    | 0 => simp [Cell.operands] at hj
    | 1 => simp [Cell.operands] at hj; omega
    | 2 => simp [Cell.operands] at hj; omega
    | 3 => simp [Cell.operands] at hj; omega
    | _ + 4 => simp [Cell.operands] at hj

/-- The code violates C12: `Reset(f); Eval(g); x := 5; Eval(f)` with `g` sharing a node with `f`
returns the value for the old `x`. -/
theorem C12_cache_refuted : ¬ C12_full := by
  intro H
  have h := H ℤ sharedNeg ⟨fun _ _ => 1, fun _ _ => none, fun _ => none⟩ .dbl 3
    [.eval .dbl none 2, .set .dbl 0 5] (by simp [Op.NotEvalOf])
  have c0 : sharedNeg.cell 0 = .var 0 := rfl
  have c1 : sharedNeg.cell 1 = .op (fun l => -l.headD 0) [0] := rfl
  have c2 : sharedNeg.cell 2 = .op (fun l => l.headD 0) [1] := rfl
  have c3 : sharedNeg.cell 3 = .op (fun l => l.headD 0) [1] := rfl
  have hr : reset sharedNeg 3 ⟨fun _ _ => 1, fun _ _ => none, fun _ => none⟩ =
      ⟨fun _ _ => 1, fun _ _ => none, fun _ => none⟩ := by
    rw [reset_eq, c3]
    simp only [Cell.operands, List.foldl]
    rw [reset_eq, c1]
    simp only [Cell.operands, List.foldl]
    rw [reset_eq, c0]
    simp [Cell.operands]
  rw [hr] at h
  simp [run, step, setVar, evalC_op c3, evalC_op c2,
    evalC_op c1, evalC_var c0, evalStep, State.store, value_op c3, value_op c1, value_var c0] at h

theorem run_quiet_consistent {G : Graph V} {t : NumType} {d : Option Var} {S : ℕ → Prop}
    (hS : Closed G S) (ops : List (Op V)) (hq : ∀ o ∈ ops, o.Quiet t d) :
    ∀ s, Consistent G t d S s → Consistent G t d S (run G s ops) := by
  induction ops with
  | nil => intro s hs; exact hs
  | cons o ops ih =>
    intro s hs
    refine ih (fun o' ho' => hq o' (by simp [ho'])) _ ?_
    have ho := hq o (by simp)
    have heval : ∀ t' d' i (s : State V), (t' = t → d' = d) → Consistent G t d S s →
        Consistent G t d S (evalC G t' d' i s).2 := by
      intro t' d' i s htd hs
      by_cases ht : t' = t
      · subst ht
        rw [htd rfl]
        exact (evalC_consistent G t' d S hS i s hs).1
      · have hf := (evalC_frame G t' d' i s).1
        intro j hj x hx
        rw [hf.vals]
        exact hs j hj x (by rw [← hf.other t j (Ne.symm ht)]; exact hx)
    cases o with
    | set t' v x =>
      intro j hj y hy
      have : (step G s (.set t' v x)).vals t = s.vals t := by
        funext w
        simp only [step, setVar]
        rw [if_neg]
        rintro ⟨rfl, -⟩
        exact ho rfl
      rw [this]
      exact hs j hj y hy
    | reset k => exact reset_consistent hs k
    | eval t' d' k => exact heval t' d' k s ho hs
    | evalJ t' d' k =>
      have hr : Consistent G t d S
          (evalC G t' d' k (reset G k { s with curDiff := fun j => if j = k then d' else s.curDiff j })).2 :=
        heval t' d' k _ ho (reset_consistent (by exact hs) k)
      simp only [step, evalJ]
      split
      · split_ifs
        · exact hs
        · exact hr
      · exact hr

/-- C12, the part that holds: `Reset(f)`, then any number of variable assignments, then any
resets and evaluations (of `f` or anything else, sharing nodes or not, of either number type;
assignments in the other number type too), then `Eval(f)`: the value is the one given by the
current variable values. The state before the `Reset` is arbitrary. Missing from `C12_full`:
assignments made after some other expression sharing nodes with `f` was evaluated. -/
theorem C12_reset_eval_partial (G : Graph V) (s : State V) (t : NumType) (d : Option Var) (i : ℕ)
    (sets rest : List (Op V)) (hsets : ∀ o ∈ sets, o.IsSet) (hrest : ∀ o ∈ rest, o.Quiet t d) :
    (evalC G t d i (run G (reset G i s) (sets ++ rest))).1 =
      value G ((run G (reset G i s) (sets ++ rest)).vals t) d i := by
  have hclosed : Closed G (Below G i) := fun j hj k hk => hj.trans (.step hk (.refl k))
  have h1 : ∀ (sets : List (Op V)), (∀ o ∈ sets, o.IsSet) → ∀ s : State V,
      (∀ t j, Below G i j → s.cache t j = none) →
      ∀ t j, Below G i j → (run G s sets).cache t j = none := by
    intro sets
    induction sets with
    | nil => intro _ s hs; exact hs
    | cons o sets ih =>
      intro hset s hs
      refine ih (fun o' ho' => hset o' (by simp [ho'])) _ ?_
      have := hset o (by simp)
      cases o with
      | set t' v x => exact hs
      | _ => exact this.elim
  have h2 := h1 sets hsets (reset G i s) (reset_spec G i s).2.2.1
  have h3 : Consistent G t d (Below G i) (run G (reset G i s) sets) := by
    intro j hj x hx
    rw [h2 t j hj] at hx; cases hx
  have h4 := run_quiet_consistent hclosed rest hrest _ h3
  have h5 : run G (reset G i s) (sets ++ rest) = run G (run G (reset G i s) sets) rest := by
    simp [run, List.foldl_append]
  rw [h5]
  exact (evalC_consistent G t d _ hclosed i _ h4).2 (.refl i)

/-- Non-vacuity: on the shared graph above, `Reset(f); x := 5; Eval(g); Eval(f)`. -/
example (s : State ℤ) :
    (evalC sharedNeg .dbl none 3 (run sharedNeg (reset sharedNeg 3 s)
      ([.set .dbl 0 5] ++ [.eval .dbl none 2]))).1 = -5 := by
  rw [C12_reset_eval_partial sharedNeg s .dbl none 3 _ _ (by simp [Op.IsSet])
    (by simp [Op.Quiet])]
  have c0 : sharedNeg.cell 0 = .var 0 := rfl
  have c1 : sharedNeg.cell 1 = .op (fun l => -l.headD 0) [0] := rfl
  have c3 : sharedNeg.cell 3 = .op (fun l => l.headD 0) [1] := rfl
  rw [value_op c3]
  simp only [List.map, List.headD, value_op c1, value_var c0]
  have h1 : (run sharedNeg (reset sharedNeg 3 s) ([.set .dbl 0 5] ++ [.eval .dbl none 2])).vals =
      (setVar .dbl 0 5 (reset sharedNeg 3 s)).vals :=
    ((evalC_frame sharedNeg .dbl none 2 _).1).vals
  rw [h1]
  simp [setVar]

theorem run_keeps_cache {G : Graph V} {t : NumType} {i : ℕ} (ops : List (Op V))
    (hn : ∀ o ∈ ops, o.NotResetOf G i) :
    ∀ (s : State V) (x : V), s.cache t i = some x → (run G s ops).cache t i = some x := by
  induction ops with
  | nil => intro s x hx; exact hx
  | cons o ops ih =>
    intro s x hx
    refine ih (fun o' ho' => hn o' (by simp [ho'])) _ x ?_
    have ho := hn o (by simp)
    have heval : ∀ t' d' k (s : State V), s.cache t i = some x →
        (evalC G t' d' k s).2.cache t i = some x := by
      intro t' d' k s hx
      have hf := (evalC_frame G t' d' k s).1
      by_cases ht : t' = t
      · subst ht; exact hf.keep i x hx
      · rw [hf.other t i (Ne.symm ht)]; exact hx
    cases o with
    | set t' v y => exact hx
    | reset k => exact ((reset_spec G k s).2.2.2 t i ho).trans hx
    | eval t' d' k => exact heval t' d' k s hx
    | evalJ t' d' k =>
      have hr : (evalC G t' d' k (reset G k
          { s with curDiff := fun j => if j = k then d' else s.curDiff j })).2.cache t i = some x :=
        heval t' d' k _ (((reset_spec G k _).2.2.2 t i ho).trans hx)
      simp only [step, evalJ]
      split
      · split_ifs
        · exact hx
        · exact hr
      · exact hr

/-- C12, second clause: once an operator node was evaluated, every later `Eval` of it returns the
same value, whatever variables are assigned and whatever is evaluated in between, as long as
neither it nor a node above it is reset. -/
theorem C12_no_reset_same_value (G : Graph V) (s : State V) (t : NumType) (d d' : Option Var)
    (i : ℕ) (f : List V → V) (os : List ℕ) (hi : G.cell i = .op f os) (ops : List (Op V))
    (hn : ∀ o ∈ ops, o.NotResetOf G i) :
    (evalC G t d' i (run G (evalC G t d i s).2 ops)).1 = (evalC G t d i s).1 := by
  have h1 : (evalC G t d i s).2.cache t i = some (evalC G t d i s).1 := by
    rw [evalC_op hi]
    split
    · rename_i x hx; exact hx
    · simp [State.store]
  have h2 := run_keeps_cache ops hn _ _ h1
  rw [evalC_op hi, h2]

/-- C12 for Jacobian nodes: `EvalJ(d)` on a node that is not cached, or was last evaluated for
another variable, returns the value for the current variable values and `d`, in every state. -/
theorem C12_evalJ_fresh (G : Graph V) (s : State V) (t : NumType) (d : Option Var) (i : ℕ)
    (h : s.cache t i = none ∨ s.curDiff i ≠ d) :
    (evalJ G t d i s).1 = value G (s.vals t) d i := by
  have key : (evalC G t d i (reset G i
      { s with curDiff := fun j => if j = i then d else s.curDiff j })).1 =
      value G (s.vals t) d i := by
    have := C12_reset_eval_partial G
      { s with curDiff := fun j => if j = i then d else s.curDiff j } t d i [] []
      (by simp) (by simp)
    simp only [List.append_nil, run, List.foldl_nil] at this
    rw [this, (reset_spec G i _).1]
  unfold evalJ
  split
  · rename_i x hx
    rw [if_neg]
    · exact key
    · rcases h with h | h
      · rw [hx] at h; cases h
      · exact fun hc => h hc.symm
  · exact key

end B2.Cache
