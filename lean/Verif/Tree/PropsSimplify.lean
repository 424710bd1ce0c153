import Verif.Tree.SimplifyTerm

/-!
# C09, C10, C11: `ReduceDepth` and `Simplify`

`o` is the order in which the compiler evaluates `ReduceSubSums() + ReduceSubMults()`; every
theorem holds for both.
-/

namespace B2

/-! ## C09 -/

/-- C09: `ReduceDepth` leaves the value unchanged at every point, and introduces no division by
zero. -/
theorem C09_reduceDepth_value (o : Bool) (env : Env) (n : Node) :
    eval env (reduceDepth o n).1 = eval env n ∧
    (Defined env n → Defined env (reduceDepth o n).1) := by
  have h := eval_reduceDepth o env n
  exact ⟨h, (reduceDepth_ok o env env n (stable_self env n)).defd⟩

/-- Non-vacuity: `x - (y - z)` becomes `x - y + z`, and `x / (y / z)` becomes `x / y * z`. -/
example : (reduceDepth true (.sum (.cons true (.var 0) (.cons false
    (.sum (.cons true (.var 1) (.cons false (.var 2) .nil))) .nil)))) =
    (.sum (.cons true (.var 0) (.cons false (.var 1) (.cons true (.var 2) .nil))), 2) := by
  simp [reduceDepth, reduceOps, twoPasses, sumReduceSubSums, sumReduceSubMults, splice,
    Ops.append, Ops.length]

example : (reduceDepth true (.mult (.cons true (.var 0) (.cons false
    (.mult (.cons true (.var 1) (.cons false (.var 2) .nil))) .nil)))) =
    (.mult (.cons true (.var 0) (.cons false (.var 1) (.cons true (.var 2) .nil))), 2) := by
  simp [reduceDepth, reduceOps, twoPasses, multReduceSubSums, multReduceSubMults, splice,
    Ops.append, Ops.length]

/-! ## C10 -/

/-- C10, full statement: `Simplify` leaves the value unchanged at every point where the original
is defined, whatever the values of the variables at the time of the call. -/
def C10_full : Prop :=
  ∀ (o : Bool) (cur env : Env) (n n' : Node) (k : ℕ),
    Defined cur n → Defined env n → SimplifiesTo o cur n k n' → eval env n' = eval env n

/-- The code violates C10: `x + y`, simplified while `x` holds 0, becomes `y`. -/
theorem C10_simplify_refuted : ¬ C10_full := by
  intro H
  have h := H true (fun v => if v = 0 then 0 else 5) (fun _ => 7)
    (.sum (.cons true (.var 0) (.cons true (.var 1) .nil)))
    (.sum (.cons true (.var 1) .nil)) 1
    (by simp [Defined, DefinedSum]) (by simp [Defined, DefinedSum]) ?_
  · norm_num [eval, evalSum] at h
  · refine ⟨?_, ?_, ?_⟩
    · intro j hj
      obtain rfl : j = 0 := by omega
      simp [simplifyRound, rounds, reduceDepth, reduceOps, twoPasses, sumReduceSubSums,
        sumReduceSubMults, elimOnes, elimOnesOps, elimZeros, sumDropZeros, dropValue, Ops.length,
        eval]
    · simp [simplifyRound, rounds, reduceDepth, reduceOps, twoPasses, sumReduceSubSums,
        sumReduceSubMults, elimOnes, elimOnesOps, elimZeros, elimZerosOps, sumDropZeros,
        dropValue, Ops.length, eval]
    · simp [simplifyRound, rounds, reduceDepth, reduceOps, twoPasses, sumReduceSubSums,
        sumReduceSubMults, elimOnes, elimOnesOps, elimZeros, elimZerosOps, sumDropZeros,
        dropValue, Ops.length, eval]

/-- C10, the part that holds: if no operand of a sum or product happens to be 0 (or 1) at the
variables' current values without being 0 (or 1) at the evaluation point, then `Simplify`
preserves definedness and value there. Missing from `C10_full`: current values that make an
operand accidentally 0 or 1. -/
theorem C10_simplify_partial (o : Bool) (cur env : Env) (n n' : Node) (k : ℕ)
    (_hcur : Defined cur n) (hs : Stable cur env n) (h : SimplifiesTo o cur n k n') :
    eval env n' = eval env n ∧ (Defined env n → Defined env n') := by
  obtain ⟨-, -, rfl⟩ := h
  have := rounds_ok o cur env n hs (k + 1)
  exact ⟨this.val, this.defd⟩

/-- C10, unconditionally at the current point: the value there never changes. -/
theorem C10_simplify_current_partial (o : Bool) (cur : Env) (n n' : Node) (k : ℕ)
    (hcur : Defined cur n) (h : SimplifiesTo o cur n k n') :
    eval cur n' = eval cur n ∧ Defined cur n' := by
  have := C10_simplify_partial o cur cur n n' k hcur (stable_self cur n) h
  exact ⟨this.1, this.2 hcur⟩

/-- Non-vacuity of `Stable`: `0*x + 1*y` at `x = 3, y = 2`, for every `env`: the operand `0*x`
is 0 everywhere, `1` is 1 everywhere. -/
example (env : Env) : Stable (fun v => if v = 0 then 3 else 2) env
    (.sum (.cons true (.mult (.cons true (.int 0) (.cons true (.var 0) .nil)))
      (.cons true (.mult (.cons true (.int 1) (.cons true (.var 1) .nil))) .nil))) := by
  norm_num [Stable, StableOps, eval, evalMult]

/-! ## C11 -/

/-- C11: `Simplify` returns on every expression and every variable values, after at most three
rounds per node; the result is determined and has no more nodes than the input. -/
theorem C11_simplify_terminates (o : Bool) (cur : Env) (n : Node) :
    ∃ k n', SimplifiesTo o cur n k n' ∧ k ≤ 3 * n.size ∧ n'.size ≤ n.size ∧
      ∀ k₂ n₂, SimplifiesTo o cur n k₂ n₂ → k₂ = k ∧ n₂ = n' := by
  classical
  have hex : ∃ k, (simplifyRound o cur (rounds o cur n k)).2 = (0, 0, 0) := by
    by_contra hc
    push Not at hc
    have := rounds_weight o cur n (n.weight + 1) fun j _ => hc j
    omega
  refine ⟨Nat.find hex, rounds o cur n (Nat.find hex + 1), ⟨fun j hj => Nat.find_min hex hj,
    Nat.find_spec hex, rfl⟩, ?_, size_rounds o cur n _, ?_⟩
  · have h1 := rounds_weight o cur n (Nat.find hex) fun j hj => Nat.find_min hex hj
    have h2 := weight_le_size n
    omega
  · rintro k₂ n₂ ⟨ha, hb, rfl⟩
    have hle := Nat.find_min' hex hb
    have : ¬ Nat.find hex < k₂ := fun hlt => ha _ hlt (Nat.find_spec hex)
    have heq : k₂ = Nat.find hex := by omega
    exact ⟨heq, by rw [heq]⟩

end B2
