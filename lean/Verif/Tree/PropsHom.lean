import Verif.Tree.HomProof2

/-!
# C04, C05, C06: homogenization
-/

namespace B2

/-! ## C04 -/

/-- C04: after a successful `Homogenize(vars, h)`, evaluating with `h = 1` gives the original
value, whatever the values `cur` of the variables were at the time of the call. -/
theorem C04_homogenize_dehomogenize (cur env : Env) (vars : List Var) (h : Var) (n n' : Node)
    (ho : hom cur vars h n = some n') (h1 : env h = 1) : eval env n' = eval env n :=
  eval_hom h1 n n' ho

/-- Non-vacuity: `x^2*y + x + 1` becomes `x^2*y + h^2*x + h^3*1`. -/
example (cur : Env) :
    hom cur [0, 1] 2 (.sum (.cons true (.mult (.cons true (.ipow (.var 0) 2)
      (.cons true (.var 1) .nil))) (.cons true (.var 0) (.cons true (.int 1) .nil)))) =
    some (.sum (.cons true (.mult (.cons true (.ipow (.var 0) 2) (.cons true (.var 1) .nil)))
      (.cons true (.mult (.cons true (.ipow (.var 2) 2) (.cons true (.var 0) .nil)))
      (.cons true (.mult (.cons true (.ipow (.var 2) 3) (.cons true (.int 1) .nil))) .nil)))) := by
  simp [hom, homOps, allNonneg, degG, degGMult, degV, foldUnary, padOps, padTerm, maxDeg]

/-! ## C05 -/

/-- C05, full statement: for every polynomial expression (non-negative degree in the group and
in each variable), a successful `Homogenize(vars, h)` with a fresh `h` gives a function that is
homogeneous in `vars` and `h`, of the degree reported before. -/
def C05_full : Prop :=
  ∀ (cur : Env) (vars : List Var) (h : Var) (n n' : Node), h ∉ vars → h ∉ n.vars →
    (∀ env, FrozenExponents cur env n) → (∀ v ∈ vars, 0 ≤ degV cur v n) →
    hom cur vars h n = some n' → IsHomogeneousFun (h :: vars) n' (degG cur vars n)

/-- The code violates C05: `-(x+y) + 1` is turned into `-(x+y) + h^2`. -/
theorem C05_homogenize_refuted : ¬ C05_full := by
  intro H
  have h1 := H (fun _ => 0) [0, 1] 2
    (.sum (.cons true (.neg (.sum (.cons true (.var 0) (.cons true (.var 1) .nil))))
      (.cons true (.int 1) .nil)))
    (.sum (.cons true (.neg (.sum (.cons true (.var 0) (.cons true (.var 1) .nil))))
      (.cons true (.mult (.cons true (.ipow (.var 2) 2) (.cons true (.int 1) .nil))) .nil)))
    (by simp) (by simp [Node.vars, Ops.vars]) (by simp [FrozenExponents, FrozenExponentsOps])
    (by simp [degV, degVSum])
    (by simp [hom, homOps, allNonneg, degG, degV, degVSum, foldUnary, padOps, padTerm, maxDeg])
  have h2 := h1 2 (fun w => if w = 0 then 1 else 0) (by norm_num)
  simp [eval, evalSum, evalMult, scale, degG, degGSum, degV, degVSum, foldUnary] at h2
  norm_num at h2

/-- C05 when the group-degree rule of negations and powers is right for their operands
(`ExactUnary`). Missing: negations and powers of sums mixing variables of the group, where the
claim is false. -/
theorem C05_homogenize_partial (cur : Env) (vars : List Var) (h : Var) (n n' : Node)
    (hv : h ∉ vars) (hn : h ∉ n.vars) (hf : ∀ env, FrozenExponents cur env n)
    (hd : ∀ v ∈ vars, 0 ≤ degV cur v n) (he : ExactUnary cur vars n)
    (ho : hom cur vars h n = some n') : IsHomogeneousFun (h :: vars) n' (degG cur vars n) :=
  fun _ env hc => hom_homogeneous hv hc n n' ho hn (hf env) he hd

theorem exactUnary_single (cur : Env) (v : Var) (n : Node) : ExactUnary cur [v] n := by
  induction n using Node.rec (motive_2 := fun ops => ExactUnaryOps cur [v] ops) with
  | nil => trivial
  | cons f n r ih1 ih2 => exact ⟨ih1, ih2⟩
  | pow b e ihb _ => exact ⟨ihb, by simp [degG_singleton]⟩
  | neg n ih => exact ⟨ih, by simp [degG_singleton]⟩
  | ipow n k ih => exact ⟨ih, by simp [degG_singleton]⟩
  | sum ops ih => exact ih
  | mult ops ih => exact ih
  | int | float | rat | special | var => trivial
  | _ n ih => exact ih

/-- C05 for groups of one variable, for every polynomial expression. -/
theorem C05_homogenize_single (cur : Env) (v h : Var) (n n' : Node)
    (hv : h ≠ v) (hn : h ∉ n.vars) (hf : ∀ env, FrozenExponents cur env n)
    (hd : 0 ≤ degV cur v n) (ho : hom cur [v] h n = some n') :
    IsHomogeneousFun [h, v] n' (degV cur v n) := by
  have := C05_homogenize_partial cur [v] h n n' (by simpa using hv) hn hf (by simpa using hd)
    (exactUnary_single cur v n) ho
  rwa [degG_singleton] at this

/-- Non-vacuity: `(x*y)^2 + x` in the group `x, y`, homogenized by `h`, is homogeneous of
degree 4. -/
example (cur : Env) : IsHomogeneousFun [2, 0, 1]
    (.sum (.cons true (.ipow (.mult (.cons true (.var 0) (.cons true (.var 1) .nil))) 2)
      (.cons true (.mult (.cons true (.ipow (.var 2) 3) (.cons true (.var 0) .nil))) .nil))) 4 := by
  have := C05_homogenize_partial cur [0, 1] 2
    (.sum (.cons true (.ipow (.mult (.cons true (.var 0) (.cons true (.var 1) .nil))) 2)
      (.cons true (.var 0) .nil)))
    (.sum (.cons true (.ipow (.mult (.cons true (.var 0) (.cons true (.var 1) .nil))) 2)
      (.cons true (.mult (.cons true (.ipow (.var 2) 3) (.cons true (.var 0) .nil))) .nil)))
    (by simp) (by simp [Node.vars, Ops.vars]) (by simp [FrozenExponents, FrozenExponentsOps])
    (by simp [degV, degVSum, degVMult])
    (by simp [ExactUnary, ExactUnaryOps, degG, degGMult, degV, degVMult])
    (by simp [hom, homOps, allNonneg, degG, degV, degVSum, degVMult, foldUnary, padOps, padTerm,
      maxDeg])
  simpa [degG, degGSum, degGMult, degV, degVMult, foldUnary] using this

/-! ## C06 -/

/-- C06, full statement: `IsHomogeneous(vars) = true` on a polynomial expression means that
scaling the group multiplies the value by `λ^Degree(vars)`. -/
def C06_full : Prop :=
  ∀ (cur : Env) (vars : List Var) (n : Node), (∀ env, FrozenExponents cur env n) →
    (∀ v ∈ vars, 0 ≤ degV cur v n) → isHom cur vars n →
    IsHomogeneousFun vars n (degG cur vars n)

/-- The code violates C06: `(x+y)^2 + x^4` is reported homogeneous (of degree 4). -/
theorem C06_isHomogeneous_refuted : ¬ C06_full := by
  intro H
  have h1 := H (fun _ => 0) [0, 1]
    (.sum (.cons true (.ipow (.sum (.cons true (.var 0) (.cons true (.var 1) .nil))) 2)
      (.cons true (.ipow (.var 0) 4) .nil)))
    (by simp [FrozenExponents, FrozenExponentsOps]) (by simp [degV, degVSum])
    (by simp [isHom, isHomOps, sumDegreesAgree, allDegreesEq, degG, degV, degVSum, foldUnary])
  have h2 := h1 2 (fun w => if w = 1 then 1 else 0) (by norm_num)
  simp [eval, evalSum, scale, degG, degGSum, degV, degVSum, foldUnary] at h2
  norm_num at h2

/-- C06 under `ExactUnary`. Missing: powers of sums mixing variables of the group. -/
theorem C06_isHomogeneous_partial (cur : Env) (vars : List Var) (n : Node)
    (hf : ∀ env, FrozenExponents cur env n) (hd : ∀ v ∈ vars, 0 ≤ degV cur v n)
    (he : ExactUnary cur vars n) (hi : isHom cur vars n) :
    IsHomogeneousFun vars n (degG cur vars n) :=
  fun _ env hc => isHom_homogeneous hc n hi (hf env) he hd

/-- C06 for groups of one variable. -/
theorem C06_isHomogeneous_single (cur : Env) (v : Var) (n : Node)
    (hf : ∀ env, FrozenExponents cur env n) (hd : 0 ≤ degV cur v n) (hi : isHom cur [v] n) :
    IsHomogeneousFun [v] n (degV cur v n) := by
  have := C06_isHomogeneous_partial cur [v] n hf (by simpa using hd) (exactUnary_single cur v n) hi
  rwa [degG_singleton] at this

/-- Also violated without polynomiality: `1/x^2` is reported homogeneous, of degree `-1`. -/
theorem C06_quotient_degree (cur : Env) :
    isHom cur [0] (.mult (.cons true (.int 1) (.cons false (.ipow (.var 0) 2) .nil))) ∧
    degG cur [0] (.mult (.cons true (.int 1) (.cons false (.ipow (.var 0) 2) .nil))) = -1 ∧
    ¬ IsHomogeneousFun [0]
      (.mult (.cons true (.int 1) (.cons false (.ipow (.var 0) 2) .nil))) (-1) := by
  refine ⟨by simp [isHom, isHomOps], by simp [degG, degGMult, degV, foldUnary], fun H => ?_⟩
  have := H 2 (fun _ => 1) (by norm_num)
  simp [eval, evalMult, scale] at this
  norm_num at this

/-- Non-vacuity: `x*y - z^2` in the group `x, y, z`. -/
example (cur : Env) : IsHomogeneousFun [0, 1, 2]
    (.sum (.cons true (.mult (.cons true (.var 0) (.cons true (.var 1) .nil)))
      (.cons false (.ipow (.var 2) 2) .nil))) 2 := by
  have := C06_isHomogeneous_partial cur [0, 1, 2]
    (.sum (.cons true (.mult (.cons true (.var 0) (.cons true (.var 1) .nil)))
      (.cons false (.ipow (.var 2) 2) .nil)))
    (by simp [FrozenExponents, FrozenExponentsOps]) (by simp [degV, degVSum, degVMult])
    (by simp [ExactUnary, ExactUnaryOps, degG, degV])
    (by simp [isHom, isHomOps, sumDegreesAgree, allDegreesEq, degG, degGMult, degV, foldUnary])
  simpa [degG, degGSum, degGMult, degV, foldUnary] using this

end B2
