import Verif.Tree.DegreeProof

/-!
# C02, C03, C07, C08: degrees
-/

namespace B2

/-! ## C02: `Degree(v)` -/

/-- C02, full statement: whatever the values `cur` of the variables when `Degree(v)` is called
and the values `env` of the other variables later, a non-negative answer `d` means that the
expression is a polynomial of degree at most `d` in `v`. -/
def C02_full : Prop :=
  ∀ (cur env : Env) (v : Var) (n : Node),
    0 ≤ degV cur v n → IsPolyInVar v env n (degV cur v n)

theorem eval_aeval_poly (p : MvPolynomial Var ℂ) (f : Var → Polynomial ℂ) (t : ℂ) :
    (MvPolynomial.aeval f p).eval t = MvPolynomial.eval (fun w => (f w).eval t) p := by
  induction p using MvPolynomial.induction_on with
  | C a => simp
  | add p q hp hq => simp [hp, hq]
  | mul_X p n hp => simp [hp]

/-- The code violates C02: `x^y` asked while `y` holds `2` has degree 2 in `x`, but with
`y = 1/2` it is a square root (`arithmetic.cpp:971-999` looks at the current value of the
exponent). -/
theorem C02_degree_refuted : ¬ C02_full := by
  intro h
  have hdeg : degV (fun _ => 2) 0 (.pow (.var 0) (.var 1)) = 2 := by
    have := powDeg_int (bd := 1) (k := 2) (by norm_num) (by norm_num)
    simpa [degV, eval] using this
  obtain ⟨p, -, hp⟩ := h (fun _ => 2) (fun _ => 1 / 2) 0 (.pow (.var 0) (.var 1))
    (by rw [hdeg]; norm_num)
  have hp' : ∀ t : ℂ, p.eval t = t ^ (1 / 2 : ℂ) := by
    intro t
    rw [← hp t]
    simp [eval]
  have hsq : p ^ 2 = Polynomial.X := by
    apply Polynomial.funext
    intro t
    rw [Polynomial.eval_pow, hp', Polynomial.eval_X, ← Complex.cpow_mul_nat]
    norm_num
  have := congrArg Polynomial.natDegree hsq
  rw [Polynomial.natDegree_pow, Polynomial.natDegree_X] at this
  omega

/-- C02 whenever the exponents of the general powers keep the value they had at the call and
those that look like integers are integers. Missing: exponents that vary, or that are within
the tolerance of an integer without being one. -/
theorem C02_degree_partial (cur env : Env) (v : Var) (n : Node)
    (he : FrozenExponents cur env n) (h : 0 ≤ degV cur v n) :
    IsPolyInVar v env n (degV cur v n) := by
  obtain ⟨p, hp, hd, -, hf⟩ := joint_poly cur env [v] n he (by simpa using h)
  refine ⟨MvPolynomial.aeval (fun w => if w = v then Polynomial.X else Polynomial.C (env w)) p,
    ?_, fun t => ?_⟩
  · have h1 : p.totalDegree ≤ p.degreeOf v := by
      have := totalDegree_le_sum (vars := [v]) (dv := fun v => (p.degreeOf v : ℤ)) p hp
        (by simp)
      simpa using this
    have h2 := MvPolynomial.aeval_natDegree_le p h1
      (fun w => if w = v then Polynomial.X else Polynomial.C (env w)) (n := 1) (fun w => by
        by_cases hw : w = v <;> simp [hw])
    have h3 := hd v (by simp)
    dsimp only at h3
    omega
  · have h1 := hf (Function.update env v t) (fun w hw => by
      rw [Function.update_of_ne (by simpa using hw)])
    dsimp only at h1
    rw [h1, eval_aeval_poly]
    congr 2
    funext w
    by_cases hw : w = v
    · subst hw; simp
    · simp [hw]

/-- `Degree(v) = 0` certifies independence of `v`. -/
theorem C02_degree_zero_partial (cur env : Env) (v : Var) (n : Node)
    (he : FrozenExponents cur env n) (h : degV cur v n = 0) (t : ℂ) :
    eval (Function.update env v t) n = eval env n := by
  obtain ⟨p, hp, hf⟩ := C02_degree_partial cur env v n he h.ge
  have h1 : p.natDegree = 0 := by omega
  have h2 := hf (env v)
  rw [Function.update_eq_self] at h2
  rw [hf t, h2, Polynomial.eq_C_of_natDegree_eq_zero h1]
  simp

/-- Non-vacuity: `(x*y)^3 / y`, polynomial of degree 3 in `x`. -/
example (env : Env) :
    IsPolyInVar 0 env (.mult (.cons true (.ipow (.mult (.cons true (.var 0)
      (.cons true (.var 1) .nil))) 3) (.cons false (.var 1) .nil))) 3 := by
  have := C02_degree_partial env env 0 (.mult (.cons true (.ipow (.mult (.cons true (.var 0)
      (.cons true (.var 1) .nil))) 3) (.cons false (.var 1) .nil)))
      (by simp [FrozenExponents, FrozenExponentsOps]) (by simp [degV, degVMult])
  simpa [degV, degVMult] using this

/-! ## C03: `Degree(group)` -/

/-- C03, full statement: a non-negative answer bounds the joint total degree. -/
def C03_full : Prop :=
  ∀ (cur env : Env) (vars : List Var) (n : Node), FrozenExponents cur env n →
    0 ≤ degG cur vars n → IsPolyOfDegreeLE vars env n (degG cur vars n)

/-- The exponential is not a polynomial function. -/
theorem exp_not_polynomial (p : Polynomial ℂ) : ¬ ∀ t : ℂ, p.eval t = -Complex.exp t := by
  intro h
  have hinf : Set.Infinite {t : ℂ | p.eval t = (Polynomial.C (-1)).eval t} := by
    apply Set.infinite_of_injective_forall_mem
      (f := fun k : ℕ => (k : ℂ) * (2 * Real.pi * Complex.I))
    · intro a b hab
      have h2 : (2 * (Real.pi : ℂ) * Complex.I) ≠ 0 := Complex.two_pi_I_ne_zero
      have := mul_right_cancel₀ h2 hab
      exact_mod_cast this
    · intro k
      have : Complex.exp ((k : ℂ) * (2 * Real.pi * Complex.I)) = 1 :=
        Complex.exp_nat_mul_two_pi_mul_I k
      simp [h, this]
  have hp := Polynomial.eq_of_infinite_eval_eq p (Polynomial.C (-1)) hinf
  have h1 := h 1
  rw [hp] at h1
  simp only [Polynomial.eval_C] at h1
  have h2 : Complex.exp 1 = 1 := by linear_combination h1
  have h3 : ((Real.exp 1 : ℝ) : ℂ) = 1 := by push_cast; exact h2
  have h4 : Real.exp 1 = 1 := by exact_mod_cast h3
  have h5 := Real.add_one_lt_exp (x := 1) (by norm_num)
  linarith

/-- `-(exp(x) + y^2)`. -/
def negExpPlusSquare : Node :=
  .neg (.sum (.cons true (.exp (.var 0)) (.cons true (.ipow (.var 1) 2) .nil)))

theorem degG_negExpPlusSquare (cur : Env) : degG cur [0, 1] negExpPlusSquare = 1 := by
  simp [negExpPlusSquare, degG, degV, degVSum, transDeg, foldUnary]

theorem negExpPlusSquare_not_poly (env : Env) (d : ℤ) :
    ¬ IsPolyOfDegreeLE [0, 1] env negExpPlusSquare d := by
  rintro ⟨p, -, -, hp⟩
  apply exp_not_polynomial (MvPolynomial.aeval (fun w => if w = 0 then Polynomial.X
    else Polynomial.C (if w = 1 then 0 else env w)) p)
  intro t
  have := hp (fun w => if w = 0 then t else if w = 1 then 0 else env w) (fun w hw => by
    simp only [List.mem_cons, List.not_mem_nil, or_false, not_or] at hw
    simp [hw])
  rw [eval_aeval_poly]
  have he : (fun w : Var => Polynomial.eval t (if w = 0 then Polynomial.X
      else Polynomial.C (if w = 1 then 0 else env w))) =
      fun w => if w = 0 then t else if w = 1 then 0 else env w := by
    funext w
    by_cases h0 : w = 0
    · simp [h0]
    · simp [h0]
  rw [he, ← this]
  simp [negExpPlusSquare, eval, evalSum]

/-- The code violates C03: `-(exp(x) + y^2)` has group degree `1` (`operator.cpp:64-70`: the
`-1` coming from `x` is overwritten by adding the degree 2 in `y`). -/
theorem C03_group_degree_refuted : ¬ C03_full := by
  intro h
  have h1 := h (fun _ => 0) (fun _ => 0) [0, 1] negExpPlusSquare
    (by simp [negExpPlusSquare, FrozenExponents, FrozenExponentsOps])
    (by rw [degG_negExpPlusSquare]; norm_num)
  exact negExpPlusSquare_not_poly _ _ h1

/-- C03 for trees with no negative per-variable degree. Missing: trees where some variable of
the group has a negative degree, masked by another variable. -/
theorem C03_group_degree_partial (cur env : Env) (vars : List Var) (n : Node)
    (he : FrozenExponents cur env n) (hv : ∀ v ∈ vars, 0 ≤ degV cur v n)
    (h : 0 ≤ degG cur vars n) :
    IsPolyOfDegreeLE vars env n (degG cur vars n) := by
  obtain ⟨p, hp, -, ht, hf⟩ := joint_poly cur env vars n he hv
  exact ⟨p, hp, ht h, hf⟩

/-- C03 without any further restriction for groups of one variable. -/
theorem C03_group_degree_single (cur env : Env) (v : Var) (n : Node)
    (he : FrozenExponents cur env n) (h : 0 ≤ degG cur [v] n) :
    IsPolyOfDegreeLE [v] env n (degG cur [v] n) :=
  C03_group_degree_partial cur env [v] n he
    (by simpa [degG_singleton] using h) h

/-- The bound is not sharp in general: `-(x+y)` is reported to have degree 2 although it is a
polynomial of degree 1 (unary operators add the per-variable degrees). -/
theorem C03_group_degree_overestimates (cur env : Env) :
    degG cur [0, 1] (.neg (.sum (.cons true (.var 0) (.cons true (.var 1) .nil)))) = 2 ∧
    IsPolyOfDegreeLE [0, 1] env
      (.neg (.sum (.cons true (.var 0) (.cons true (.var 1) .nil)))) 1 := by
  constructor
  · simp [degG, degV, degVSum, foldUnary]
  · have := C03_group_degree_partial env env [0, 1]
      (.sum (.cons true (.var 0) (.cons true (.var 1) .nil)))
      (by simp [FrozenExponents, FrozenExponentsOps])
      (by simp [degV, degVSum]) (by simp [degG, degGSum])
    obtain ⟨p, hp, hd, hf⟩ := this
    refine ⟨-p, by rwa [MvPolynomial.vars_neg], ?_, fun env' h => ?_⟩
    · rw [MvPolynomial.totalDegree_neg]
      simpa [degG, degGSum] using hd
    · rw [eval, hf env' h]; simp

theorem degG_factor (cur : Env) (vars : List Var) (hn : vars.Nodup) (f : Var × ℕ) :
    degG cur vars (factorNode f) = if f.1 ∈ vars then (f.2 : ℤ) else 0 := by
  unfold factorNode
  split_ifs with h1 h2 h2
  · simp [degG, h1, h2]
  · simp [degG, h2]
  all_goals
    rw [degG, degG_unary_sum (fun v hv => by
      simp only [degV]; split_ifs <;> simp_all)]
  · have : (vars.map fun v => degV cur v (.ipow (.var f.1) f.2)) =
        vars.map fun v => if v = f.1 then (f.2 : ℤ) else 0 := by
      apply List.map_congr_left
      intro v _
      by_cases hv : v = f.1
      · simp [degV, hv]
      · simp [degV, hv, Ne.symm hv]
    rw [this, List.sum_map_ite_eq, List.count_eq_one_of_mem hn h2]
    simp
  · apply List.sum_eq_zero
    intro x hx
    obtain ⟨v, hv, rfl⟩ := List.mem_map.mp hx
    have : f.1 ≠ v := fun h => h2 (h ▸ hv)
    simp [degV, this]

theorem degGMult_factors (cur : Env) (vars : List Var) (hn : vars.Nodup)
    (fs : List (Var × ℕ)) :
    degGMult cur vars (Ops.ofList (fs.map fun f => (true, factorNode f))) =
      (((fs.filter fun f => decide (f.1 ∈ vars)).map (·.2)).sum : ℕ) := by
  induction fs with
  | nil => simp [Ops.ofList, degGMult]
  | cons f fs ih =>
    simp only [List.map_cons, Ops.ofList, degGMult, ih, degG_factor cur vars hn]
    by_cases h : f.1 ∈ vars
    · simp only [h, if_true, decide_true, List.filter_cons_of_pos, List.map_cons, List.sum_cons]
      rw [if_neg (by omega), if_neg (by simp), if_neg (by omega)]
      push_cast; ring
    · simp [h]

theorem degG_mono (cur : Env) (vars : List Var) (hn : vars.Nodup) (m : Mono) :
    degG cur vars m.node = m.degree vars := by
  rw [Mono.node, degG, degGMult, degGMult_factors cur vars hn]
  simp [degG, Mono.degree]

/-- C03, exactness on sums of monomials: `Degree(group)` of a signed sum of monomials is the
largest monomial degree in the group. -/
theorem C03_sum_of_monomials_exact (cur : Env) (vars : List Var) (hn : vars.Nodup)
    (ms : List (Bool × Mono)) : degG cur vars (sumOfMonos ms) = maxDegree vars ms := by
  rw [sumOfMonos, degG]
  induction ms with
  | nil => simp [Ops.ofList, degGSum, maxDegree]
  | cons m ms ih =>
    simp only [List.map_cons, Ops.ofList, degGSum, ih, degG_mono cur vars hn, maxDegree,
      List.foldr_cons]
    rw [if_neg (by omega), if_neg (by omega)]
    push_cast
    rfl

/-- Non-vacuity: `3 x^2 y z - y^3` in the group `x, y`: degree 3, and total degree at most 3. -/
example (cur : Env) : degG cur [0, 1] (sumOfMonos
    [(true, ⟨3, [(0, 2), (1, 1), (2, 1)]⟩), (false, ⟨1, [(1, 3)]⟩)]) = 3 := by
  rw [C03_sum_of_monomials_exact cur [0, 1] (by decide)]
  rfl

example (env : Env) : IsPolyOfDegreeLE [0, 1] env (.mult (.cons true (.var 0) (.cons true
    (.ipow (.sum (.cons true (.var 1) (.cons true (.int 1) .nil))) 3) .nil))) 4 := by
  have := C03_group_degree_partial env env [0, 1] (.mult (.cons true (.var 0) (.cons true
    (.ipow (.sum (.cons true (.var 1) (.cons true (.int 1) .nil))) 3) .nil)))
    (by simp [FrozenExponents, FrozenExponentsOps]) (by simp [degV, degVMult, degVSum])
    (by simp [degG, degGMult, foldUnary, degV, degVSum])
  simpa [degG, degGMult, foldUnary, degV, degVSum] using this

/-! ## C07: `IsPolynomial(group)` -/

/-- C07, full statement. -/
def C07_full : Prop :=
  ∀ (cur env : Env) (vars : List Var) (n : Node), FrozenExponents cur env n →
    isPoly cur vars n → ∃ d, IsPolyOfDegreeLE vars env n d

/-- The code violates C07: `-(exp(x) + y^2)` is accepted as polynomial in `x, y`. -/
theorem C07_isPolynomial_refuted : ¬ C07_full := by
  intro h
  obtain ⟨d, hd⟩ := h (fun _ => 0) (fun _ => 0) [0, 1] negExpPlusSquare
    (by simp [negExpPlusSquare, FrozenExponents, FrozenExponentsOps])
    (by rw [isPoly, degG_negExpPlusSquare]; norm_num)
  exact negExpPlusSquare_not_poly _ _ hd

/-- C07 for groups of one variable. -/
theorem C07_isPolynomial_single (cur env : Env) (v : Var) (n : Node)
    (he : FrozenExponents cur env n) (h : isPoly cur [v] n) :
    IsPolyOfDegreeLE [v] env n (degG cur [v] n) :=
  C03_group_degree_single cur env v n he h

/-- C07 for larger groups when the tree is also accepted as polynomial in each variable
separately. Missing: acceptance in the group alone is not enough. -/
theorem C07_isPolynomial_partial (cur env : Env) (vars : List Var) (n : Node)
    (he : FrozenExponents cur env n) (hv : ∀ v ∈ vars, isPoly cur [v] n)
    (h : isPoly cur vars n) : IsPolyOfDegreeLE vars env n (degG cur vars n) :=
  C03_group_degree_partial cur env vars n he
    (fun v hv' => by simpa [isPoly, degG_singleton] using hv v hv') h

/-- Non-vacuity: `x*y - 1` is accepted in the group and in each variable. -/
example (cur : Env) : isPoly cur [0, 1] (.sum (.cons true (.mult (.cons true (.var 0)
    (.cons true (.var 1) .nil))) (.cons false (.int 1) .nil))) := by
  simp [isPoly, degG, degGSum, degGMult]

/-! ## C08: `MultiDegree` -/

/-- C08, full statement. -/
def C08_full : Prop :=
  ∀ (cur : Env) (vars : List Var) (n : Node),
    multiDeg cur vars n = vars.map fun v => degV cur v n

/-- The code violates C08: for `1/x`, `Degree(x)` is `-1` but `MultiDegree` lists `1`
(`arithmetic.cpp:815-828` ignores the division flag). -/
theorem C08_multidegree_refuted : ¬ C08_full := by
  intro h
  have := h (fun _ => 0) [0] (.mult (.cons true (.int 1) (.cons false (.var 0) .nil)))
  simp [multiDeg, multiDegMult, degV, degVMult] at this

/-- C08 when no variable of the group has negative degree; in particular the list has one entry
per variable. Missing: non-polynomial expressions, where sums and products hide the -1. -/
theorem C08_multidegree_partial (cur : Env) (vars : List Var) (n : Node)
    (h : ∀ v ∈ vars, 0 ≤ degV cur v n) :
    multiDeg cur vars n = vars.map fun v => degV cur v n :=
  multiDeg_eq cur vars n h

/-- Non-vacuity: `x^2*y + y^3`. -/
example (cur : Env) : multiDeg cur [0, 1] (.sum (.cons true (.mult (.cons true (.ipow (.var 0) 2)
    (.cons true (.var 1) .nil))) (.cons true (.ipow (.var 1) 3) .nil))) = [2, 3] := by
  rw [C08_multidegree_partial _ _ _ (by simp [degV, degVSum, degVMult])]
  simp [degV, degVSum, degVMult]

end B2
