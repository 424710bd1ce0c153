import Verif.Tree.Generic
import Verif.Tree.PropsSimplify
import Verif.Tree.DegreeProof

/-!
# Property C174: simplifying an expression in variables that hold random values

A new `Variable` holds a random point of the unit circle (`symbols/variable.cpp:37-47`, `SetToRandUnit` at `86-92`), and
`System::SimplifyDerivatives` sets all variables to such values for the time of the simplification (`system.cpp:1077-1136`).
Simplified: the values are exact points of the circle, evaluation is exact, and the angles have a density.
-/

namespace B2.Fresh

open B2 B2.Generic MeasureTheory Filter

/-! ### Expressions -/

mutual
/-- Built from numbers, variables, sums, products, negation, non-negative integer powers, `exp`, `sin`, `cos`, named
functions, and arbitrary constant expressions; nothing but constants is divided by. -/
def EntireTree : Node → Prop
  | .int _ | .float _ _ | .rat _ _ | .special _ | .var _ => True
  | .sum ops => EntireOps ops
  | .mult ops => EntireFactors ops
  | .neg n | .exp n | .sin n | .cos n | .fn n => EntireTree n
  | .ipow n k => EntireTree n ∧ 0 ≤ k
  | .pow b e => b.vars = [] ∧ e.vars = []
  | .sqrt n | .log n | .tan n | .asin n | .acos n | .atan n => n.vars = []
/-- Summands. -/
def EntireOps : Ops → Prop
  | .nil => True
  | .cons _ n r => EntireTree n ∧ EntireOps r
/-- Factors. -/
def EntireFactors : Ops → Prop
  | .nil => True
  | .cons f n r => EntireTree n ∧ (f = false → n.vars = []) ∧ EntireFactors r
end

mutual
/-- The same, with arbitrary divisions and integer powers outside `exp`, `sin` and `cos`. -/
def MeroTree : Node → Prop
  | .int _ | .float _ _ | .rat _ _ | .special _ | .var _ => True
  | .sum ops => MeroOps ops
  | .mult ops => MeroOps ops
  | .neg n | .fn n | .ipow n _ => MeroTree n
  | .exp n | .sin n | .cos n => EntireTree n
  | .pow b e => b.vars = [] ∧ e.vars = []
  | .sqrt n | .log n | .tan n | .asin n | .acos n | .atan n => n.vars = []
/-- Operands. -/
def MeroOps : Ops → Prop
  | .nil => True
  | .cons _ n r => MeroTree n ∧ MeroOps r
end

/-- The values of the variables `0, …, m-1`; the others are irrelevant. -/
noncomputable def envOf {m : ℕ} (z : Fin m → ℂ) : Env := fun v => if h : v < m then z ⟨v, h⟩ else 0

/-- The values after the variables were created, `symbols/variable.cpp:37-47`, with the given angles. -/
noncomputable def fresh {m : ℕ} (θ : Fin m → ℝ) : Env := envOf (onTorus θ)

/-! ### Constants -/

theorem eval_const {n : Node} (h : n.vars = []) (e e' : Env) : eval e n = eval e' n :=
  eval_congr n fun w hw => by rw [h] at hw; cases hw

theorem defined_congr {e e' : Env} (n : Node) : (∀ w ∈ n.vars, e' w = e w) → (Defined e' n ↔ Defined e n) := by
  induction n using Node.rec (motive_2 := fun ops => (∀ w ∈ ops.vars, e' w = e w) →
      (DefinedSum e' ops ↔ DefinedSum e ops) ∧ (DefinedMult e' ops ↔ DefinedMult e ops)) with
  | nil => simp [DefinedSum, DefinedMult]
  | cons f n r ih1 ih2 h =>
    simp only [Ops.vars, List.mem_append] at h
    have h1 := ih1 fun w hw => h w (Or.inl hw)
    have h2 := ih2 fun w hw => h w (Or.inr hw)
    have h3 := eval_congr n fun w hw => h w (Or.inl hw)
    simp only [DefinedSum, DefinedMult, h1, h2, h3, and_self]
  | sum ops ih => intro h; exact (ih h).1
  | mult ops ih => intro h; exact (ih h).2
  | pow b x ihb ihx =>
    intro h
    simp only [Node.vars, List.mem_append] at h
    simp only [Defined, ihb fun w hw => h w (Or.inl hw), ihx fun w hw => h w (Or.inr hw)]
  | ipow n k ih => intro h; simp only [Defined, ih h, eval_congr n h]
  | log n ih => intro h; simp only [Defined, ih h, eval_congr n h]
  | int => intro _; simp [Defined]
  | float => intro _; simp [Defined]
  | rat => intro _; simp [Defined]
  | special => intro _; simp [Defined]
  | var => intro _; simp [Defined]
  | neg n ih | sqrt n ih | exp n ih | sin n ih | cos n ih | tan n ih | asin n ih | acos n ih | atan n ih | fn n ih =>
    intro h; simp only [Defined]; exact ih h

/-! ### Entire and meromorphic functions -/

variable {m : ℕ}

theorem entire_diff (n : Node) : EntireTree n → Differentiable ℂ fun z : Fin m → ℂ => eval (envOf z) n := by
  have hconst : ∀ n : Node, n.vars = [] → Differentiable ℂ fun z : Fin m → ℂ => eval (envOf z) n := by
    intro n hn
    have : (fun z : Fin m → ℂ => eval (envOf z) n) = fun _ => eval (fun _ => 0) n :=
      funext fun z => eval_const hn _ _
    rw [this]
    exact differentiable_const _
  induction n using Node.rec (motive_2 := fun ops =>
      (EntireOps ops → Differentiable ℂ fun z : Fin m → ℂ => evalSum (envOf z) ops) ∧
      (EntireFactors ops → Differentiable ℂ fun z : Fin m → ℂ => evalMult (envOf z) ops)) with
  | nil =>
    simp only [evalSum, evalMult]
    exact ⟨fun _ => differentiable_const _, fun _ => differentiable_const _⟩
  | cons f n r ih1 ih2 =>
    constructor
    · intro h
      have a := ih1 h.1
      have b := ih2.1 h.2
      simp only [evalSum]
      cases f
      · simp only [Bool.false_eq_true, if_false]; exact a.neg.add b
      · simp only [if_true]; exact a.add b
    · intro h
      have b := ih2.2 h.2.2
      simp only [evalMult]
      cases f
      · simp only [Bool.false_eq_true, if_false]
        have : (fun z : Fin m → ℂ => (eval (envOf z) n)⁻¹ * evalMult (envOf z) r) =
            fun z => (eval (fun _ => 0) n)⁻¹ * evalMult (envOf z) r :=
          funext fun z => by rw [eval_const (h.2.1 rfl) _ (fun _ => 0)]
        rw [this]
        exact b.const_mul _
      · simp only [if_true]; exact (ih1 h.1).mul b
  | sum ops ih => intro h; simp only [eval]; exact ih.1 h
  | mult ops ih => intro h; simp only [eval]; exact ih.2 h
  | neg n ih => intro h; simp only [eval]; exact (ih h).neg
  | exp n ih => intro h; simp only [eval]; exact (ih h).cexp
  | sin n ih => intro h; simp only [eval]; exact (ih h).csin
  | cos n ih => intro h; simp only [eval]; exact (ih h).ccos
  | fn n ih => intro h; simp only [eval]; exact ih h
  | ipow n k ih =>
    intro h
    obtain ⟨j, rfl⟩ := Int.eq_ofNat_of_zero_le h.2
    simp only [eval, Int.ofNat_eq_natCast, zpow_natCast]
    exact (ih h.1).pow j
  | pow b e _ _ => intro h; exact hconst (.pow b e) (by simp [Node.vars, h.1, h.2])
  | sqrt n _ => intro h; exact hconst (.sqrt n) h
  | log n _ => intro h; exact hconst (.log n) h
  | tan n _ => intro h; exact hconst (.tan n) h
  | asin n _ => intro h; exact hconst (.asin n) h
  | acos n _ => intro h; exact hconst (.acos n) h
  | atan n _ => intro h; exact hconst (.atan n) h
  | var v =>
    intro _
    simp only [eval, envOf]
    by_cases hv : v < m
    · simp only [dif_pos hv]; fun_prop
    · simp only [dif_neg hv]; exact differentiable_const _
  | int z => intro _; simp only [eval]; exact differentiable_const _
  | float a b => intro _; simp only [eval]; exact differentiable_const _
  | rat a b => intro _; simp only [eval]; exact differentiable_const _
  | special s => intro _; cases s <;> (simp only [eval]; exact differentiable_const _)

theorem entire_mero (n : Node) : EntireTree n → MeroTree n := by
  induction n using Node.rec (motive_2 := fun ops => (EntireOps ops ∨ EntireFactors ops) → MeroOps ops) with
  | nil => trivial
  | cons f n r ih1 ih2 h =>
    rcases h with h | h
    · exact ⟨ih1 h.1, ih2 (Or.inl h.2)⟩
    · exact ⟨ih1 h.1, ih2 (Or.inr h.2.2)⟩
  | sum ops ih => intro h; exact ih (Or.inl h)
  | mult ops ih => intro h; exact ih (Or.inr h)
  | neg n ih => intro h; exact ih h
  | fn n ih => intro h; exact ih h
  | ipow n k ih => intro h; exact ih h.1
  | exp n _ => intro h; exact h
  | sin n _ => intro h; exact h
  | cos n _ => intro h; exact h
  | _ => intro h; exact h

/-- A quotient of entire functions, defined where the expression is. -/
def Quot (D : (Fin m → ℂ) → Prop) (f : (Fin m → ℂ) → ℂ) : Prop :=
  ∃ P Q : (Fin m → ℂ) → ℂ, Differentiable ℂ P ∧ Differentiable ℂ Q ∧
    ∀ z, (D z ↔ Q z ≠ 0) ∧ (Q z ≠ 0 → f z = P z / Q z)

theorem quot_entire {D : (Fin m → ℂ) → Prop} {f g : (Fin m → ℂ) → ℂ} (h : Quot D f) (hg : Differentiable ℂ g) :
    Quot D g := by
  obtain ⟨P, Q, hP, hQ, h⟩ := h
  refine ⟨fun z => g z * Q z, Q, hg.mul hQ, hQ, fun z => ⟨(h z).1, fun hz => ?_⟩⟩
  rw [mul_div_assoc, div_self hz, mul_one]

theorem quot_const {D : (Fin m → ℂ) → Prop} {f : (Fin m → ℂ) → ℂ} (hD : ∀ z z', D z ↔ D z') (hf : ∀ z z', f z = f z') :
    Quot D f := by
  by_cases h : D 0
  · exact ⟨fun _ => f 0, fun _ => 1, differentiable_const _, differentiable_const _, fun z =>
      ⟨by simp [hD z 0, h], fun _ => by rw [div_one]; exact hf z 0⟩⟩
  · exact ⟨fun _ => 0, fun _ => 0, differentiable_const _, differentiable_const _, fun z =>
      ⟨by simp [hD z 0, h], fun hz => absurd rfl hz⟩⟩

theorem quot_of_entire {f : (Fin m → ℂ) → ℂ} (hf : Differentiable ℂ f) : Quot (fun _ => True) f :=
  ⟨f, fun _ => 1, hf, differentiable_const _, fun z => ⟨by simp, fun _ => by rw [div_one]⟩⟩

theorem quot_neg {D : (Fin m → ℂ) → Prop} {f : (Fin m → ℂ) → ℂ} (h : Quot D f) : Quot D fun z => -f z := by
  obtain ⟨P, Q, hP, hQ, h⟩ := h
  exact ⟨fun z => -P z, Q, hP.neg, hQ, fun z => ⟨(h z).1, fun hz => by beta_reduce; rw [(h z).2 hz]; ring⟩⟩

theorem quot_add {D E : (Fin m → ℂ) → Prop} {f g : (Fin m → ℂ) → ℂ} (h : Quot D f) (h' : Quot E g) :
    Quot (fun z => D z ∧ E z) fun z => f z + g z := by
  obtain ⟨P, Q, hP, hQ, h⟩ := h
  obtain ⟨P', Q', hP', hQ', h'⟩ := h'
  refine ⟨fun z => P z * Q' z + P' z * Q z, fun z => Q z * Q' z, (hP.mul hQ').add (hP'.mul hQ), hQ.mul hQ', fun z =>
    ⟨by beta_reduce; rw [(h z).1, (h' z).1, mul_ne_zero_iff], fun hz => ?_⟩⟩
  obtain ⟨a, b⟩ := mul_ne_zero_iff.1 hz
  beta_reduce
  rw [(h z).2 a, (h' z).2 b]
  field_simp

theorem quot_mul {D E : (Fin m → ℂ) → Prop} {f g : (Fin m → ℂ) → ℂ} (h : Quot D f) (h' : Quot E g) :
    Quot (fun z => D z ∧ E z) fun z => f z * g z := by
  obtain ⟨P, Q, hP, hQ, h⟩ := h
  obtain ⟨P', Q', hP', hQ', h'⟩ := h'
  refine ⟨fun z => P z * P' z, fun z => Q z * Q' z, hP.mul hP', hQ.mul hQ', fun z =>
    ⟨by beta_reduce; rw [(h z).1, (h' z).1, mul_ne_zero_iff], fun hz => ?_⟩⟩
  obtain ⟨a, b⟩ := mul_ne_zero_iff.1 hz
  beta_reduce
  rw [(h z).2 a, (h' z).2 b]
  field_simp

theorem quot_inv {D : (Fin m → ℂ) → Prop} {f : (Fin m → ℂ) → ℂ} (h : Quot D f) :
    Quot (fun z => D z ∧ f z ≠ 0) fun z => (f z)⁻¹ := by
  obtain ⟨P, Q, hP, hQ, h⟩ := h
  refine ⟨fun z => Q z * Q z, fun z => P z * Q z, hQ.mul hQ, hP.mul hQ, fun z => ⟨?_, fun hz => ?_⟩⟩
  · beta_reduce
    rw [(h z).1, mul_ne_zero_iff]
    constructor
    · rintro ⟨a, b⟩
      rw [(h z).2 a] at b
      exact ⟨fun e => b (by rw [e, zero_div]), a⟩
    · rintro ⟨a, b⟩
      refine ⟨b, ?_⟩
      rw [(h z).2 b]
      exact div_ne_zero a b
  · obtain ⟨a, b⟩ := mul_ne_zero_iff.1 hz
    beta_reduce
    rw [(h z).2 b]
    field_simp

theorem quot_pow {D : (Fin m → ℂ) → Prop} {f : (Fin m → ℂ) → ℂ} (h : Quot D f) (k : ℕ) : Quot D fun z => f z ^ k := by
  induction k with
  | zero =>
    simp only [pow_zero]
    exact quot_entire h (differentiable_const _)
  | succ k ih =>
    have := quot_mul ih h
    simp only [and_self] at this
    simpa only [pow_succ] using this

theorem quot_congr {D E : (Fin m → ℂ) → Prop} {f : (Fin m → ℂ) → ℂ} (h : Quot D f) (hd : ∀ z, E z ↔ D z) : Quot E f := by
  obtain ⟨P, Q, hP, hQ, h⟩ := h
  exact ⟨P, Q, hP, hQ, fun z => ⟨(hd z).trans (h z).1, (h z).2⟩⟩

theorem mero_quot (n : Node) : MeroTree n →
    Quot (fun z : Fin m → ℂ => Defined (envOf z) n) fun z => eval (envOf z) n := by
  have hconst : ∀ n : Node, n.vars = [] →
      Quot (fun z : Fin m → ℂ => Defined (envOf z) n) fun z => eval (envOf z) n := by
    intro n hn
    exact quot_const (fun z z' => defined_congr n fun w hw => by rw [hn] at hw; cases hw) fun z z' => eval_const hn _ _
  induction n using Node.rec (motive_2 := fun ops => MeroOps ops →
      (Quot (fun z : Fin m → ℂ => DefinedSum (envOf z) ops) fun z => evalSum (envOf z) ops) ∧
      (Quot (fun z : Fin m → ℂ => DefinedMult (envOf z) ops) fun z => evalMult (envOf z) ops)) with
  | nil =>
    simp only [evalSum, evalMult, DefinedSum, DefinedMult]
    exact ⟨quot_of_entire (differentiable_const _), quot_of_entire (differentiable_const _)⟩
  | cons f n r ih1 ih2 h =>
    have a := ih1 h.1
    obtain ⟨b, c⟩ := ih2 h.2
    simp only [evalSum, evalMult, DefinedSum, DefinedMult]
    cases f
    · simp only [Bool.false_eq_true, if_false, forall_const]
      exact ⟨quot_add (quot_neg a) b, quot_congr (quot_mul (quot_inv a) c) fun z => by rw [and_assoc]⟩
    · simp only [if_true, Bool.true_eq_false, false_implies, true_and]
      exact ⟨quot_add a b, quot_mul a c⟩
  | sum ops ih => intro h; simp only [eval, Defined]; exact (ih h).1
  | mult ops ih => intro h; simp only [eval, Defined]; exact (ih h).2
  | neg n ih => intro h; simp only [eval, Defined]; exact quot_neg (ih h)
  | fn n ih => intro h; simp only [eval, Defined]; exact ih h
  | ipow n k ih =>
    intro h
    simp only [eval, Defined]
    by_cases hk : k < 0
    · obtain ⟨j, rfl⟩ : ∃ j : ℕ, k = -(j : ℤ) := ⟨k.natAbs, by omega⟩
      simp only [zpow_neg, zpow_natCast, ← inv_pow]
      exact quot_congr (quot_pow (quot_inv (ih h)) j) fun z => by simp only [hk, forall_const]
    · obtain ⟨j, rfl⟩ := Int.eq_ofNat_of_zero_le (not_lt.1 hk)
      simp only [Int.ofNat_eq_natCast, zpow_natCast]
      exact quot_congr (quot_pow (ih h) j) fun z => by
        simp only [hk, false_implies, and_true]
  | exp n ih =>
    intro h
    exact quot_entire (ih (entire_mero n h)) (entire_diff (.exp n) h)
  | sin n ih =>
    intro h
    exact quot_entire (ih (entire_mero n h)) (entire_diff (.sin n) h)
  | cos n ih =>
    intro h
    exact quot_entire (ih (entire_mero n h)) (entire_diff (.cos n) h)
  | pow b e _ _ => intro h; exact hconst (.pow b e) (by simp [Node.vars, h.1, h.2])
  | sqrt n _ => intro h; exact hconst (.sqrt n) h
  | log n _ => intro h; exact hconst (.log n) h
  | tan n _ => intro h; exact hconst (.tan n) h
  | asin n _ => intro h; exact hconst (.asin n) h
  | acos n _ => intro h; exact hconst (.acos n) h
  | atan n _ => intro h; exact hconst (.atan n) h
  | var v => intro h; exact quot_of_entire (entire_diff (.var v) h)
  | int z => intro h; exact quot_of_entire (entire_diff (.int z) h)
  | float a b => intro h; exact quot_of_entire (entire_diff (.float a b) h)
  | rat a b => intro h; exact quot_of_entire (entire_diff (.rat a b) h)
  | special s => intro h; exact quot_of_entire (entire_diff (.special s) h)

/-! ### Accidental values have probability zero -/

theorem ae_or {f : (Fin m → ℂ) → ℂ} (hf : Differentiable ℂ f) :
    ∀ᵐ θ : Fin m → ℝ, f (onTorus θ) = 0 → ∀ z, f z = 0 := by
  by_cases h : ∀ z, f z = 0
  · exact Eventually.of_forall fun _ _ => h
  · push Not at h
    obtain ⟨w, hw⟩ := h
    filter_upwards [ae_ne hf hw] with θ hθ h0
    exact absurd h0 hθ

/-- Almost surely an expression is defined at random values unless it is defined nowhere, and has a value `c` there only if
it has it wherever it is defined. -/
theorem ae_value {D : (Fin m → ℂ) → Prop} {f : (Fin m → ℂ) → ℂ} (h : Quot D f) (c : ℂ) :
    ∀ᵐ θ : Fin m → ℝ, (D (onTorus θ) ∨ ∀ z, ¬ D z) ∧ (D (onTorus θ) → f (onTorus θ) = c → ∀ z, D z → f z = c) := by
  obtain ⟨P, Q, hP, hQ, h⟩ := h
  filter_upwards [ae_or hQ, ae_or (hP.sub (hQ.const_mul c))] with θ h1 h2
  refine ⟨?_, ?_⟩
  · by_cases h0 : Q (onTorus θ) = 0
    · right
      intro z hz
      exact (h z).1.1 hz (h1 h0 z)
    · exact Or.inl ((h _).1.2 h0)
  · intro hd hv z hz
    have q0 := (h _).1.1 hd
    have q1 := (h _).1.1 hz
    rw [(h _).2 q0, div_eq_iff q0] at hv
    have := h2 (by simp only [Pi.sub_apply]; rw [hv, sub_self]) z
    simp only [Pi.sub_apply] at this
    rw [(h _).2 q1, div_eq_iff q1]
    exact sub_eq_zero.1 this

/-- The values `env` restricted to the first `m` variables. -/
def restr (env : Env) : Fin m → ℂ := fun i => env i

theorem envOf_restr {env : Env} {v : Var} (h : v < m) : envOf (m := m) (restr env) v = env v := by
  simp [envOf, restr, h]

theorem ae_stable (n : Node) : MeroTree n → (∀ v ∈ n.vars, v < m) →
    ∀ᵐ θ : Fin m → ℝ, ∀ env, Defined (fresh θ) n → Defined env n → Stable (fresh θ) env n := by
  have hval : ∀ (n : Node) (c : ℂ), MeroTree n → (∀ v ∈ n.vars, v < m) →
      ∀ᵐ θ : Fin m → ℝ, ∀ env, Defined (fresh θ) n → Defined env n → eval (fresh θ) n = c → eval env n = c := by
    intro n c hn hv
    filter_upwards [ae_value (mero_quot (m := m) n hn) c] with θ h env hd he hc
    have e1 : ∀ w ∈ n.vars, envOf (m := m) (restr env) w = env w := fun w hw => envOf_restr (hv w hw)
    rw [← eval_congr n e1]
    exact h.2 hd hc _ ((defined_congr n e1).2 he)
  induction n using Node.rec (motive_2 := fun ops => MeroOps ops → (∀ v ∈ ops.vars, v < m) →
      ∀ᵐ θ : Fin m → ℝ, ∀ env, DefinedSum (fresh θ) ops → DefinedSum env ops → StableOps (fresh θ) env ops) with
  | nil => exact Eventually.of_forall fun _ _ _ _ => trivial
  | cons f n r ih1 ih2 h hv =>
    simp only [Ops.vars, List.mem_append] at hv
    have v1 : ∀ v ∈ n.vars, v < m := fun v hw => hv v (Or.inl hw)
    filter_upwards [ih1 h.1 v1, ih2 h.2 fun v hw => hv v (Or.inr hw), hval n 0 h.1 v1, hval n 1 h.1 v1]
      with θ a b c d env hc he
    exact ⟨c env hc.1 he.1, d env hc.1 he.1, a env hc.1 he.1, b env hc.2 he.2⟩
  | sum ops ih => intro h hv; exact ih h hv
  | mult ops ih =>
    intro h hv
    have hs : ∀ (e : Env) (ops : Ops), DefinedMult e ops → DefinedSum e ops := by
      intro e ops
      induction ops using Ops.rec (motive_1 := fun _ => True) with
      | nil => intro _; trivial
      | cons f n r _ ih => intro h; exact ⟨h.1, ih h.2.2⟩
      | _ => trivial
    filter_upwards [ih h hv] with θ a env hc he
    exact a env (hs _ _ hc) (hs _ _ he)
  | _ => intro _ _; exact Eventually.of_forall fun _ _ _ _ => trivial

/-! ### The property -/

/-- **C174, full statement**: let the variables of an expression hold points of the unit circle with random angles, under
any law that has a density.  Then with probability one `Simplify` returns, and the new expression is defined and has the same
value as the old one at every point where the old one is defined. -/
def C174_full : Prop :=
  ∀ (o : Bool) (m : ℕ) (μ : Measure (Fin m → ℝ)), μ ≪ volume → ∀ n : Node, (∀ v ∈ n.vars, v < m) →
    ∀ᵐ θ ∂μ, ∃ k n', SimplifiesTo o (fresh θ) n k n' ∧
      ∀ env, Defined env n → Defined env n' ∧ eval env n' = eval env n

/-- **C174, partial**: for expressions built with sums, products, quotients, integer powers, `exp`, `sin`, `cos` and
constants.  Missing: functions with branch cuts, for which it is false, and `tan`. -/
theorem C174_partial (o : Bool) (m : ℕ) (μ : Measure (Fin m → ℝ)) (hμ : μ ≪ volume) (n : Node) (hn : MeroTree n)
    (hv : ∀ v ∈ n.vars, v < m) :
    ∀ᵐ θ ∂μ, ∃ k n', SimplifiesTo o (fresh θ) n k n' ∧
      ∀ env, Defined env n → Defined env n' ∧ eval env n' = eval env n := by
  refine hμ.ae_le ?_
  filter_upwards [ae_stable (m := m) n hn hv, ae_value (mero_quot (m := m) n hn) 0] with θ hs hd
  obtain ⟨k, n', h, -⟩ := C11_simplify_terminates o (fresh θ) n
  refine ⟨k, n', h, fun env he => ?_⟩
  have hdef : Defined (fresh θ) n := by
    rcases hd.1 with h | h
    · exact h
    · have e1 : ∀ w ∈ n.vars, envOf (m := m) (restr env) w = env w := fun w hw => envOf_restr (hv w hw)
      exact absurd ((defined_congr n e1).2 he) (h _)
  have := C10_simplify_partial o (fresh θ) env n n' k hdef (hs env hdef he) h
  exact ⟨this.2 he, this.1⟩

/-- `(x - x) * y + x^(-1) * exp(y)` is in the class. -/
example : MeroTree (.sum (.cons true (.mult (.cons true (.sum (.cons true (.var 0) (.cons false (.var 0) .nil)))
    (.cons true (.var 1) .nil))) (.cons true (.mult (.cons true (.ipow (.var 0) (-1)) (.cons true (.exp (.var 1)) .nil)))
    .nil))) := by
  simp [MeroTree, MeroOps, EntireTree]

/-- `x + y`, the expression on which `C10_full` fails, is safe for random values. -/
example (μ : Measure (Fin 2 → ℝ)) (hμ : μ ≪ volume) : ∀ᵐ θ ∂μ, ∃ k n',
    SimplifiesTo true (fresh θ) (.sum (.cons true (.var 0) (.cons true (.var 1) .nil))) k n' ∧
      ∀ env, eval env n' = env 0 + env 1 := by
  filter_upwards [C174_partial true 2 μ hμ (.sum (.cons true (.var 0) (.cons true (.var 1) .nil)))
    (by simp [MeroTree, MeroOps]) (by simp [Node.vars, Ops.vars])] with θ h
  obtain ⟨k, n', h1, h2⟩ := h
  refine ⟨k, n', h1, fun env => ?_⟩
  rw [(h2 env (by simp [Defined, DefinedSum])).2]
  simp [eval, evalSum]

/-- `(sqrt(x^2) - x) * x`. -/
def cut : Node :=
  .mult (.cons true (.sum (.cons true (.sqrt (.ipow (.var 0) 2)) (.cons false (.var 0) .nil))) (.cons true (.var 0) .nil))

theorem cut_value {cur : Env} (h : (cur 0 ^ (2 : ℤ)) ^ (1 / 2 : ℂ) = cur 0) (h0 : cur 0 ≠ 0) (h1 : cur 0 ≠ 1) :
    SimplifiesTo true cur cut 1 (.mult (.cons true (.int 0) .nil)) := by
  have h2 : (cur 0 ^ 2) ^ (2⁻¹ : ℂ) = cur 0 := by
    have := h
    rw [one_div] at this
    exact_mod_cast this
  have e : (simplifyRound true cur cut) = (.mult (.cons true (.int 0) .nil), (0, 0, 1)) := by
    simp [cut, simplifyRound, reduceDepth, reduceOps, twoPasses, multReduceSubSums, multReduceSubMults, sumReduceSubSums,
      sumReduceSubMults, elimOnes, elimOnesOps, multDropOnes, elimZeros, dropValue, Ops.length, eval, evalSum, hasZero,
      h2, h1]
  have e' : (simplifyRound true cur (.mult (.cons true (.int 0) .nil))) = (.mult (.cons true (.int 0) .nil), (0, 0, 0)) := by
    simp [simplifyRound, reduceDepth, reduceOps, twoPasses, multReduceSubSums, multReduceSubMults, elimOnes, elimOnesOps,
      multDropOnes, elimZeros, Ops.length, eval, hasZero]
  refine ⟨fun j hj => ?_, ?_, ?_⟩
  · obtain rfl : j = 0 := by omega
    simp only [rounds, e]
    decide
  · simp only [rounds, e, e']
  · simp only [rounds, e, e']

/-- The code violates C174: `(sqrt(x^2) - x) * x` becomes 0 when `x` holds a point of the right half of the circle. -/
theorem C174_refuted : ¬ C174_full := by
  intro H
  have hae := H true 1 volume (Measure.AbsolutelyContinuous.refl _) cut (by simp [cut, Node.vars, Ops.vars])
  have hd := Measure.dense_of_ae hae
  have hopen : IsOpen {θ : Fin 1 → ℝ | 0 < θ 0 ∧ θ 0 < 1} :=
    (isOpen_lt continuous_const (continuous_apply 0)).inter (isOpen_lt (continuous_apply 0) continuous_const)
  obtain ⟨θ, ⟨t0, t1⟩, k, n', hs, hall⟩ := hd.inter_open_nonempty _ hopen ⟨fun _ => 1 / 2, by norm_num, by norm_num⟩
  have hx : fresh θ 0 = Complex.exp (θ 0 * Complex.I) := by simp [fresh, envOf, onTorus]
  have harg : (fresh θ 0).arg = θ 0 := by
    rw [hx, Complex.arg_exp_mul_I, toIocMod_eq_self]
    constructor <;> nlinarith [Real.two_le_pi]
  have hsq : (fresh θ 0 ^ (2 : ℤ)) ^ (1 / 2 : ℂ) = fresh θ 0 := by
    have := Complex.pow_cpow_nat_inv (x := fresh θ 0) (n := 2) (by norm_num) (by rw [harg]; push_cast; nlinarith [Real.two_le_pi])
      (by rw [harg]; push_cast; nlinarith [Real.two_le_pi])
    norm_num at this ⊢
    exact_mod_cast this
  have h0 : fresh θ 0 ≠ 0 := by rw [hx]; exact Complex.exp_ne_zero _
  have h1 : fresh θ 0 ≠ 1 := by
    intro h
    rw [h, Complex.arg_one] at harg
    exact t0.ne harg
  obtain ⟨_, _, _, _, _, huniq⟩ := C11_simplify_terminates true (fresh θ) cut
  have e : n' = .mult (.cons true (.int 0) .nil) :=
    (huniq _ _ hs).2.trans (huniq _ _ (cut_value hsq h0 h1)).2.symm
  have := (hall (fun _ => -1) (by simp [cut, Defined, DefinedMult, DefinedSum])).2
  rw [e] at this
  norm_num [cut, eval, evalMult, evalSum] at this

end B2.Fresh
