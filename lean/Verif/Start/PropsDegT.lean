import Verif.Start.TotalDegree
import Verif.Tree.PropsDegree
import Mathlib.Algebra.MvPolynomial.NoZeroDivisors
import Mathlib.Data.NNReal.Defs

/-!
# C96: `Degree()` is the total degree
-/

namespace B2

/-- The function computed by `n` is a polynomial of total degree at most `d` in all the variables. -/
def IsPolyTotal (n : Node) (d : ℤ) : Prop :=
  ∃ p : MvPolynomial Var ℂ, (p.totalDegree : ℤ) ≤ d ∧ ∀ env, eval env n = MvPolynomial.eval env p

/-- C96, full statement: whatever the values `cur` of the variables at the call, a non-negative answer `d` of
`Degree()` means that the expression is a polynomial of total degree at most `d`. -/
def C96_full : Prop :=
  ∀ (cur : Env) (n : Node), 0 ≤ degT cur n → IsPolyTotal n (degT cur n)

mutual
/-- At every general power the exponent, if the tolerance of the code takes it for an integer, is one. -/
def IntExps (cur : Env) : Node → Prop
  | .int _ | .float _ _ | .rat _ _ | .special _ | .var _ => True
  | .sum ops | .mult ops => IntExpsOps cur ops
  | .pow b e => IntExps cur b ∧ IntExps cur e ∧ (NearInt (eval cur e) → ∃ k : ℤ, eval cur e = k)
  | .neg n | .ipow n _ | .sqrt n | .exp n | .log n | .sin n | .cos n | .tan n
  | .asin n | .acos n | .atan n | .fn n => IntExps cur n
/-- The same for all operands. -/
def IntExpsOps (cur : Env) : Ops → Prop
  | .nil => True
  | .cons _ n r => IntExps cur n ∧ IntExpsOps cur r
end

/-- A function of the variables that is a polynomial of total degree at most `d`. -/
def PolyFun (f : Env → ℂ) (d : ℤ) : Prop :=
  ∃ p : MvPolynomial Var ℂ, (p.totalDegree : ℤ) ≤ d ∧ ∀ env, f env = MvPolynomial.eval env p

theorem PolyFun.const {f : Env → ℂ} {d : ℤ} (a : ℂ) (h : ∀ env, f env = a) (hd : 0 ≤ d) : PolyFun f d :=
  ⟨MvPolynomial.C a, by simpa using hd, fun env => by simp [h env]⟩

theorem PolyFun.isConst {f : Env → ℂ} {d : ℤ} (h : PolyFun f d) (hd : d = 0) (env env' : Env) : f env = f env' := by
  obtain ⟨p, hp, hf⟩ := h
  have h0 : p.totalDegree = 0 := by omega
  rw [hf, hf, MvPolynomial.totalDegree_eq_zero_iff_eq_C.mp h0]
  simp

theorem PolyFun.neg {f : Env → ℂ} {d : ℤ} (h : PolyFun f d) : PolyFun (fun e => -f e) d := by
  obtain ⟨p, hp, hf⟩ := h
  exact ⟨-p, by simpa using hp, fun env => by simp [hf env]⟩

theorem PolyFun.add {f g : Env → ℂ} {d e : ℤ} (h : PolyFun f d) (h' : PolyFun g e) :
    PolyFun (fun x => f x + g x) (max d e) := by
  obtain ⟨p, hp, hf⟩ := h
  obtain ⟨q, hq, hg⟩ := h'
  refine ⟨p + q, ?_, fun env => by simp [hf env, hg env]⟩
  have := MvPolynomial.totalDegree_add p q
  rcases le_max_iff.mp this with h | h
  · exact le_max_of_le_left (by omega)
  · exact le_max_of_le_right (by omega)

theorem PolyFun.mul {f g : Env → ℂ} {d e : ℤ} (h : PolyFun f d) (h' : PolyFun g e) :
    PolyFun (fun x => f x * g x) (d + e) := by
  obtain ⟨p, hp, hf⟩ := h
  obtain ⟨q, hq, hg⟩ := h'
  refine ⟨p * q, ?_, fun env => by simp [hf env, hg env]⟩
  have := MvPolynomial.totalDegree_mul p q
  omega

theorem PolyFun.pow {f : Env → ℂ} {d : ℤ} (h : PolyFun f d) (k : ℕ) :
    PolyFun (fun x => f x ^ k) (k * d) := by
  obtain ⟨p, hp, hf⟩ := h
  refine ⟨p ^ k, ?_, fun env => by simp [hf env]⟩
  have h1 := MvPolynomial.totalDegree_pow p k
  have h2 : ((k * p.totalDegree : ℕ) : ℤ) ≤ k * d := by
    push_cast
    exact mul_le_mul_of_nonneg_left hp (by positivity)
  omega

theorem PolyFun.trans {f : Env → ℂ} {d : ℤ} (g : ℂ → ℂ) (h : 0 ≤ d → PolyFun f d) (h0 : 0 ≤ transDeg d) :
    PolyFun (fun x => g (f x)) (transDeg d) := by
  have hd := transDeg_nonneg.mp h0
  have hc := (h hd.ge).isConst hd
  exact PolyFun.const (g (f 0)) (fun env => by rw [hc env 0]) h0

theorem PolyFun.gpow {f g : Env → ℂ} {cur : Env} {d e : ℤ} (hb : 0 ≤ d → PolyFun f d) (he : 0 ≤ e → PolyFun g e)
    (hint : NearInt (g cur) → ∃ k : ℤ, g cur = k) (h0 : 0 ≤ powDeg d e (g cur)) :
    PolyFun (fun x => f x ^ g x) (powDeg d e (g cur)) := by
  have hed := powDeg_nonneg h0
  subst hed
  have hg : ∀ env, g env = g cur := fun env => (he le_rfl).isConst rfl env cur
  by_cases hn : NearInt (g cur)
  · obtain ⟨k, hk⟩ := hint hn
    rcases lt_trichotomy k 0 with hk0 | hk0 | hk0
    · rw [powDeg_neg_int hk hk0 hn] at h0
      omega
    · exact PolyFun.const 1 (fun env => by rw [hg env, hk, hk0]; simp) h0
    · obtain ⟨h1, h2⟩ := powDeg_int_nonneg hk hk0 hn h0
      have hk1 : ((k.toNat : ℕ) : ℤ) = k := Int.toNat_of_nonneg hk0.le
      obtain ⟨p, hp, hf⟩ := (hb h1).pow k.toNat
      refine ⟨p, by rw [h2, mul_comm, ← hk1]; exact hp, fun env => ?_⟩
      rw [← hf env]
      dsimp only
      rw [hg env, hk, Complex.cpow_intCast, ← zpow_natCast, hk1]
  · have hd : d = 0 := by
      unfold powDeg at h0
      rw [if_pos rfl, if_neg hn] at h0
      by_contra hne
      rw [if_neg hne] at h0
      omega
    have hc := (hb hd.ge).isConst hd
    exact PolyFun.const (f 0 ^ g cur) (fun env => by rw [hg env, hc env 0]) h0

theorem degTSum_cons_nonneg {cur : Env} {f : Bool} {n : Node} {r : Ops} (h : 0 ≤ degTSum cur (.cons f n r)) :
    0 ≤ degT cur n ∧ 0 ≤ degTSum cur r ∧ degTSum cur (.cons f n r) = max (degT cur n) (degTSum cur r) := by
  simp only [degTSum] at h ⊢
  split_ifs at h ⊢ <;> first | (exfalso; omega) | exact ⟨by omega, by omega, rfl⟩

theorem degTMult_cons_nonneg {cur : Env} {f : Bool} {n : Node} {r : Ops} (h : 0 ≤ degTMult cur (.cons f n r)) :
    0 ≤ degT cur n ∧ (f = false → degT cur n = 0) ∧ 0 ≤ degTMult cur r ∧
      degTMult cur (.cons f n r) = degT cur n + degTMult cur r := by
  simp only [degTMult] at h ⊢
  split_ifs at h ⊢ with h1 h2 h3 <;> first | (exfalso; omega) | skip
  refine ⟨by omega, fun hf => ?_, by omega, rfl⟩
  by_contra hne
  exact h2 ⟨hne, hf⟩

theorem degT_poly (cur : Env) (n : Node) :
    IntExps cur n → 0 ≤ degT cur n → PolyFun (fun e => eval e n) (degT cur n) := by
  induction n using Node.rec (motive_2 := fun ops => IntExpsOps cur ops →
    (0 ≤ degTSum cur ops → PolyFun (fun e => evalSum e ops) (degTSum cur ops)) ∧
    (0 ≤ degTMult cur ops → PolyFun (fun e => evalMult e ops) (degTMult cur ops))) with
  | nil =>
    exact ⟨fun h => PolyFun.const 0 (fun _ => by simp [evalSum]) h,
      fun h => PolyFun.const 1 (fun _ => by simp [evalMult]) h⟩
  | cons f n r ih1 ih2 hf =>
    obtain ⟨ihs, ihm⟩ := ih2 hf.2
    refine ⟨fun h => ?_, fun h => ?_⟩
    · obtain ⟨h1, h2, h3⟩ := degTSum_cons_nonneg h
      rw [h3]
      cases f with
      | true => simpa [evalSum] using (ih1 hf.1 h1).add (ihs h2)
      | false => simpa [evalSum] using (ih1 hf.1 h1).neg.add (ihs h2)
    · obtain ⟨h1, h2, h3, h4⟩ := degTMult_cons_nonneg h
      rw [h4]
      cases f with
      | true => simpa [evalMult] using (ih1 hf.1 h1).mul (ihm h3)
      | false =>
        have hc := (ih1 hf.1 h1).isConst (h2 rfl)
        have g : PolyFun (fun e => (eval e n)⁻¹) (degT cur n) :=
          PolyFun.const (eval 0 n)⁻¹ (fun env => by rw [hc env 0]) h1
        simpa [evalMult] using g.mul (ihm h3)
  | int z => intro _ h; exact PolyFun.const (z : ℂ) (fun _ => by simp [eval]) h
  | float a b => intro _ h; exact PolyFun.const ((a : ℂ) + b * Complex.I) (fun _ => by simp [eval]) h
  | rat a b => intro _ h; exact PolyFun.const ((a : ℂ) + b * Complex.I) (fun _ => by simp [eval]) h
  | special s =>
    intro _ h
    exact PolyFun.const (eval 0 (.special s)) (fun _ => by cases s <;> simp [eval]) h
  | var w =>
    intro _ _
    exact ⟨MvPolynomial.X w, by simp [degT], fun env => by simp [eval]⟩
  | sum ops ih => intro hf h; simpa only [eval, degT] using (ih hf).1 (by simpa only [degT] using h)
  | mult ops ih => intro hf h; simpa only [eval, degT] using (ih hf).2 (by simpa only [degT] using h)
  | neg n ih => intro hf h; simpa only [eval, degT] using (ih hf (by simpa only [degT] using h)).neg
  | fn n ih => intro hf h; simpa only [eval, degT] using ih hf (by simpa only [degT] using h)
  | pow b e ihb ihe =>
    intro hf h
    simp only [eval, degT] at h ⊢
    exact PolyFun.gpow (ihb hf.1) (ihe hf.2.1) hf.2.2 h
  | ipow n k ih =>
    intro hf h
    simp only [eval, degT] at h ⊢
    have hn : ¬ degT cur n < 0 := fun hlt => by rw [if_pos hlt] at h; omega
    rw [if_neg hn] at h ⊢
    have g := ih hf (by omega)
    rcases le_or_gt 0 k with hk | hk
    · obtain ⟨m, rfl⟩ := Int.eq_ofNat_of_zero_le hk
      simpa only [Int.ofNat_eq_natCast, zpow_natCast] using g.pow m
    · have hz : degT cur n = 0 := by
        by_contra hne
        have : k * degT cur n < 0 := mul_neg_of_neg_of_pos hk (by omega)
        omega
      exact PolyFun.const (eval 0 n ^ k) (fun env => by rw [g.isConst hz env 0]) h
  | _ n ih =>
    intro hf h
    simp only [eval, degT] at h ⊢
    first
      | exact PolyFun.trans (fun z => z ^ (1 / 2 : ℂ)) (ih hf) h
      | exact PolyFun.trans Complex.exp (ih hf) h
      | exact PolyFun.trans Complex.log (ih hf) h
      | exact PolyFun.trans Complex.sin (ih hf) h
      | exact PolyFun.trans Complex.cos (ih hf) h
      | exact PolyFun.trans Complex.tan (ih hf) h
      | exact PolyFun.trans carcsin (ih hf) h
      | exact PolyFun.trans carccos (ih hf) h
      | exact PolyFun.trans Complex.arctan (ih hf) h

/-- **C96 (bound)**: a non-negative answer of `Degree()` bounds the total degree. Unlike for the degree in one
variable the exponents need not be frozen: an exponent of total degree 0 cannot change. Missing: exponents that are
within the tolerance of an integer without being one. -/
theorem C96_bound_partial (cur : Env) (n : Node) (hi : IntExps cur n) (h : 0 ≤ degT cur n) :
    IsPolyTotal n (degT cur n) :=
  degT_poly cur n hi h

/-- The code violates C96: `x^(2 + 2^-60)` is taken for a polynomial of degree 2. -/
theorem C96_refuted : ¬ C96_full := by
  intro H
  have hr : round ((2 : ℝ) + 1 / 2 ^ 60) = 2 := by
    rw [round_eq, Int.floor_eq_iff]
    norm_num
  have hv : eval (fun _ => (0 : ℂ)) (.rat (2 + 1 / 2 ^ 60) 0) = (((2 : ℝ) + 1 / 2 ^ 60 : ℝ) : ℂ) := by
    simp [eval]
  have hdeg : degT (fun _ => 0) (.pow (.var 0) (.rat (2 + 1 / 2 ^ 60) 0)) = 2 := by
    simp only [degT]
    rw [hv]
    unfold powDeg NearInt
    rw [Complex.ofReal_re, Complex.ofReal_im, hr, if_pos rfl, if_pos, if_neg, if_neg, if_neg]
    · norm_num
    · norm_num
    · norm_num
    · rw [sub_zero, Complex.norm_real, Real.norm_of_nonneg (by positivity), tol]
      norm_num
    · rw [tol]
      constructor
      · norm_num
      · push_cast
        rw [add_sub_cancel_left, abs_of_nonneg (by positivity)]
        norm_num
  obtain ⟨p, -, hp⟩ := H (fun _ => 0) _ (by rw [hdeg]; norm_num)
  have hq : ∀ t : ℂ, (MvPolynomial.aeval (fun _ : Var => (Polynomial.X : Polynomial ℂ)) p).eval t =
      t ^ ((2 : ℂ) + 1 / 2 ^ 60) := by
    intro t
    rw [eval_aeval_poly]
    have := hp (fun _ => t)
    simp only [Polynomial.eval_X]
    rw [← this]
    simp [eval]
  have hsq : (MvPolynomial.aeval (fun _ : Var => (Polynomial.X : Polynomial ℂ)) p) ^ (2 ^ 60) =
      Polynomial.X ^ (2 ^ 61 + 1) := by
    apply Polynomial.funext
    intro t
    rw [Polynomial.eval_pow, hq, Polynomial.eval_pow, Polynomial.eval_X, ← Complex.cpow_mul_nat,
      ← Complex.cpow_natCast t (2 ^ 61 + 1)]
    congr 1
    norm_num
  have := congrArg Polynomial.natDegree hsq
  rw [Polynomial.natDegree_pow, Polynomial.natDegree_X_pow] at this
  omega

/-! ### exactness -/

mutual
/-- Specification: the polynomial expressions in which nothing can cancel: positive numbers, variables, non-empty
sums, products, powers with an integer exponent `≥ 0`, named functions. -/
inductive PosExpr : Node → Prop
  | int (z : ℤ) : 0 < z → PosExpr (.int z)
  | rat (q : ℚ) : 0 < q → PosExpr (.rat q 0)
  | float (x) : 0 < x → PosExpr (.float x 0)
  | pi : PosExpr (.special .pi)
  | var (v) : PosExpr (.var v)
  | sum {n r} : PosExpr n → PosOps r → PosExpr (.sum (.cons true n r))
  | mult {r} : PosOps r → PosExpr (.mult r)
  | ipow {n} (k : ℕ) : PosExpr n → PosExpr (.ipow n k)
  | pow {n} (k : ℕ) : PosExpr n → PosExpr (.pow n (.int k))
  | fn {n} : PosExpr n → PosExpr (.fn n)
/-- All operands are such, added or multiplied. -/
inductive PosOps : Ops → Prop
  | nil : PosOps .nil
  | cons {n r} : PosExpr n → PosOps r → PosOps (.cons true n r)
end

open scoped NNReal

/-- The inclusion of the coefficients. -/
noncomputable def nnC : ℝ≥0 →+* ℂ := Complex.ofRealHom.comp NNReal.toRealHom

theorem nnC_inj : Function.Injective nnC := fun a b h => by
  apply NNReal.coe_injective
  exact Complex.ofReal_injective h

/-- `f` is a polynomial with coefficients `≥ 0`, not zero, of total degree `d`. -/
def PosFun (f : Env → ℂ) (d : ℤ) : Prop :=
  ∃ p : MvPolynomial Var ℝ≥0, p ≠ 0 ∧ (p.totalDegree : ℤ) = d ∧ ∀ env, f env = MvPolynomial.eval₂ nnC env p

theorem PosFun.const {f : Env → ℂ} (a : ℝ) (ha : 0 < a) (h : ∀ env, f env = (a : ℂ)) : PosFun f 0 := by
  refine ⟨MvPolynomial.C a.toNNReal, by simpa using ha, by simp, fun env => ?_⟩
  rw [h env, MvPolynomial.eval₂_C]
  show (a : ℂ) = ((a.toNNReal : ℝ) : ℂ)
  rw [Real.coe_toNNReal a ha.le]

theorem totalDegree_add_nonneg (p q : MvPolynomial Var ℝ≥0) :
    (p + q).totalDegree = max p.totalDegree q.totalDegree := by
  have hs : ∀ m, m ∈ (p + q).support ↔ m ∈ p.support ∨ m ∈ q.support := by
    intro m
    simp only [MvPolynomial.mem_support_iff, MvPolynomial.coeff_add, ne_eq, add_eq_zero]
    tauto
  apply le_antisymm (MvPolynomial.totalDegree_add p q)
  apply max_le
  · exact Finset.sup_mono fun m hm => (hs m).mpr (Or.inl hm)
  · exact Finset.sup_mono fun m hm => (hs m).mpr (Or.inr hm)

theorem PosFun.add {f g : Env → ℂ} {d e : ℤ} (h : PosFun f d) (h' : PosFun g e) :
    PosFun (fun x => f x + g x) (max d e) := by
  obtain ⟨p, h0, hp, hf⟩ := h
  obtain ⟨q, h0', hq, hg⟩ := h'
  refine ⟨p + q, fun hz => h0 ?_, ?_, fun env => by dsimp only; rw [hf env, hg env, MvPolynomial.eval₂_add]⟩
  · ext m
    have := congrArg (MvPolynomial.coeff m) hz
    rw [MvPolynomial.coeff_add, MvPolynomial.coeff_zero, add_eq_zero] at this
    simp [this.1]
  · rw [totalDegree_add_nonneg]
    push_cast
    rw [hp, hq]

theorem PosFun.mul {f g : Env → ℂ} {d e : ℤ} (h : PosFun f d) (h' : PosFun g e) :
    PosFun (fun x => f x * g x) (d + e) := by
  obtain ⟨p, h0, hp, hf⟩ := h
  obtain ⟨q, h0', hq, hg⟩ := h'
  refine ⟨p * q, mul_ne_zero h0 h0', ?_, fun env => by dsimp only; rw [hf env, hg env, MvPolynomial.eval₂_mul]⟩
  rw [MvPolynomial.totalDegree_mul_of_isDomain h0 h0']
  push_cast
  rw [hp, hq]

theorem PosFun.pow {f : Env → ℂ} {d : ℤ} (h : PosFun f d) (k : ℕ) : PosFun (fun x => f x ^ k) (k * d) := by
  induction k with
  | zero => simpa using PosFun.const (f := fun _ => 1) 1 one_pos (by simp)
  | succ k ih =>
    have := ih.mul h
    simpa only [pow_succ, Nat.cast_succ, add_mul, one_mul] using this

theorem PosFun.nonneg {f : Env → ℂ} {d : ℤ} (h : PosFun f d) : 0 ≤ d := by
  obtain ⟨p, _, hp, _⟩ := h
  omega

theorem degT_pos (cur : Env) (n : Node) : PosExpr n → PosFun (fun e => eval e n) (degT cur n) := by
  induction n using Node.rec (motive_2 := fun ops => PosOps ops →
    ((ops = .nil ∧ degTSum cur ops = 0) ∨ PosFun (fun e => evalSum e ops) (degTSum cur ops)) ∧
    PosFun (fun e => evalMult e ops) (degTMult cur ops)) with
  | nil =>
    refine ⟨Or.inl ⟨rfl, by simp [degTSum]⟩, ?_⟩
    simpa [evalMult, degTMult] using PosFun.const (f := fun _ => 1) 1 one_pos (by simp)
  | cons f n r ih1 ih2 hf =>
    cases hf with
    | cons h1 h2 =>
      obtain ⟨hs, hm⟩ := ih2 h2
      have g := ih1 h1
      have g0 := g.nonneg
      refine ⟨Or.inr ?_, ?_⟩
      · rcases hs with ⟨rfl, hz⟩ | hs
        · have : degTSum cur (.cons true n .nil) = degT cur n := by
            rw [degTSum, if_neg (by omega), if_neg (by omega), hz]
            omega
          rw [this]
          simpa [evalSum] using g
        · have s0 := hs.nonneg
          have : degTSum cur (.cons true n r) = max (degT cur n) (degTSum cur r) := by
            simp only [degTSum]
            rw [if_neg (by omega), if_neg (by omega)]
          rw [this]
          simpa [evalSum] using g.add hs
      · have m0 := hm.nonneg
        have : degTMult cur (.cons true n r) = degT cur n + degTMult cur r := by
          simp only [degTMult]
          rw [if_neg (by omega), if_neg (by simp), if_neg (by omega)]
        rw [this]
        simpa [evalMult] using g.mul hm
  | int z =>
    intro h
    cases h with
    | int _ hz =>
      simp only [degT]
      exact PosFun.const (z : ℝ) (by exact_mod_cast hz) (fun _ => by simp [eval])
  | float a b =>
    intro h
    cases h with
    | float _ hz =>
      simp only [degT]
      exact PosFun.const (a : ℝ) (by exact_mod_cast hz) (fun _ => by simp [eval])
  | rat a b =>
    intro h
    cases h with
    | rat _ hz =>
      simp only [degT]
      exact PosFun.const (a : ℝ) (by exact_mod_cast hz) (fun _ => by simp [eval])
  | special s =>
    intro h
    cases h with
    | pi =>
      simp only [degT]
      exact PosFun.const Real.pi Real.pi_pos (fun _ => by simp [eval])
  | var w =>
    intro _
    exact ⟨MvPolynomial.X w, MvPolynomial.X_ne_zero w, by simp [degT], fun env => by simp [eval]⟩
  | sum ops ih =>
    intro h
    cases h with
    | sum h1 h2 =>
      simp only [eval, degT]
      rcases (ih (.cons h1 h2)).1 with ⟨hc, _⟩ | h
      · cases hc
      · exact h
  | mult ops ih =>
    intro h
    cases h with
    | mult h1 => simpa only [eval, degT] using (ih h1).2
  | neg n ih => intro h; cases h
  | fn n ih =>
    intro h
    cases h with
    | fn h => simpa only [eval, degT] using ih h
  | pow b e ihb ihe =>
    intro h
    cases h with
    | pow k h1 =>
      have g := ihb h1
      simp only [eval, degT]
      rcases Nat.eq_zero_or_pos k with rfl | hk
      · have : powDeg (degT cur b) 0 (((0 : ℕ) : ℤ) : ℂ) = 0 := by
          have hn : NearInt (((0 : ℕ) : ℤ) : ℂ) := nearInt_int _
          unfold powDeg
          rw [if_pos rfl, if_pos hn, if_pos]
          simp only [Nat.cast_zero, Int.cast_zero, sub_zero, norm_zero, tol]
          positivity
        rw [this]
        simpa using PosFun.const (f := fun _ => 1) 1 one_pos (by simp)
      · rw [powDeg_int (by exact_mod_cast hk) g.nonneg]
        have := g.pow k
        rw [mul_comm]
        simpa only [Complex.cpow_intCast, zpow_natCast] using this
  | ipow n k ih =>
    intro h
    cases h with
    | ipow k h1 =>
      have g := ih h1
      simp only [eval, degT]
      rw [if_neg (by have := g.nonneg; omega)]
      simpa only [zpow_natCast] using g.pow k
  | _ n ih => intro h; cases h

/-- **C96 (exact)**: for an expression without cancellation the answer of `Degree()` is exactly the total degree of the
polynomial it computes. -/
theorem C96_exact (cur : Env) (n : Node) (h : PosExpr n) :
    ∃ p : MvPolynomial Var ℂ, (∀ env, eval env n = MvPolynomial.eval env p) ∧ degT cur n = p.totalDegree := by
  obtain ⟨p, -, hp, hf⟩ := degT_pos cur n h
  refine ⟨MvPolynomial.map nnC p, fun env => ?_, ?_⟩
  · rw [MvPolynomial.eval_map]
    exact hf env
  · rw [← hp]
    congr 1
    unfold MvPolynomial.totalDegree
    rw [MvPolynomial.support_map_of_injective p nnC_inj]

/-- Witness for both: `(x + y)^2 * x + 3` has degree 3, for the hypotheses of `C96_bound_partial` as well. -/
example : let n : Node := .sum (.cons true (.mult (.cons true (.ipow (.sum (.cons true (.var 0)
      (.cons true (.var 1) .nil))) (2 : ℕ)) (.cons true (.var 0) .nil))) (.cons true (.int 3) .nil))
    PosExpr n ∧ IntExps 0 n ∧ degT 0 n = 3 ∧ IsPolyTotal n 3 := by
  intro n
  have hd : degT 0 n = 3 := by
    simp [n, degT, degTSum, degTMult]
  have hi : IntExps 0 n := by simp [n, IntExps, IntExpsOps]
  refine ⟨?_, hi, hd, ?_⟩
  · exact .sum (.mult (.cons (.ipow 2 (.sum (.var 0) (.cons (.var 1) .nil))) (.cons (.var 0) .nil)))
      (.cons (.int 3 (by norm_num)) .nil)
  · have := C96_bound_partial 0 n hi (by rw [hd]; norm_num)
    rwa [hd] at this

end B2
