import Verif.Tree.Operators
import Mathlib.Tactic.Ring
import Mathlib.Tactic.NormNum

/-!
# C13: the operators build expressions with the intended value
-/

namespace B2

/-- Specification: what a written expression means. -/
noncomputable def UExpr.value (env : Env) : UExpr → ℂ
  | .leaf n => eval env n
  | .add a b => a.value env + b.value env
  | .sub a b => a.value env - b.value env
  | .mul a b => a.value env * b.value env
  | .mulConst a b => a.value env * b.value env
  | .div a b => a.value env / b.value env
  | .neg a => -a.value env
  | .pow a k => a.value env ^ k
  | .powNode a e => a.value env ^ e.value env

/-- `same` compares addresses: equal addresses mean the same node. -/
def SoundPtrEq (same : Node → Node → Bool) : Prop := ∀ a b, same a b = true → a = b

/-- Every integer exponent written in the expression (or on top of a leaf) fits an `int`. -/
def UExpr.ExponentsFit : UExpr → Prop
  | .leaf (.ipow _ k) => |k| ≤ intMax
  | .leaf _ => True
  | .add a b | .sub a b | .mul a b | .mulConst a b | .div a b | .powNode a b =>
      a.ExponentsFit ∧ b.ExponentsFit
  | .neg a => a.ExponentsFit
  | .pow a k => a.ExponentsFit ∧ |k| ≤ intMax

/-- C13, full statement: every expression written with exponents that fit an `int` is built, and
has the intended value. -/
def C13_full : Prop :=
  ∀ (same : Node → Node → Bool) (e : UExpr), SoundPtrEq same →
    e.ExponentsFit →
    ∃ n, e.build same = some n ∧ ∀ env, eval env n = e.value env

theorem eval_mkMul {same : Node → Node → Bool} (hs : SoundPtrEq same) {a b n : Node}
    (h : mkMul same a b = some n) (env : Env) : eval env n = eval env a * eval env b := by
  unfold mkMul at h
  split at h
  · rename_i x j y k
    split_ifs at h with h1 h2
    · obtain ⟨hxy, hj, hk⟩ := h1
      obtain rfl := hs _ _ hxy
      obtain rfl := Option.some.inj h
      simp only [eval]
      obtain ⟨j', rfl⟩ := Int.eq_ofNat_of_zero_le hj
      obtain ⟨k', rfl⟩ := Int.eq_ofNat_of_zero_le hk
      rw [← Int.natCast_add, zpow_natCast, zpow_natCast, zpow_natCast, pow_add]
    · obtain rfl := Option.some.inj h
      simp [eval, evalMult]
  · obtain rfl := Option.some.inj h
    simp [eval, evalMult]

/-- The code violates C13 for large exponents: `pow(x,2^30) * pow(x,2^30)` overflows the
exponent, although both exponents are valid. -/
theorem C13_operators_refuted : ¬ C13_full := by
  intro H
  obtain ⟨n, hn, -⟩ := H (fun a b => match a, b with
    | .var i, .var j => decide (i = j)
    | _, _ => false)
    (.mul (.pow (.leaf (.var 0)) 1073741824) (.pow (.leaf (.var 0)) 1073741824))
    (by
      intro a b h
      cases a <;> cases b <;> simp_all)
    (by simp [UExpr.ExponentsFit, intMax])
  simp [UExpr.build, mkPow, mkMul, intMax] at hn

/-- C13, the part that holds: whatever is built has the intended value at every point, including
merged powers. Missing from `C13_full`: products of powers of one node whose exponents add up to
more than `INT_MAX` (undefined behaviour). -/
theorem C13_operators_partial (same : Node → Node → Bool) (hs : SoundPtrEq same) (e : UExpr)
    (n : Node) (h : e.build same = some n) (env : Env) : eval env n = e.value env := by
  induction e generalizing n with
  | leaf m => simp only [UExpr.build, Option.some.injEq] at h; subst h; rfl
  | add a b iha ihb =>
    simp only [UExpr.build, Option.bind_eq_bind, Option.bind_eq_some_iff, Option.pure_def,
      Option.some.injEq] at h
    obtain ⟨x, hx, y, hy, rfl⟩ := h
    simp [mkAdd, eval, evalSum, UExpr.value, iha x hx, ihb y hy]
  | sub a b iha ihb =>
    simp only [UExpr.build, Option.bind_eq_bind, Option.bind_eq_some_iff, Option.pure_def,
      Option.some.injEq] at h
    obtain ⟨x, hx, y, hy, rfl⟩ := h
    simp [mkSub, eval, evalSum, UExpr.value, iha x hx, ihb y hy, sub_eq_add_neg]
  | mul a b iha ihb =>
    simp only [UExpr.build, Option.bind_eq_bind, Option.bind_eq_some_iff] at h
    obtain ⟨x, hx, y, hy, h⟩ := h
    rw [eval_mkMul hs h, iha x hx, ihb y hy, UExpr.value]
  | mulConst a b iha ihb =>
    simp only [UExpr.build, Option.bind_eq_bind, Option.bind_eq_some_iff, Option.pure_def,
      Option.some.injEq] at h
    obtain ⟨x, hx, y, hy, rfl⟩ := h
    simp [eval, evalMult, UExpr.value, iha x hx, ihb y hy]
  | div a b iha ihb =>
    simp only [UExpr.build, Option.bind_eq_bind, Option.bind_eq_some_iff, Option.pure_def,
      Option.some.injEq] at h
    obtain ⟨x, hx, y, hy, rfl⟩ := h
    simp [mkDiv, eval, evalMult, UExpr.value, iha x hx, ihb y hy, div_eq_mul_inv]
  | neg a iha =>
    simp only [UExpr.build, Option.bind_eq_bind, Option.bind_eq_some_iff, Option.pure_def,
      Option.some.injEq] at h
    obtain ⟨x, hx, rfl⟩ := h
    simp [mkNeg, eval, UExpr.value, iha x hx]
  | pow a k iha =>
    simp only [UExpr.build, Option.bind_eq_bind, Option.bind_eq_some_iff, Option.pure_def,
      Option.some.injEq] at h
    obtain ⟨x, hx, rfl⟩ := h
    simp [mkPow, eval, UExpr.value, iha x hx]
  | powNode a e iha ihe =>
    simp only [UExpr.build, Option.bind_eq_bind, Option.bind_eq_some_iff, Option.pure_def,
      Option.some.injEq] at h
    obtain ⟨x, hx, y, hy, rfl⟩ := h
    simp [mkPowNode, eval, UExpr.value, iha x hx, ihe y hy]

/-- Sum of the absolute values of all integer exponents at the top of the leaves and in `pow`
calls. -/
def UExpr.exponents : UExpr → ℤ
  | .leaf (.ipow _ k) => |k|
  | .leaf _ => 0
  | .add a b | .sub a b | .mul a b | .mulConst a b | .div a b | .powNode a b =>
      a.exponents + b.exponents
  | .neg a => a.exponents
  | .pow a k => a.exponents + |k|

theorem UExpr.exponents_nonneg (e : UExpr) : 0 ≤ e.exponents := by
  induction e with
  | leaf n => cases n <;> simp [UExpr.exponents]
  | add a b ha hb | sub a b ha hb | mul a b ha hb | mulConst a b ha hb | div a b ha hb
  | powNode a b ha hb => simp only [UExpr.exponents]; omega
  | neg a ha => simpa [UExpr.exponents] using ha
  | pow a k ha => simp only [UExpr.exponents]; have := abs_nonneg k; omega

/-- A built integer power has an exponent bounded by the written ones. -/
theorem build_exponent (same : Node → Node → Bool) (e : UExpr) (x : Node) (k : ℤ)
    (h : e.build same = some (.ipow x k)) : k ≤ e.exponents := by
  induction e generalizing x k with
  | leaf m =>
    simp only [UExpr.build, Option.some.injEq] at h; subst h
    exact le_abs_self k
  | mul a b iha ihb =>
    simp only [UExpr.build, Option.bind_eq_bind, Option.bind_eq_some_iff] at h
    obtain ⟨p, hp, q, hq, h⟩ := h
    unfold mkMul at h
    split at h
    · split_ifs at h
      · simp only [Option.some.injEq, Node.ipow.injEq] at h
        obtain ⟨rfl, rfl⟩ := h
        have := iha _ _ hp
        have := ihb _ _ hq
        simp only [UExpr.exponents]; omega
      · simp at h
    · simp at h
  | pow a j iha =>
    simp only [UExpr.build, mkPow, Option.bind_eq_bind, Option.bind_eq_some_iff, Option.pure_def,
      Option.some.injEq, Node.ipow.injEq] at h
    obtain ⟨p, hp, rfl, rfl⟩ := h
    have h1 := a.exponents_nonneg
    have h2 := le_abs_self j
    simp only [UExpr.exponents]; omega
  | _ =>
    simp [UExpr.build, mkAdd, mkSub, mkDiv, mkNeg, mkPowNode, Option.bind_eq_some_iff] at h

/-- C13: if the written exponents add up to at most `INT_MAX` the expression is built, with the
intended value. -/
theorem C13_operators_small_partial (same : Node → Node → Bool) (hs : SoundPtrEq same) (e : UExpr)
    (he : e.exponents ≤ intMax) :
    ∃ n, e.build same = some n ∧ ∀ env, eval env n = e.value env := by
  have hb : ∃ n, e.build same = some n := by
    induction e with
    | leaf n => exact ⟨n, rfl⟩
    | add a b iha ihb | sub a b iha ihb | mulConst a b iha ihb | div a b iha ihb
    | powNode a b iha ihb =>
      have h1 := a.exponents_nonneg
      have h2 := b.exponents_nonneg
      simp only [UExpr.exponents] at he
      obtain ⟨x, hx⟩ := iha (by omega)
      obtain ⟨y, hy⟩ := ihb (by omega)
      simp [UExpr.build, hx, hy]
    | mul a b iha ihb =>
      have h1 := a.exponents_nonneg
      have h2 := b.exponents_nonneg
      simp only [UExpr.exponents] at he
      obtain ⟨x, hx⟩ := iha (by omega)
      obtain ⟨y, hy⟩ := ihb (by omega)
      simp only [UExpr.build, hx, hy, Option.bind_eq_bind, Option.bind_some]
      unfold mkMul
      split
      · have h3 := build_exponent same a _ _ hx
        have h4 := build_exponent same b _ _ hy
        split_ifs
        · exact ⟨_, rfl⟩
        · omega
        · exact ⟨_, rfl⟩
      · exact ⟨_, rfl⟩
    | neg a iha =>
      obtain ⟨x, hx⟩ := iha he
      simp [UExpr.build, hx]
    | pow a k iha =>
      have h1 := abs_nonneg k
      simp only [UExpr.exponents] at he
      obtain ⟨x, hx⟩ := iha (by omega)
      simp [UExpr.build, hx]
  obtain ⟨n, hn⟩ := hb
  exact ⟨n, hn, fun env => C13_operators_partial same hs e n hn env⟩

/-- Non-vacuity: `pow(x,2)*pow(x,3) - 1/x` merges the powers. -/
example : (UExpr.sub (.mul (.pow (.leaf (.var 0)) 2) (.pow (.leaf (.var 0)) 3))
      (.div (.leaf (.int 1)) (.leaf (.var 0)))).build (fun a b => match a, b with
        | .var i, .var j => decide (i = j)
        | _, _ => false) =
    some (.sum (.cons true (.ipow (.var 0) 5)
      (.cons false (.mult (.cons true (.int 1) (.cons false (.var 0) .nil))) .nil))) := by
  simp [UExpr.build, mkPow, mkMul, mkSub, mkDiv, intMax]

end B2
