import Verif.Tree.PropsHom

/-!
# C87: `IsHomogeneous` recognises forms
-/

namespace B2

mutual
/-- The expressions that are built as homogeneous polynomials in the variables `vars`: numbers and
variables, products (and quotients by degree 0), sums of terms of one degree, negations, powers with an
integer exponent `≥ 0`, and functions of expressions of degree 0. The number is the degree. -/
inductive Form (vars : List Var) : Node → ℕ → Prop
  | int (z) : Form vars (.int z) 0
  | float (re im) : Form vars (.float re im) 0
  | rat (re im) : Form vars (.rat re im) 0
  | special (s) : Form vars (.special s) 0
  | var {v} : v ∈ vars → Form vars (.var v) 1
  | other {v} : v ∉ vars → Form vars (.var v) 0
  | sum {f n r d} : Form vars n d → FormSum vars d r → Form vars (.sum (.cons f n r)) d
  | mult {ops d} : FormMult vars ops d → Form vars (.mult ops) d
  | neg {n d} : Form vars n d → Form vars (.neg n) d
  | ipow {n d} (k : ℕ) : Form vars n d → Form vars (.ipow n k) (k * d)
  | pow {n d} (k : ℕ) : Form vars n d → Form vars (.pow n (.int k)) (k * d)
  | sqrt {n} : Form vars n 0 → Form vars (.sqrt n) 0
  | exp {n} : Form vars n 0 → Form vars (.exp n) 0
  | log {n} : Form vars n 0 → Form vars (.log n) 0
  | sin {n} : Form vars n 0 → Form vars (.sin n) 0
  | cos {n} : Form vars n 0 → Form vars (.cos n) 0
  | tan {n} : Form vars n 0 → Form vars (.tan n) 0
  | asin {n} : Form vars n 0 → Form vars (.asin n) 0
  | acos {n} : Form vars n 0 → Form vars (.acos n) 0
  | atan {n} : Form vars n 0 → Form vars (.atan n) 0
  | fn {n d} : Form vars n d → Form vars (.fn n) d
/-- All operands are forms of degree `d`. -/
inductive FormSum (vars : List Var) : ℕ → Ops → Prop
  | nil {d} : FormSum vars d .nil
  | cons {f n r d} : Form vars n d → FormSum vars d r → FormSum vars d (.cons f n r)
/-- All operands are forms, divisors of degree 0; the degree is the sum. -/
inductive FormMult (vars : List Var) : Ops → ℕ → Prop
  | nil : FormMult vars .nil 0
  | mul {n r d e} : Form vars n d → FormMult vars r e → FormMult vars (.cons true n r) (d + e)
  | div {n r e} : Form vars n 0 → FormMult vars r e → FormMult vars (.cons false n r) e
end

/-- C87, full statement: `IsHomogeneous(vars)` answers true on every form, and `Degree(vars)` is its
degree. -/
def C87_full : Prop :=
  ∀ (cur : Env) (vars : List Var) (n : Node) (d : ℕ), vars.Nodup → Form vars n d →
    isHom cur vars n ∧ degG cur vars n = d

/-- The code violates C87: `(x+y)^2 + x*y` is not recognised, since the degree of `(x+y)^2` in the group is
computed as 4. -/
theorem C87_recognised_refuted : ¬ C87_full := by
  intro H
  have h := (H (fun _ => 0) [0, 1] (.sum (.cons true (.ipow (.sum (.cons true (.var 0)
    (.cons true (.var 1) .nil))) (2 : ℕ)) (.cons true (.mult (.cons true (.var 0)
    (.cons true (.var 1) .nil))) .nil))) 2 (by decide)
    (.sum (.ipow (d := 1) 2 (.sum (.var (by simp)) (.cons (.var (by simp)) .nil)))
      (.cons (.mult (d := 1 + (1 + 0)) (.mul (.var (by simp)) (.mul (.var (by simp)) .nil))) .nil))).1
  simp [isHom, isHomOps, sumDegreesAgree, allDegreesEq, degG, degGMult, degV, degVSum, foldUnary] at h

theorem form_recognised (cur : Env) (vars : List Var) (n : Node) :
    (∀ d : ℕ, Form vars n d → ExactUnary cur vars n → isHom cur vars n ∧ degG cur vars n = d ∧
      ∀ v ∈ vars, 0 ≤ degV cur v n ∧ degV cur v n ≤ d) := by
  induction n using Node.rec (motive_2 := fun ops => ExactUnaryOps cur vars ops →
    (∀ d : ℕ, FormSum vars d ops → isHomOps cur vars ops ∧ allDegreesEq cur vars d ops ∧
      ∀ v ∈ vars, 0 ≤ degVSum cur v ops ∧ degVSum cur v ops ≤ d) ∧
    (∀ d : ℕ, FormMult vars ops d → isHomOps cur vars ops ∧ degGMult cur vars ops = d ∧
      ∀ v ∈ vars, 0 ≤ degVMult cur v ops ∧ degVMult cur v ops ≤ d)) with
  | nil he =>
    refine ⟨fun d _ => ⟨trivial, trivial, fun _ _ => by simp [degVSum]⟩, fun d h => ?_⟩
    cases h
    exact ⟨trivial, rfl, fun _ _ => by simp [degVMult]⟩
  | cons f n r ih1 ih2 he =>
    obtain ⟨he1, he2⟩ := he
    obtain ⟨i1, i2⟩ := ih2 he2
    refine ⟨fun d h => ?_, fun d h => ?_⟩
    · cases h with
      | cons h1 h2 =>
        obtain ⟨a1, a2, a3⟩ := ih1 d h1 he1
        obtain ⟨b1, b2, b3⟩ := i1 d h2
        refine ⟨⟨a1, b1⟩, ⟨a2, b2⟩, fun v hv => ?_⟩
        have := a3 v hv
        have := b3 v hv
        simp only [degVSum]
        rw [if_neg (by omega), if_neg (by omega)]
        omega
    · cases h with
      | mul h1 h2 =>
        obtain ⟨a1, a2, a3⟩ := ih1 _ h1 he1
        obtain ⟨b1, b2, b3⟩ := i2 _ h2
        refine ⟨⟨a1, b1⟩, ?_, fun v hv => ?_⟩
        · simp only [degGMult, a2, b2]
          rw [if_neg (by omega), if_neg (by simp), if_neg (by omega)]
          push_cast; rfl
        · have := a3 v hv
          have := b3 v hv
          simp only [degVMult]
          rw [if_neg (by omega), if_neg (by simp), if_neg (by omega)]
          push_cast
          omega
      | div h1 h2 =>
        obtain ⟨a1, a2, a3⟩ := ih1 _ h1 he1
        obtain ⟨b1, b2, b3⟩ := i2 _ h2
        refine ⟨⟨a1, b1⟩, ?_, fun v hv => ?_⟩
        · simp only [degGMult, a2, b2]
          rw [if_neg (by omega), if_neg (by simp), if_neg (by omega)]
          simp
        · have h3 := a3 v hv
          have h4 := b3 v hv
          have h5 : degV cur v n = 0 := by omega
          simp only [degVMult, h5]
          rw [if_neg (by omega), if_neg (by simp), if_neg (by omega)]
          omega
  | int | float | rat | special =>
    intro d h _
    cases h
    simp [isHom, degG, degV]
  | var w =>
    intro d h _
    cases h with
    | var h =>
      refine ⟨trivial, by simp [degG, h], fun v hv => ?_⟩
      simp only [degV]; split_ifs <;> simp
    | other h =>
      refine ⟨trivial, by simp [degG, h], fun v hv => ?_⟩
      have : w ≠ v := fun e => h (e ▸ hv)
      simp [degV, this]
  | sum ops ih =>
    intro d h he
    cases h with
    | sum h1 h2 =>
      obtain ⟨b1, ⟨b2, b2'⟩, b3⟩ := (ih he).1 d (.cons h1 h2)
      refine ⟨⟨b1, ?_⟩, ?_, by simpa only [degV] using b3⟩
      · simp only [sumDegreesAgree, b2]
        exact ⟨by omega, b2'⟩
      · have h2 := degGSum_allEq _ (by omega : (0 : ℤ) ≤ d) _ b2'
        simp only [degG, degGSum, b2]
        rw [if_neg (by omega), if_neg (by omega)]
        omega
  | mult ops ih =>
    intro d h he
    cases h with
    | mult h =>
      obtain ⟨b1, b2, b3⟩ := (ih he).2 d h
      exact ⟨b1, by simpa only [degG] using b2, by simpa only [degV] using b3⟩
  | fn n ih =>
    intro d h he
    cases h with
    | fn h =>
      obtain ⟨b1, b2, b3⟩ := ih d h he
      exact ⟨b1, by simpa only [degG] using b2, by simpa only [degV] using b3⟩
  | neg n ih =>
    intro d h he
    cases h with
    | neg h =>
      obtain ⟨b1, b2, b3⟩ := ih d h he.1
      refine ⟨b1, ?_, by simpa only [degV] using b3⟩
      rw [degG, degG_unary_sum (fun v hv => by simpa only [degV] using (b3 v hv).1), ← b2, he.2]
      simp only [degV]
  | ipow n k ih =>
    intro d h he
    cases h with
    | ipow k h =>
      obtain ⟨b1, b2, b3⟩ := ih _ h he.1
      have e : ∀ v ∈ vars, degV cur v (.ipow n k) = k * degV cur v n := fun v hv => by
        have := b3 v hv
        simp only [degV]
        rw [if_neg (by omega)]
      have h0 : ∀ v ∈ vars, 0 ≤ degV cur v (.ipow n k) := fun v hv => by
        rw [e v hv]; have := (b3 v hv).1; positivity
      refine ⟨b1, ?_, fun v hv => ⟨h0 v hv, ?_⟩⟩
      · rw [degG, degG_unary_sum h0, List.map_congr_left e, List.sum_map_mul_left, ← he.2, b2]
        push_cast; rfl
      · rw [e v hv]
        push_cast
        have := (b3 v hv).2
        gcongr
  | pow n e ih _ =>
    intro d h he
    cases h with
    | pow k h =>
      obtain ⟨b1, b2, b3⟩ := ih _ h he.1
      have e : ∀ v ∈ vars, degV cur v (.pow n (.int k)) = k * degV cur v n := fun v hv => by
        have h1 := (b3 v hv).1
        simp only [degV, eval]
        rcases Nat.eq_zero_or_pos k with rfl | hk
        · have h6 : ‖(((0 : ℕ) : ℤ) : ℂ) - 0‖ < tol := by simpa using tol_pos
          unfold powDeg
          rw [if_pos rfl, if_pos (nearInt_int _), if_pos h6]
          simp
        · rw [powDeg_int (by omega) h1, mul_comm]
      have h0 : ∀ v ∈ vars, 0 ≤ degV cur v (.pow n (.int k)) := fun v hv => by
        rw [e v hv]; have := (b3 v hv).1; positivity
      refine ⟨⟨rfl, ?_, ?_, b1⟩, ?_, fun v hv => ⟨h0 v hv, ?_⟩⟩
      · simp only [eval]; exact nearInt_int _
      · simp [eval]
      · rw [degG, degG_pow_sum h0, List.map_congr_left e, List.sum_map_mul_left, ← he.2, b2]
        push_cast; rfl
      · rw [e v hv]
        push_cast
        have := (b3 v hv).2
        gcongr
  | _ n ih =>
    intro d h he
    cases h
    obtain ⟨b1, b2, b3⟩ := ih 0 (by assumption) he
    have b4 : ∀ v ∈ vars, degV cur v n = 0 := fun v hv => by have := b3 v hv; omega
    refine ⟨?_, ?_, fun v hv => by simp [degV, b4 v hv, transDeg]⟩
    · simp only [isHom]
      rw [degG, degG_unary_sum (fun v hv => by simp [degV, b4 v hv, transDeg])]
      exact sum_map_zero fun v hv => by simp [degV, b4 v hv, transDeg]
    · rw [degG, degG_unary_sum (fun v hv => by simp [degV, b4 v hv, transDeg])]
      exact sum_map_zero fun v hv => by simp [degV, b4 v hv, transDeg]

/-- C87 when the group-degree rule of negations and powers is right for their operands. Missing: powers
and negations of sums mixing variables of the group, where the claim is false. -/
theorem C87_recognised_partial (cur : Env) (vars : List Var) (n : Node) (d : ℕ) (h : Form vars n d)
    (he : ExactUnary cur vars n) : isHom cur vars n ∧ degG cur vars n = d :=
  let ⟨a, b, _⟩ := form_recognised cur vars n d h he
  ⟨a, b⟩

/-- C87 for groups of one variable. -/
theorem C87_recognised_single (cur : Env) (v : Var) (n : Node) (d : ℕ) (h : Form [v] n d) :
    isHom cur [v] n ∧ degG cur [v] n = d :=
  C87_recognised_partial cur [v] n d h (exactUnary_single cur v n)

/-- Non-vacuity: `-(x*y) + sin(z) * x^2` in the group `x, y`. -/
example (cur : Env) : isHom cur [0, 1] (.sum (.cons true (.neg (.mult (.cons true (.var 0)
    (.cons true (.var 1) .nil)))) (.cons true (.mult (.cons true (.sin (.var 2))
    (.cons true (.pow (.var 0) (.int 2)) .nil))) .nil))) :=
  (C87_recognised_partial cur [0, 1] _ 2
    (.sum (.neg (.mult (d := 1 + (1 + 0)) (.mul (.var (by simp)) (.mul (.var (by simp)) .nil))))
      (.cons (.mult (d := 0 + (2 * 1 + 0)) (.mul (.sin (.other (by simp)))
        (.mul (.pow 2 (.var (by simp))) .nil))) .nil))
    (by simp [ExactUnary, ExactUnaryOps, degG, degGMult, degV, degVMult])).1

end B2
