import Verif.Tree.DiffLemmas
import Verif.Tree.Spec

/-! The induction behind the correctness of `diff`. -/

namespace B2

open Complex

theorem cpow_deriv_aux {f : ℂ → ℂ} {f' x e : ℂ} (hf : HasDerivAt f f' x)
    (h : f x ∈ slitPlane ∨ (f x ≠ 0 ∧ ∃ k : ℤ, e = k) ∨ ∃ k : ℕ, 2 ≤ k ∧ e = k) :
    HasDerivAt (fun t => f t ^ e) (f' * (e * f x ^ (e - 1))) x := by
  rcases h with h | ⟨h0, k, rfl⟩ | ⟨k, hk, rfl⟩
  · exact (hf.cpow_const h).congr_deriv (by ring)
  · have h1 := (hasDerivAt_zpow k (f x) (Or.inl h0)).comp x hf
    have h2 : (fun t => f t ^ (k : ℂ)) = (fun z : ℂ => z ^ k) ∘ f := by
      funext t; simp [cpow_intCast]
    rw [h2]
    refine h1.congr_deriv ?_
    have : ((k : ℂ) - 1) = ((k - 1 : ℤ) : ℂ) := by push_cast; ring
    rw [this, cpow_intCast]; ring
  · have h1 := hf.pow k
    have h2 : (fun t => f t ^ (k : ℂ)) = fun t => f t ^ k := by
      funext t; simp [cpow_natCast]
    rw [h2]
    refine h1.congr_deriv ?_
    have : ((k : ℂ) - 1) = ((k - 1 : ℕ) : ℂ) := by
      rw [Nat.cast_sub (by omega)]; simp
    rw [this, cpow_natCast]; ring

theorem evalSum_diffSum_cons (env : Env) (v : Var) (f : Bool) (n : Node) (r : Ops) :
    evalSum env (diffSum v (.cons f n r)) =
      (if f then eval env (diff v n) else -eval env (diff v n)) + evalSum env (diffSum v r) := by
  rw [diffSum]
  split_ifs with h1 h2 h3
  all_goals first
    | (have := diff_isNumber_eval env v n h1; simp [this]; done)
    | (have := eval_numIsZero env (diff v n) (by simp_all; done); simp [this]; done)
    | simp_all [evalSum]

theorem diff_correct (v : Var) (env : Env) (n : Node) (hs : Smooth env n) (he : ExpFree v n) :
    HasDerivAt (fun t => eval (Function.update env v t) n) (eval env (diff v n)) (env v) := by
  induction n using Node.rec (motive_2 := fun ops => ExpFreeOps v ops →
    (SmoothSum env ops →
      HasDerivAt (fun t => evalSum (Function.update env v t) ops)
        (evalSum env (diffSum v ops)) (env v)) ∧
    (SmoothMult env ops → ∃ D,
      HasDerivAt (fun t => evalMult (Function.update env v t) ops) D (env v) ∧
      ∀ pre, evalSum env (diffMult v pre ops) = evalMult env pre * D)) with
  | nil =>
    refine ⟨fun _ => ?_, fun _ => ⟨0, ?_, fun pre => ?_⟩⟩
    · simpa [evalSum, diffSum] using hasDerivAt_const (env v) (0 : ℂ)
    · simpa [evalMult] using hasDerivAt_const (env v) (1 : ℂ)
    · simp [diffMult, evalSum]
  | cons f n r ih1 ih2 he =>
    obtain ⟨he1, he2⟩ := he
    obtain ⟨ihs, ihm⟩ := ih2 he2
    refine ⟨fun hs => ?_, fun hs => ?_⟩
    · obtain ⟨hs1, hs2⟩ := hs
      have hn := ih1 hs1 he1
      have hr := ihs hs2
      have key : HasDerivAt (fun t => evalSum (Function.update env v t) (.cons f n r))
          ((if f then eval env (diff v n) else -eval env (diff v n))
            + evalSum env (diffSum v r)) (env v) := by
        cases f
        · exact hn.neg.add hr
        · exact hn.add hr
      refine key.congr_deriv ?_
      rw [evalSum_diffSum_cons]
    · obtain ⟨hs1, hs2, hs3⟩ := hs
      have hn := ih1 hs1 he1
      obtain ⟨D, hD, hpre⟩ := ihm hs3
      have hsame : ∀ n, eval (Function.update env v (env v)) n = eval env n := by
        intro n; rw [Function.update_eq_self]
      have hsame' : ∀ n, evalMult (Function.update env v (env v)) n = evalMult env n := by
        intro n; rw [Function.update_eq_self]
      cases f
      · have h0 := hs2 rfl
        have hinv : HasDerivAt (fun t => (eval (Function.update env v t) n)⁻¹)
            (-(eval env (diff v n)) / (eval env n) ^ 2) (env v) := by
          have := hn.inv (by rw [hsame]; exact h0)
          rw [hsame] at this
          exact this
        refine ⟨-(eval env (diff v n)) / (eval env n) ^ 2 * evalMult env r
            + (eval env n)⁻¹ * D, ?_, fun pre => ?_⟩
        · have := hinv.mul hD
          rw [hsame, hsame'] at this
          exact this
        · simp only [diffMult, diff_isFloatZero, diff_isFloatOne, Bool.false_eq_true, if_false,
            evalSum, hpre, eval, evalMult, evalMult_append, evalMult_quotientTail]
          simp only [if_true]
          rw [div_eq_mul_inv]
          ring
      · refine ⟨eval env (diff v n) * evalMult env r + eval env n * D, ?_, fun pre => ?_⟩
        · have := hn.mul hD
          rw [hsame, hsame'] at this
          exact this
        · simp only [diffMult, diff_isFloatZero, diff_isFloatOne, Bool.false_eq_true, if_false,
            evalSum, hpre, eval, evalMult, evalMult_append, evalMult_quotientTail, if_true]
          ring
  | int => simpa [eval, diff] using hasDerivAt_const (env v) (_ : ℂ)
  | float => simpa [eval, diff] using hasDerivAt_const (env v) (_ : ℂ)
  | rat => simpa [eval, diff] using hasDerivAt_const (env v) (_ : ℂ)
  | special s => cases s <;> simpa [eval, diff] using hasDerivAt_const (env v) (_ : ℂ)
  | var w =>
    by_cases h : v = w
    · subst h
      refine HasDerivAt.congr_deriv (f' := 1) ?_ (by simp [eval, diff])
      simp only [eval, Function.update_self]
      exact hasDerivAt_id (env v)
    · simpa [eval, diff, h, Function.update_of_ne (Ne.symm h)]
        using hasDerivAt_const (env v) (env w)
  | sum ops ih =>
    simp only [eval, diff, eval_sumOrZero]
    exact (ih he).1 hs
  | mult ops ih =>
    simp only [eval, diff, eval_sumOrZero]
    obtain ⟨D, hD, hpre⟩ := (ih he).2 hs
    rw [hpre]
    simpa [evalMult] using hD
  | neg n ih => exact (ih hs he).neg
  | pow b e ih1 ih2 =>
    obtain ⟨hs1, hs2, hs3⟩ := hs
    obtain ⟨he1, he2⟩ := he
    have hb := ih1 hs1 he1
    have h := cpow_deriv_aux (e := eval env e) hb (by
      simp only [Function.update_eq_self]; exact hs3)
    simp only [Function.update_eq_self] at h
    have hfun : (fun t => eval (Function.update env v t) (.pow b e)) =
        fun t => eval (Function.update env v t) b ^ eval env e := by
      funext t; simp only [eval]; rw [eval_update_of_not_mem env v t e he2]
    rw [hfun]
    refine h.congr_deriv ?_
    simp [diff, eval, evalMult, evalSum, sub_eq_add_neg]
  | ipow n k ih =>
    obtain ⟨hs1, hs2⟩ := hs
    have hn := ih hs1 he
    have h1 := (hasDerivAt_zpow k (eval env n) (Or.symm hs2))
    rw [← Function.update_eq_self v env] at h1
    have h := h1.comp (env v) (by simpa only [Function.update_eq_self] using hn)
    simp only [Function.update_eq_self] at h
    have hfun : (fun t => eval (Function.update env v t) (.ipow n k)) =
        (fun z : ℂ => z ^ k) ∘ fun t => eval (Function.update env v t) n := by
      funext t; simp [eval]
    rw [hfun]
    refine h.congr_deriv ?_
    rw [diff]
    by_cases h1 : k = 0
    · subst h1; simp [eval]
    by_cases h2 : k = 1
    · subst h2; simp
    by_cases h3 : k = 2
    · subst h3; simp [eval, evalMult]; ring
    · rw [if_neg h1, if_neg h2, if_neg h3]
      simp [eval, evalMult]; ring
  | sqrt n ih =>
    have hn := ih hs.1 he
    have h := hn.cpow_const (c := (1 / 2 : ℂ)) (by simpa only [Function.update_eq_self] using hs.2)
    simp only [Function.update_eq_self] at h
    simp only [eval]
    refine h.congr_deriv ?_
    simp only [diff, eval, evalMult, if_true]
    have : ((1 : ℂ) / 2 - 1) = -1 / 2 := by norm_num
    rw [this]
    push_cast
    simp
    ring
  | exp n ih =>
    have h := (ih hs he).cexp
    simp only [Function.update_eq_self] at h
    simpa [eval, diff, evalMult] using h
  | log n ih =>
    have h := (ih hs.1 he).clog (by simpa only [Function.update_eq_self] using hs.2)
    simp only [Function.update_eq_self] at h
    simp only [eval]
    refine h.congr_deriv ?_
    simp [diff, eval, evalMult, div_eq_mul_inv, mul_comm]
  | sin n ih =>
    have h := (ih hs he).csin
    simp only [Function.update_eq_self] at h
    simpa [eval, diff, evalMult] using h
  | cos n ih =>
    have h := (ih hs he).ccos
    simp only [Function.update_eq_self] at h
    simpa [eval, diff, evalMult] using h
  | tan n ih =>
    have h := (Complex.hasDerivAt_tan hs.2)
    rw [← Function.update_eq_self v env] at h
    have h' := h.comp (env v) (by simpa only [Function.update_eq_self] using ih hs.1 he)
    simp only [Function.update_eq_self] at h'
    simp only [eval]
    refine HasDerivAt.congr_deriv h' ?_
    simp [diff, eval, evalMult]
    ring
  | asin n ih =>
    have h := (hasDerivAt_carcsin _ hs.2)
    rw [← Function.update_eq_self v env] at h
    have h' := h.comp (env v) (by simpa only [Function.update_eq_self] using ih hs.1 he)
    simp only [Function.update_eq_self] at h'
    simp only [eval]
    refine HasDerivAt.congr_deriv h' ?_
    simp [diff, eval, evalMult, evalSum, sub_eq_add_neg]
    ring
  | acos n ih =>
    have h := ((hasDerivAt_carcsin _ hs.2).const_sub ((Real.pi : ℂ) / 2))
    rw [← Function.update_eq_self v env] at h
    have h' := h.comp (env v) (by simpa only [Function.update_eq_self] using ih hs.1 he)
    simp only [Function.update_eq_self] at h'
    simp only [eval]
    refine HasDerivAt.congr_deriv h' ?_
    simp [diff, eval, evalMult, evalSum, sub_eq_add_neg]
    ring
  | atan n ih =>
    have h := (hasDerivAt_arctan _ hs.2.1 hs.2.2)
    rw [← Function.update_eq_self v env] at h
    have h' := h.comp (env v) (by simpa only [Function.update_eq_self] using ih hs.1 he)
    simp only [Function.update_eq_self] at h'
    simp only [eval]
    refine HasDerivAt.congr_deriv h' ?_
    simp [diff, eval, evalMult, evalSum]
    ring
  | fn n ih => simpa [eval, diff] using ih hs he

end B2
