import Verif.Tree.Degree
import Verif.Tree.Spec
import Mathlib.Algebra.MvPolynomial.CommRing
import Mathlib.RingTheory.Polynomial.Basic

/-!
# Helper lemmas about degrees
-/

namespace B2

open MvPolynomial

/-! ### Polynomial functions with degree bounds -/

/-- Working form of "polynomial with these degree bounds". -/
def Good (vars : List Var) (env : Env) (f : Env → ℂ) (dv : Var → ℤ) (dg : ℤ) : Prop :=
  ∃ p : MvPolynomial Var ℂ, p.vars ⊆ vars.toFinset ∧
    (∀ v ∈ vars, (p.degreeOf v : ℤ) ≤ dv v) ∧ (0 ≤ dg → (p.totalDegree : ℤ) ≤ dg) ∧
    ∀ env', AgreeOff vars env env' → f env' = MvPolynomial.eval env' p

variable {vars : List Var} {env : Env} {f g : Env → ℂ} {dv dv' : Var → ℤ} {dg dg' : ℤ}

theorem Good.const (c : ℂ) (hf : ∀ env', AgreeOff vars env env' → f env' = c)
    (h : ∀ v ∈ vars, 0 ≤ dv v) : Good vars env f dv dg :=
  ⟨C c, by simp, fun v hv => by simpa using h v hv, fun h => by simpa using h,
    fun env' he => by simp [hf env' he]⟩

theorem Good.isConst (h : Good vars env f dv dg) (h0 : ∀ v ∈ vars, dv v ≤ 0) :
    ∀ env', AgreeOff vars env env' → f env' = f env := by
  obtain ⟨p, hp, hd, -, hf⟩ := h
  have hv : p.vars = ∅ := by
    apply Finset.eq_empty_of_forall_notMem
    intro v hv
    have h1 := hp hv
    rw [List.mem_toFinset] at h1
    have h2 := hd v h1
    have h3 := h0 v h1
    have h4 : p.degreeOf v = 0 := by omega
    exact (mem_vars_iff_degreeOf_ne_zero.mp hv) h4
  rw [vars_eq_empty_iff_eq_C] at hv
  intro env' he
  rw [hf env' he, hf env (fun _ _ => rfl), hv]
  simp

theorem Good.neg (h : Good vars env f dv dg) : Good vars env (fun e => -f e) dv dg := by
  obtain ⟨p, hp, hd, ht, hf⟩ := h
  exact ⟨-p, by rwa [vars_neg], fun v hv => by rw [degreeOf_neg]; exact hd v hv,
    fun h => by rw [totalDegree_neg]; exact ht h, fun env' he => by simp [hf env' he]⟩

theorem Good.add (h : Good vars env f dv dg) (h' : Good vars env g dv' dg') :
    Good vars env (fun e => f e + g e) (fun v => max (dv v) (dv' v))
      (if dg < 0 then dg else if dg' < 0 then dg' else max dg dg') := by
  obtain ⟨p, hp, hd, ht, hf⟩ := h
  obtain ⟨q, hq, hd', ht', hg⟩ := h'
  refine ⟨p + q, (vars_add_subset p q).trans (Finset.union_subset hp hq), ?_, ?_, ?_⟩
  · intro v hv
    have := degreeOf_add_le v p q
    have h1 := hd v hv
    have h2 := hd' v hv
    dsimp only
    omega
  · intro h0
    have := totalDegree_add p q
    split_ifs at h0 ⊢ <;> omega
  · intro env' he
    simp [hf env' he, hg env' he]

theorem Good.mul (h : Good vars env f dv dg) (h' : Good vars env g dv' dg') :
    Good vars env (fun e => f e * g e) (fun v => dv v + dv' v)
      (if dg < 0 then dg else if dg' < 0 then dg' else dg + dg') := by
  obtain ⟨p, hp, hd, ht, hf⟩ := h
  obtain ⟨q, hq, hd', ht', hg⟩ := h'
  refine ⟨p * q, (vars_mul p q).trans (Finset.union_subset hp hq), ?_, ?_, ?_⟩
  · intro v hv
    have := degreeOf_mul_le v p q
    have h1 := hd v hv
    have h2 := hd' v hv
    dsimp only
    omega
  · intro h0
    have := totalDegree_mul p q
    split_ifs at h0 ⊢ <;> omega
  · intro env' he
    simp [hf env' he, hg env' he]

theorem Good.mono (h : Good vars env f dv dg) (h1 : ∀ v ∈ vars, dv v ≤ dv' v)
    (h2 : 0 ≤ dg' → 0 ≤ dg ∧ dg ≤ dg') : Good vars env f dv' dg' := by
  obtain ⟨p, hp, hd, ht, hf⟩ := h
  refine ⟨p, hp, fun v hv => (hd v hv).trans (h1 v hv), fun h0 => ?_, hf⟩
  have := h2 h0
  exact (ht this.1).trans this.2

theorem Good.pow (k : ℕ) (h : Good vars env f dv dg) :
    Good vars env (fun e => f e ^ k) (fun v => k * dv v) (k * dg) := by
  obtain ⟨p, hp, hd, ht, hf⟩ := h
  refine ⟨p ^ k, (vars_pow p k).trans hp, ?_, ?_, ?_⟩
  · intro v hv
    have h1 := degreeOf_pow_le v p k
    have h2 := hd v hv
    have h3 : ((k * p.degreeOf v : ℕ) : ℤ) ≤ k * dv v := by
      push_cast
      exact mul_le_mul_of_nonneg_left h2 (by positivity)
    dsimp only
    omega
  · intro h0
    have h1 := totalDegree_pow p k
    rcases Nat.eq_zero_or_pos k with rfl | hk
    · simp
    · have h4 : 0 ≤ dg := by
        by_contra hlt
        have : (k : ℤ) * dg < 0 := mul_neg_of_pos_of_neg (by exact_mod_cast hk) (by omega)
        omega
      have h3 : ((k * p.totalDegree : ℕ) : ℤ) ≤ k * dg := by
        push_cast
        exact mul_le_mul_of_nonneg_left (ht h4) (by positivity)
      omega
  · intro env' he
    simp [hf env' he]

theorem totalDegree_le_sum (p : MvPolynomial Var ℂ) (hp : p.vars ⊆ vars.toFinset)
    (h : ∀ v ∈ vars, (p.degreeOf v : ℤ) ≤ dv v) : (p.totalDegree : ℤ) ≤ (vars.map dv).sum := by
  have h1 : p.totalDegree ≤ ∑ v ∈ vars.toFinset, p.degreeOf v := by
    rw [totalDegree]
    apply Finset.sup_le
    intro m hm
    rw [Finsupp.sum]
    have hs : m.support ⊆ vars.toFinset := by
      intro v hv
      exact hp ((mem_vars_iff_mem_support v).mpr ⟨m, hm, hv⟩)
    calc ∑ v ∈ m.support, m v ≤ ∑ v ∈ m.support, p.degreeOf v :=
          Finset.sum_le_sum fun v _ => monomial_le_degreeOf v hm
      _ ≤ ∑ v ∈ vars.toFinset, p.degreeOf v := Finset.sum_le_sum_of_subset hs
  have h2 : ∀ l : List Var, (∑ v ∈ l.toFinset, p.degreeOf v) ≤ (l.map p.degreeOf).sum := by
    intro l
    induction l with
    | nil => simp
    | cons a l ih =>
      simp only [List.toFinset_cons, List.map_cons, List.sum_cons]
      by_cases ha : a ∈ l.toFinset
      · rw [Finset.insert_eq_of_mem ha]; omega
      · rw [Finset.sum_insert ha]; omega
  have h3 : ∀ l : List Var, (∀ v ∈ l, (p.degreeOf v : ℤ) ≤ dv v) →
      (((l.map p.degreeOf).sum : ℕ) : ℤ) ≤ (l.map dv).sum := by
    intro l
    induction l with
    | nil => simp
    | cons a l ih =>
      intro hl
      simp only [List.map_cons, List.sum_cons]
      have ha := hl a (by simp)
      have := ih fun v hv => hl v (by simp [hv])
      push_cast at this ⊢
      omega
  have h4 := h2 vars
  have h5 := h3 vars h
  omega

theorem Good.toSum (h : Good vars env f dv dg) : Good vars env f dv (vars.map dv).sum := by
  obtain ⟨p, hp, hd, -, hf⟩ := h
  exact ⟨p, hp, hd, fun _ => totalDegree_le_sum p hp hd, hf⟩

/-! ### The folds of `UnaryOperator::Degree` and `PowerOperator::Degree` -/

theorem foldUnary_aux (l : List ℤ) (a : ℤ) (h : ∀ x ∈ l, 0 ≤ x) :
    l.foldl (fun deg n => if n < 0 then n else deg + n) a = a + l.sum := by
  induction l generalizing a with
  | nil => simp
  | cons x l ih =>
    have hx := h x (by simp)
    simp only [List.foldl_cons, List.sum_cons]
    rw [ih _ (fun y hy => h y (by simp [hy])), if_neg (by omega)]
    ring

theorem foldPow_aux (l : List ℤ) (a : ℤ) (h : ∀ x ∈ l, 0 ≤ x) :
    l.foldl (fun deg n => if n < 0 then -1 else deg + n) a = a + l.sum := by
  induction l generalizing a with
  | nil => simp
  | cons x l ih =>
    have hx := h x (by simp)
    simp only [List.foldl_cons, List.sum_cons]
    rw [ih _ (fun y hy => h y (by simp [hy])), if_neg (by omega)]
    ring

theorem foldUnary_of_nonneg (l : List ℤ) (h : ∀ x ∈ l, 0 ≤ x) : foldUnary l = l.sum := by
  rw [foldUnary, foldUnary_aux l 0 h, zero_add]

theorem foldPow_of_nonneg (l : List ℤ) (h : ∀ x ∈ l, 0 ≤ x) : foldPow l = l.sum := by
  rw [foldPow, foldPow_aux l 0 h, zero_add]

/-! ### Non-negative degrees of composite nodes -/

theorem degVSum_cons_nonneg {cur : Env} {v : Var} {s : Bool} {n : Node} {r : Ops} :
    0 ≤ degVSum cur v (.cons s n r) ↔ 0 ≤ degV cur v n ∧ 0 ≤ degVSum cur v r := by
  simp only [degVSum]
  split_ifs <;> omega

theorem degVSum_cons_eq {cur : Env} {v : Var} {s : Bool} {n : Node} {r : Ops}
    (h : 0 ≤ degVSum cur v (.cons s n r)) :
    degVSum cur v (.cons s n r) = max (degV cur v n) (degVSum cur v r) := by
  have := degVSum_cons_nonneg.mp h
  simp only [degVSum]
  split_ifs <;> omega

theorem degVMult_cons_nonneg {cur : Env} {v : Var} {m : Bool} {n : Node} {r : Ops} :
    0 ≤ degVMult cur v (.cons m n r) ↔
      0 ≤ degV cur v n ∧ 0 ≤ degVMult cur v r ∧ (m = false → degV cur v n = 0) := by
  simp only [degVMult]
  cases m <;> simp <;> split_ifs <;> omega

theorem degVMult_cons_eq {cur : Env} {v : Var} {m : Bool} {n : Node} {r : Ops}
    (h : 0 ≤ degVMult cur v (.cons m n r)) :
    degVMult cur v (.cons m n r) = degV cur v n + degVMult cur v r := by
  have h1 := degVMult_cons_nonneg.mp h
  simp only [degVMult]
  rw [if_neg (by omega), if_neg (by rintro ⟨h2, h3⟩; exact h2 (h1.2.2 h3)), if_neg (by omega)]

theorem transDeg_nonneg {d : ℤ} : 0 ≤ transDeg d ↔ d = 0 := by
  unfold transDeg; split_ifs <;> omega

theorem transDeg_eq_zero {d : ℤ} (h : 0 ≤ transDeg d) : transDeg d = 0 := by
  unfold transDeg at *; split_ifs at * <;> omega

theorem powDeg_nonneg {bd ed : ℤ} {z : ℂ} (h : 0 ≤ powDeg bd ed z) : ed = 0 := by
  unfold powDeg at h
  by_contra hne
  simp [hne] at h

end B2
