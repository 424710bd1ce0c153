import Verif.Infra.Hermitian
import Mathlib.Data.Complex.BigOperators
import Mathlib.Algebra.BigOperators.Group.List.Basic

/-!
# C191: Hermitian products of multiprecision vectors
-/

namespace B2.Infra.Herm

open ComplexConjugate

/-- Exact arithmetic. -/
noncomputable def exact : Arith ℝ := ⟨0, (· + ·), (· - ·), (· * ·)⟩

/-- The complex number with the given parts. -/
def toC (x : ℝ × ℝ) : ℂ := ⟨x.1, x.2⟩

/-- What correctly rounded arithmetic satisfies: products commute, `x - x` and `0 + 0` are zero, and squares and sums of
nonnegative numbers are nonnegative. (Infinite values and `NaN` are excluded.) -/
structure Rounded {F : Type} (A : Arith F) (nonneg : F → Prop) : Prop where
  mul_comm : ∀ x y, A.mul x y = A.mul y x
  sub_self : ∀ x, A.sub x x = A.zero
  add_zero : A.add A.zero A.zero = A.zero
  zero_nonneg : nonneg A.zero
  sq_nonneg : ∀ x, nonneg (A.mul x x)
  add_nonneg : ∀ x y, nonneg x → nonneg y → nonneg (A.add x y)

theorem toC_pmulTF (x y : ℝ × ℝ) : toC (pmulTF exact x y) = conj (toC x) * toC y := by
  apply Complex.ext <;> simp [toC, pmulTF, exact] <;> ring

theorem toC_pmulFT (x y : ℝ × ℝ) : toC (pmulFT exact x y) = toC x * conj (toC y) := by
  apply Complex.ext <;> simp [toC, pmulFT, exact] <;> ring

theorem toC_cadd (x y : ℝ × ℝ) : toC (cadd exact x y) = toC x + toC y := by
  apply Complex.ext <;> simp [toC, cadd, exact]

theorem fold_sum (g : ℝ × ℝ → ℝ × ℝ → ℝ × ℝ) (h : ℂ → ℂ → ℂ) (hg : ∀ x y, toC (g x y) = h (toC x) (toC y))
    (l : List ((ℝ × ℝ) × (ℝ × ℝ))) (c : ℝ × ℝ) :
    toC (l.foldl (fun c p => cadd exact c (g p.1 p.2)) c) = toC c + (l.map fun p => h (toC p.1) (toC p.2)).sum := by
  induction l generalizing c with
  | nil => simp
  | cons p l ih => rw [List.foldl_cons, ih, toC_cadd, hg, List.map_cons, List.sum_cons, add_assoc]

theorem fold_real (l : List (ℝ × ℝ)) (c : ℝ) :
    l.foldl (fun c x => exact.add c (abs2 exact x)) c = c + (l.map fun x => Complex.normSq (toC x)).sum := by
  induction l generalizing c with
  | nil => simp
  | cons p l ih =>
    rw [List.foldl_cons, ih, List.map_cons, List.sum_cons]
    simp only [exact, abs2, toC, Complex.normSq_mk]
    ring

/-- **C191, exact arithmetic.** `u.dot(v)` and the entries of products with an adjoint on the left are sums of `conj u_k * v_k`, those
of products with an adjoint on the right sums of `u_k * conj v_k`, and the squared norm is the sum of the squared moduli. -/
theorem C191 (u v : List (ℝ × ℝ)) :
    toC (dotTF exact u v) = ((u.zip v).map fun p => conj (toC p.1) * toC p.2).sum ∧
    toC (dotFT exact u v) = ((u.zip v).map fun p => toC p.1 * conj (toC p.2)).sum ∧
    squaredNorm exact u = (u.map fun x => Complex.normSq (toC x)).sum := by
  have h0 : toC (exact.zero, exact.zero) = 0 := by apply Complex.ext <;> simp [toC, exact]
  refine ⟨?_, ?_, ?_⟩
  · have := fold_sum (pmulTF exact) (fun a b => conj a * b) toC_pmulTF (u.zip v) (exact.zero, exact.zero)
    rw [h0, zero_add] at this
    exact this
  · have := fold_sum (pmulFT exact) (fun a b => a * conj b) toC_pmulFT (u.zip v) (exact.zero, exact.zero)
    rw [h0, zero_add] at this
    exact this
  · rw [squaredNorm, fold_real]
    simp [exact]

theorem self_fold {F : Type} {A : Arith F} {nn : F → Prop} (hA : Rounded A nn) (u : List (F × F)) (r : F) :
    (u.zip u).foldl (fun c p => pmaddTF A p.1 p.2 c) (r, A.zero) = (u.foldl (fun c x => A.add c (abs2 A x)) r, A.zero) ∧
    (u.zip u).foldl (fun c p => pmaddFT A p.1 p.2 c) (r, A.zero) = (u.foldl (fun c x => A.add c (abs2 A x)) r, A.zero) := by
  induction u generalizing r with
  | nil => exact ⟨rfl, rfl⟩
  | cons x u ih =>
    simp only [List.zip_cons_cons, List.foldl_cons]
    have e1 : pmaddTF A x x (r, A.zero) = (A.add r (abs2 A x), A.zero) := by
      simp only [pmaddTF, pmulTF, cadd, abs2]
      rw [hA.mul_comm x.2 x.1, hA.sub_self, hA.add_zero]
    have e2 : pmaddFT A x x (r, A.zero) = (A.add r (abs2 A x), A.zero) := by
      simp only [pmaddFT, pmulFT, cadd, abs2]
      rw [hA.mul_comm x.2 x.1, hA.sub_self, hA.add_zero]
    rw [e1, e2]
    exact ih _

/-- **C191, rounded arithmetic.** The product of a vector with itself is real, nonnegative, and is its squared norm: exactly, whatever
the rounding. -/
theorem C191_rounded {F : Type} (A : Arith F) (nn : F → Prop) (hA : Rounded A nn) (u : List (F × F)) :
    dotTF A u u = (squaredNorm A u, A.zero) ∧ dotFT A u u = (squaredNorm A u, A.zero) ∧ nn (squaredNorm A u) := by
  refine ⟨(self_fold hA u _).1, (self_fold hA u _).2, ?_⟩
  have key : ∀ (u : List (F × F)) (r : F), nn r → nn (u.foldl (fun c x => A.add c (abs2 A x)) r) := by
    intro u
    induction u with
    | nil => intro r hr; exact hr
    | cons x u ih =>
      intro r hr
      exact ih _ (hA.add_nonneg _ _ hr (hA.add_nonneg _ _ (hA.sq_nonneg _) (hA.sq_nonneg _)))
  exact key u _ hA.zero_nonneg

/-- The norm vanishes only for the zero vector (exact arithmetic). -/
theorem C191_definite (u : List (ℝ × ℝ)) : squaredNorm exact u = 0 ↔ ∀ x ∈ u, x = (0, 0) := by
  rw [(C191 u u).2.2]
  induction u with
  | nil => simp
  | cons x u ih =>
    have h1 : 0 ≤ (u.map fun x => Complex.normSq (toC x)).sum :=
      List.sum_nonneg fun a ha => by
        obtain ⟨y, -, rfl⟩ := List.mem_map.1 ha
        exact Complex.normSq_nonneg _
    have h2 := Complex.normSq_nonneg (toC x)
    have h3 : Complex.normSq (toC x) = 0 ↔ x = (0, 0) := by
      rw [Complex.normSq_eq_zero]
      obtain ⟨a, b⟩ := x
      simp [toC, Complex.ext_iff]
    rw [List.map_cons, List.sum_cons, add_eq_zero_iff_of_nonneg h2 h1, h3, ih]
    simp

/-- Exact arithmetic, and arithmetic on integers rounded toward zero to multiples of ten, are instances. -/
example : Rounded exact (0 ≤ ·) :=
  ⟨fun x y => _root_.mul_comm x y, fun x => _root_.sub_self x, by simp [exact], le_refl _, fun x => mul_self_nonneg x,
    fun _ _ h1 h2 => _root_.add_nonneg h1 h2⟩

example : Rounded (⟨0, fun x y => (x + y).tdiv 10 * 10, fun x y => (x - y).tdiv 10 * 10, fun x y => (x * y).tdiv 10 * 10⟩ : Arith ℤ)
    (0 ≤ ·) :=
  ⟨fun x y => by dsimp only; rw [_root_.mul_comm x y], fun x => by simp, by simp, le_refl _,
    fun x => mul_nonneg (Int.tdiv_nonneg (mul_self_nonneg x) (by norm_num)) (by norm_num),
    fun _ _ h1 h2 => mul_nonneg (Int.tdiv_nonneg (_root_.add_nonneg h1 h2) (by norm_num)) (by norm_num)⟩

/-- `(i, 1)` times `(1, i)`: `conj i * 1 + conj 1 * i = 0`. -/
example : toC (dotTF exact [(0, 1), (1, 0)] [(1, 0), (0, 1)]) = 0 ∧ squaredNorm exact [(0, 1), (1, 0)] = 2 := by
  constructor
  · rw [(C191 _ _).1]
    apply Complex.ext <;> simp [toC]
  · rw [(C191 _ []).2.2]
    simp [toC, Complex.normSq_mk]
    norm_num

end B2.Infra.Herm
