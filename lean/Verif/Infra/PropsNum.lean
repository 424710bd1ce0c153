/-
C65, C66, C77, C78, C80: integer powers, random units, LU check, linear slices.
-/
import Verif.Infra.Num
import Mathlib.LinearAlgebra.Matrix.Block
import Mathlib.Tactic.Ring
import Mathlib.Tactic.NormNum
import Mathlib.Tactic.Positivity
import Mathlib.Tactic.Linarith
import Mathlib.Tactic.FieldSimp

namespace B2.Infra

/-! ### C65 -/

theorem powLoop_eq {K : Type} [Field K] (p : ℕ) : ∀ (result sq : K), powLoop p result sq = result * sq ^ p := by
  induction p using Nat.strong_induction_on with
  | _ p ih =>
    intro result sq
    rw [powLoop]
    have hp : p = 2 * (p / 2) + p % 2 := by omega
    by_cases h : p / 2 = 0
    · rw [if_pos h]
      have h01 : p = 0 ∨ p = 1 := by omega
      rcases h01 with rfl | rfl <;> simp
    · rw [if_neg h, ih (p / 2) (by omega)]
      conv_rhs => rw [hp]
      rcases Nat.mod_two_eq_zero_or_one p with h0 | h0
      · rw [h0]
        simp only [Nat.zero_ne_one, if_false, Nat.add_zero]
        rw [pow_mul, pow_two]
      · rw [h0, if_pos rfl, pow_add, pow_mul, pow_two, pow_one]
        ring

theorem powNonneg_eq {K : Type} [Field K] (z : K) (n : ℕ) : powNonneg z n = z ^ n := by
  unfold powNonneg
  split_ifs with h0 h1 h2 h3
  · subst h0; simp
  · subst h1; simp
  · subst h2; ring
  · subst h3; ring
  · rw [powLoop_eq, one_mul]

/-- **C65**: for every `int` exponent but the most negative one, and every base (not zero when the exponent is negative),
the result is the integer power.  Outside these conditions there is no result. -/
theorem C65 {K : Type} [Field K] [DecidableEq K] (z : K) (n : ℤ) (hn : -2 ^ 31 ≤ n) :
    (n ≠ -2 ^ 31 → (n < 0 → z ≠ 0) → powInt z n = some (z ^ n)) ∧
    (powInt z n = none ↔ n = -2 ^ 31 ∨ (n < 0 ∧ z = 0)) := by
  have h1 : n ≠ -2 ^ 31 → (n < 0 → z ≠ 0) → powInt z n = some (z ^ n) := by
    intro hmin hz
    unfold powInt
    by_cases h : n < 0
    · rw [if_pos h, if_neg hmin, if_neg (hz h), powNonneg_eq]
      congr 1
      obtain ⟨m, hm⟩ : ∃ m : ℕ, n = -(m : ℤ) := ⟨(-n).toNat, by omega⟩
      subst hm
      rw [zpow_neg, zpow_natCast]
      simp
    · rw [if_neg h, powNonneg_eq]
      congr 1
      obtain ⟨m, hm⟩ : ∃ m : ℕ, n = (m : ℤ) := ⟨n.toNat, by omega⟩
      subst hm
      simp
  refine ⟨h1, ?_⟩
  constructor
  · intro hnone
    by_cases hmin : n = -2 ^ 31
    · exact .inl hmin
    · by_cases hz : n < 0 → z ≠ 0
      · rw [h1 hmin hz] at hnone; cases hnone
      · push Not at hz; exact .inr hz
  · rintro (h | ⟨h, hz⟩)
    · unfold powInt
      rw [if_pos (by rw [h]; norm_num), if_pos h]
    · unfold powInt
      rw [if_pos h]
      split_ifs <;> rfl

example : powInt (2 : ℚ) 11 = some 2048 ∧ powInt (2 : ℚ) (-5) = some (1 / 32) ∧ powInt (0 : ℚ) (-1) = none := by
  refine ⟨?_, ?_, ?_⟩
  · rw [(C65 (2 : ℚ) 11 (by norm_num)).1 (by norm_num) (by norm_num)]; norm_num
  · rw [(C65 (2 : ℚ) (-5) (by norm_num)).1 (by norm_num) (by norm_num)]; norm_num
  · rw [(C65 (0 : ℚ) (-1) (by norm_num)).2]; norm_num

/-! ### C66 -/

/-- A number that can be drawn: both parts in [-1,1], not zero. -/
def Draw (z : ℂ) : Prop := |z.re| ≤ 1 ∧ |z.im| ≤ 1 ∧ z ≠ 0

/-- **C66, full statement**: every draw gives a number of modulus one. -/
def C66_full : Prop := ∀ z : ℂ, Draw z → ‖randUnitMp z‖ = 1 ∧ ‖randUnitDbl z‖ = 1

theorem norm_randUnitMp (z : ℂ) (hz : z ≠ 0) : ‖randUnitMp z‖ = Real.sqrt ‖z‖ := by
  have h : (0 : ℝ) < ‖z‖ := norm_pos_iff.2 hz
  unfold randUnitMp
  rw [norm_div, Complex.norm_real, Real.norm_of_nonneg (Real.sqrt_nonneg _)]
  rw [div_eq_iff (Real.sqrt_pos.2 h).ne', Real.mul_self_sqrt h.le]

/-- **C66, partial**: in double precision the modulus is one.  In multiple precision the modulus is the square root of the
modulus of the draw, so it is one exactly for draws of modulus one.  Missing: modulus one in multiple precision. -/
theorem C66_partial (z : ℂ) (hz : z ≠ 0) :
    ‖randUnitDbl z‖ = 1 ∧ ‖randUnitMp z‖ ^ 2 = ‖z‖ ∧ (‖randUnitMp z‖ = 1 ↔ ‖z‖ = 1) := by
  have h : (0 : ℝ) < ‖z‖ := norm_pos_iff.2 hz
  refine ⟨?_, ?_, ?_⟩
  · unfold randUnitDbl
    rw [norm_div, Complex.norm_real, norm_norm, div_self h.ne']
  · rw [norm_randUnitMp z hz, Real.sq_sqrt h.le]
  · rw [norm_randUnitMp z hz, Real.sqrt_eq_one]

/-- **C66 fails**: the draw 1/4 is scaled to 1/2. -/
theorem C66_refuted : ¬ C66_full := by
  intro h
  have hz : (1 / 4 : ℂ) ≠ 0 := by norm_num
  have hd : Draw (1 / 4) := by
    refine ⟨?_, ?_, hz⟩ <;> norm_num
  have h1 := ((C66_partial _ hz).2.2).1 (h _ hd).1
  norm_num at h1

/-! ### C77 -/

theorem luLoop_none (eps dummy : ℝ) (d : ℕ → ℂ) (n : ℕ) :
    luLoop eps dummy d n = none ↔ ∀ i, i < n → eps * 100 < ‖d (i + 1)‖ ∧ ‖d i / d (i + 1)‖ < 1 / dummy := by
  induction n with
  | zero => simp [luLoop]
  | succ n ih =>
    rw [luLoop]
    by_cases h1 : isSmall eps (d (n + 1)) = true
    · rw [if_pos h1]
      simp only [isSmall, decide_eq_true_eq] at h1
      constructor
      · intro h; cases h
      · intro h; exact absurd (h n (by omega)).1 (not_lt.2 h1)
    · rw [if_neg h1]
      by_cases h2 : isLarge dummy (d n) (d (n + 1)) = true
      · rw [if_pos h2]
        simp only [isLarge, decide_eq_true_eq] at h2
        constructor
        · intro h; cases h
        · intro h; exact absurd (h n (by omega)).2 (not_lt.2 h2)
      · rw [if_neg h2, ih]
        simp only [isSmall, isLarge, decide_eq_true_eq, not_le] at h1 h2
        constructor
        · intro h i hi
          rcases Nat.lt_succ_iff_lt_or_eq.1 hi with h3 | h3
          · exact h i h3
          · subst h3; exact ⟨h1, h2⟩
        · intro h i hi; exact h i (by omega)

/-- **C77**: the check reports success exactly when no diagonal entry is small and no diagonal entry exceeds its successor
by the large factor; and then an upper triangular matrix with that diagonal is nonsingular. -/
theorem C77 (eps dummy : ℝ) (d : ℕ → ℂ) (n : ℕ) (heps : 0 ≤ eps) :
    (luCheck eps dummy d n = .success ↔
      (∀ i, i ≤ n → eps * 100 < ‖d i‖) ∧ ∀ i, i < n → ‖d i / d (i + 1)‖ < 1 / dummy) ∧
    (luCheck eps dummy d n = .success → ∀ U : Matrix (Fin (n + 1)) (Fin (n + 1)) ℂ, U.BlockTriangular id →
      (∀ i, U i i = d i) → U.det ≠ 0) := by
  have h1 : luCheck eps dummy d n = .success ↔
      (∀ i, i ≤ n → eps * 100 < ‖d i‖) ∧ ∀ i, i < n → ‖d i / d (i + 1)‖ < 1 / dummy := by
    unfold luCheck
    cases hl : luLoop eps dummy d n with
    | none =>
      have hl' := (luLoop_none eps dummy d n).1 hl
      dsimp only
      by_cases h0 : isSmall eps (d 0) = true
      · rw [if_pos h0]
        simp only [isSmall, decide_eq_true_eq] at h0
        constructor
        · intro h; cases h
        · intro h; exact absurd (h.1 0 (by omega)) (not_lt.2 h0)
      · rw [if_neg h0]
        simp only [isSmall, decide_eq_true_eq, not_le] at h0
        refine ⟨fun _ => ⟨?_, fun i hi => (hl' i hi).2⟩, fun _ => rfl⟩
        intro i hi
        cases i with
        | zero => exact h0
        | succ i => exact (hl' i (by omega)).1
    | some c =>
      dsimp only
      constructor
      · intro hc
        exfalso
        subst hc
        induction n with
        | zero => cases hl
        | succ n ih =>
          rw [luLoop] at hl
          split_ifs at hl
          · cases hl
          · cases hl
          · exact ih hl
      · rintro ⟨h2, h3⟩
        have : luLoop eps dummy d n = none := (luLoop_none eps dummy d n).2 fun i hi => ⟨h2 (i + 1) (by omega), h3 i hi⟩
        rw [this] at hl; cases hl
  refine ⟨h1, fun hs U hU hd => ?_⟩
  rw [Matrix.det_of_upperTriangular hU, Finset.prod_ne_zero_iff]
  intro i _
  rw [hd]
  have := (h1.1 hs).1 i (by omega)
  intro h0
  rw [h0, norm_zero] at this
  linarith

/-- Which problem is reported: the one in the last row in which there is one, a small value taking precedence. -/
theorem C77_code (eps dummy : ℝ) (d : ℕ → ℂ) (n k : ℕ) (hk : k < n)
    (hbelow : ∀ i, k < i → i < n → eps * 100 < ‖d (i + 1)‖ ∧ ‖d i / d (i + 1)‖ < 1 / dummy) :
    (‖d (k + 1)‖ ≤ eps * 100 → luCheck eps dummy d n = .smallValue) ∧
    (eps * 100 < ‖d (k + 1)‖ → 1 / dummy ≤ ‖d k / d (k + 1)‖ → luCheck eps dummy d n = .largeChange) := by
  have hred : ∀ m, k + 1 ≤ m → m ≤ n → luLoop eps dummy d m = luLoop eps dummy d (k + 1) := by
    intro m hm
    induction m with
    | zero => omega
    | succ m ih =>
      intro hmn
      rcases Nat.lt_or_ge k m with h | h
      · have hb := hbelow m h (by omega)
        rw [luLoop, if_neg (by simp only [isSmall, decide_eq_true_eq, not_le]; exact hb.1),
          if_neg (by simp only [isLarge, decide_eq_true_eq, not_le]; exact hb.2), ih (by omega) (by omega)]
      · have : m = k := by omega
        rw [this]
  constructor
  · intro h
    rw [luCheck, hred n (by omega) (le_refl _), luLoop, if_pos (by simp only [isSmall, decide_eq_true_eq]; exact h)]
  · intro h h2
    rw [luCheck, hred n (by omega) (le_refl _), luLoop,
      if_neg (by simp only [isSmall, decide_eq_true_eq, not_le]; exact h),
      if_pos (by simp only [isLarge, decide_eq_true_eq]; exact h2)]

/-- Diagonal 1, 2, 1 passes with thresholds 1/1000 and 1/100; diagonal 1, 0 is reported. -/
example : luCheck (1 / 1000) (1 / 100) (fun i => if i = 1 then 2 else 1) 2 = .success ∧
    luCheck (1 / 1000) (1 / 100) (fun i => if i = 0 then 1 else 0) 1 = .smallValue := by
  constructor
  · rw [(C77 _ _ _ _ (by norm_num)).1]
    constructor
    · intro i hi
      by_cases h : i = 1 <;> simp [h] <;> norm_num
    · intro i hi
      have : i = 0 ∨ i = 1 := by omega
      rcases this with rfl | rfl <;> norm_num
  · exact (C77_code _ _ _ 1 0 (by omega) (by intro i h1 h2; omega)).1 (by simp)

/-! ### C78, C80: slices -/

/-- The random matrices and vectors have the sizes asked for. -/
structure Shapes {K : Type} (gen q : ℕ → ℕ → List (List K)) (cst : ℕ → List K) : Prop where
  gen : ∀ r c, (gen r c).length = r ∧ ∀ row ∈ gen r c, row.length = c
  q : ∀ r c, (q r c).length = r ∧ ∀ row ∈ q r c, row.length = c
  cst : ∀ n, (cst n).length = n

/-- **C78, full statement**: `Make` yields a slice with the requested number of linear functions in the given variables,
which can be evaluated at every point of the right size, giving one value per function. -/
def C78_full (K : Type) [Field K] : Prop :=
  ∀ (gen q : ℕ → ℕ → List (List K)) (cst : ℕ → List K) (nvars dim : ℕ) (hom orth : Bool), Shapes gen q cst →
    ∃ s, makeSlice gen q cst 0 nvars dim hom orth = some s ∧ s.dim = dim ∧ s.nvars = nvars ∧ s.hom = hom ∧
      ∀ x, x.length = nvars → ∃ v, evalSlice s x = some v ∧ v.length = dim

theorem transpose_shape {K : Type} (m : List (List K)) (r c : ℕ) (hl : m.length = r) (hr : ∀ row ∈ m, row.length = c) :
    (transpose m c).length = c ∧ ∀ row ∈ transpose m c, row.length = r := by
  refine ⟨by simp [transpose], ?_⟩
  intro row hrow
  simp only [transpose, List.mem_map, List.mem_range] at hrow
  obtain ⟨j, hj, rfl⟩ := hrow
  rw [← hl]
  clear hl
  induction m with
  | nil => rfl
  | cons a m ih =>
    rw [List.filterMap_cons, List.getElem?_eq_getElem (by rw [hr a (by simp)]; exact hj)]
    simp only [List.length_cons, ih fun row h => hr row (by simp [h])]

/-- **C78, partial**: slices that are not homogeneous are made with the right sizes, whether the number of functions is
less than, equal to or greater than the number of variables, and can be evaluated.  Missing: homogeneous slices. -/
theorem C78_partial {K : Type} [Field K] (gen q : ℕ → ℕ → List (List K)) (cst : ℕ → List K) (nvars dim : ℕ)
    (orth : Bool) (h : Shapes gen q cst) :
    ∃ s, makeSlice gen q cst 0 nvars dim false orth = some s ∧ s.dim = dim ∧ s.nvars = nvars ∧ s.hom = false ∧
      s.coeffs.length = dim ∧ (∀ r ∈ s.coeffs, r.length = nvars) ∧ s.consts.length = dim ∧
      ∀ x, x.length = nvars → ∃ v, evalSlice s x = some v ∧ v.length = dim := by
  obtain ⟨m, hm⟩ : ∃ m, m = (if orth then (if dim < nvars then transpose (q (max dim nvars) (min dim nvars))
    (min dim nvars) else q (max dim nvars) (min dim nvars)) else gen dim nvars) := ⟨_, rfl⟩
  have hshape : m.length = dim ∧ ∀ r ∈ m, r.length = nvars := by
    rw [hm]
    split_ifs with h1 h2
    · have := transpose_shape (q (max dim nvars) (min dim nvars)) _ _ (h.q _ _).1 (h.q _ _).2
      rw [Nat.min_eq_left h2.le, Nat.max_eq_right h2.le] at this ⊢
      exact this
    · have := h.q (max dim nvars) (min dim nvars)
      rw [Nat.min_eq_right (by omega), Nat.max_eq_left (by omega)] at this ⊢
      exact this
    · exact h.gen _ _
  refine ⟨⟨m, cst dim, nvars, dim, false⟩, ?_, rfl, rfl, rfl, hshape.1, hshape.2, h.cst dim, ?_⟩
  · unfold makeSlice
    dsimp only
    rw [← hm]
    have hn : ¬ (¬ ∀ r ∈ m, r.length = nvars) := by push Not; exact hshape.2
    rw [if_neg (by rw [hshape.1]; simp), if_neg hn]
    simp [h.cst dim]
  · intro x hx
    refine ⟨List.zipWith (· + ·) (m.map fun r => dotL r x) (cst dim), ?_, ?_⟩
    · unfold evalSlice
      dsimp only
      rw [if_pos (fun r hr => by rw [hshape.2 r hr, hx])]
      simp only [Bool.false_eq_true, if_false]
      rw [if_pos (by rw [h.cst, hshape.1])]
    · rw [List.length_zipWith, List.length_map, hshape.1, h.cst]; simp

/-- Sizes of all-ones matrices. -/
def onesM (r c : ℕ) : List (List ℚ) := List.replicate r (List.replicate c 1)

theorem ones_shapes : Shapes onesM onesM (fun n => List.replicate n (1 : ℚ)) := by
  constructor
  · intro r c
    exact ⟨by simp [onesM], fun row h => by rw [List.eq_of_mem_replicate h]; simp⟩
  · intro r c
    exact ⟨by simp [onesM], fun row h => by rw [List.eq_of_mem_replicate h]; simp⟩
  · intro n; simp

example : (makeSlice onesM onesM (fun n => List.replicate n (1 : ℚ)) 0 3 2 false true).bind
    (fun s => evalSlice s [1, 2, 3]) = some [7, 7] := by decide +kernel

/-- **C78 fails**: no homogeneous slice of positive dimension can be made: the vector of constants is created with one
entry per function, and the last assertion requires it to be empty. -/
theorem C78_refuted : ¬ C78_full ℚ ∧
    ∀ (gen q : ℕ → ℕ → List (List ℚ)) (cst : ℕ → List ℚ) (nvars dim : ℕ) (orth : Bool), 0 < dim →
      makeSlice gen q cst 0 nvars dim true orth = none := by
  have key : ∀ (gen q : ℕ → ℕ → List (List ℚ)) (cst : ℕ → List ℚ) (nvars dim : ℕ) (orth : Bool), 0 < dim →
      makeSlice gen q cst 0 nvars dim true orth = none := by
    intro gen q cst nvars dim orth hd
    unfold makeSlice
    dsimp only
    simp only [if_true, List.length_replicate]
    rw [if_neg (by omega : ¬ dim = 0)]
    split_ifs <;> rfl
  refine ⟨fun h => ?_, key⟩
  obtain ⟨s, hs, _⟩ := h _ _ _ 2 1 true true ones_shapes
  rw [key _ _ _ 2 1 true (by omega)] at hs
  cases hs

theorem dotL_sub {K : Type} [Field K] : ∀ (r x y : List K), r.length = x.length → r.length = y.length →
    dotL r x - dotL r y = dotL r (List.zipWith (· - ·) x y) := by
  intro r
  induction r with
  | nil => intro x y _ _; simp [dotL]
  | cons a r ih =>
    intro x y hx hy
    cases x with
    | nil => cases hx
    | cons b x =>
      cases y with
      | nil => cases hy
      | cons c y =>
        have := ih x y (by simpa using hx) (by simpa using hy)
        simp only [dotL, List.zipWith_cons_cons, List.sum_cons] at this ⊢
        rw [← this]
        ring

theorem zip_sub_map {K : Type} [Field K] (f g : List K → K) : ∀ (l : List (List K)) (c : List K), c.length = l.length →
    List.zipWith (· - ·) (List.zipWith (· + ·) (l.map f) c) (List.zipWith (· + ·) (l.map g) c) =
      l.map fun r => f r - g r := by
  intro l
  induction l with
  | nil => intro c _; simp
  | cons a l ih =>
    intro c hc
    cases c with
    | nil => cases hc
    | cons d c =>
      simp only [List.map_cons, List.zipWith_cons_cons, ih c (by simpa using hc)]
      congr 1
      ring

/-- **C78, Jacobian**: the difference of the values of a slice at two points is the Jacobian applied to the difference of
the points. -/
theorem C78_jacobian {K : Type} [Field K] (s : Slice K) (x y v w : List K) (hxy : x.length = y.length)
    (hv : evalSlice s x = some v) (hw : evalSlice s y = some w) :
    List.zipWith (· - ·) v w = (jacSlice s).map fun r => dotL r (List.zipWith (· - ·) x y) := by
  unfold evalSlice at hv hw
  by_cases h : ∀ r ∈ s.coeffs, r.length = x.length
  · rw [if_pos h] at hv
    rw [if_pos (by rw [← hxy]; exact h)] at hw
    have hsub : (s.coeffs.map fun r => dotL r x - dotL r y) =
        s.coeffs.map fun r => dotL r (List.zipWith (· - ·) x y) := by
      apply List.map_congr_left
      intro r hr
      exact dotL_sub r x y (h r hr) (by rw [h r hr, hxy])
    unfold jacSlice
    rw [← hsub]
    cases hh : s.hom
    · rw [hh] at hv hw
      simp only [Bool.false_eq_true, if_false] at hv hw
      by_cases hc : s.consts.length = s.coeffs.length
      · rw [if_pos hc, Option.some.injEq] at hv hw
        rw [← hv, ← hw]
        exact zip_sub_map _ _ _ _ hc
      · rw [if_neg hc] at hv; cases hv
    · rw [hh] at hv hw
      simp only [if_true, Option.some.injEq] at hv hw
      rw [← hv, ← hw]
      rw [List.zipWith_map, List.zipWith_self]
  · rw [if_neg h] at hv; cases hv

example : evalSlice (⟨[[1, 2], [3, 4]], [5, 6], 2, 2, false⟩ : Slice ℚ) [1, 1] = some [8, 13] ∧
    evalSlice (⟨[[1, 2], [3, 4]], [5, 6], 2, 2, false⟩ : Slice ℚ) [0, 1] = some [7, 10] := by decide +kernel

/-- **C80, full statement**: a slice that has been saved and loaded evaluates as before. -/
def C80_full : Prop :=
  ∀ (s : Slice ℚ) (x v : List ℚ), evalSlice s x = some v → evalSlice (loadSlice (saveSlice s)) x = some v

/-- **C80, partial**: the Jacobian and the variables survive.  Missing: constants, dimension and homogeneity are lost. -/
theorem C80_partial {K : Type} (s : Slice K) :
    jacSlice (loadSlice (saveSlice s)) = jacSlice s ∧ (loadSlice (saveSlice s)).nvars = s.nvars := ⟨rfl, rfl⟩

/-- **C80 fails**: no slice with at least one function can be evaluated after loading, and its dimension is reported as
zero. -/
theorem C80_refuted : ¬ C80_full ∧ ∀ (s : Slice ℚ) (x : List ℚ), s.coeffs ≠ [] →
    evalSlice (loadSlice (saveSlice s)) x = none ∧ (loadSlice (saveSlice s)).dim = 0 := by
  have key : ∀ (s : Slice ℚ) (x : List ℚ), s.coeffs ≠ [] →
      evalSlice (loadSlice (saveSlice s)) x = none ∧ (loadSlice (saveSlice s)).dim = 0 := by
    intro s x hs
    refine ⟨?_, rfl⟩
    unfold evalSlice loadSlice saveSlice
    dsimp only
    split_ifs with h1 h2 h3
    · cases h2
    · exact absurd (List.length_eq_zero_iff.1 h3.symm) hs
    · rfl
    · rfl
  refine ⟨fun h => ?_, key⟩
  have h1 : evalSlice (⟨[[1]], [1], 1, 1, false⟩ : Slice ℚ) [1] = some [2] := by decide +kernel
  have h2 := h _ _ _ h1
  rw [(key _ _ (by simp)).1] at h2
  cases h2

end B2.Infra
