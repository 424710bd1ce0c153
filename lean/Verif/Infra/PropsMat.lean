import Verif.Infra.Mat
import Mathlib.LinearAlgebra.Matrix.Block
import Mathlib.Analysis.SpecialFunctions.Pow.Real
import Mathlib.Algebra.BigOperators.Fin

/-!
# C186, C187: precision of matrices, the Kahan matrix
-/

namespace B2.Infra.Mat

/-! ### Loops -/

section loops

variable {α σ : Type}

theorem loop_self (a : ℕ) (f : ℕ → σ → σ) (s : σ) : loop a a f s = s := by simp [loop]

theorem loop_succ {a b : ℕ} (h : a ≤ b) (f : ℕ → σ → σ) (s : σ) : loop a (b + 1) f s = f b (loop a b f s) := by
  have e : b + 1 - a = (b - a) + 1 := by omega
  simp only [loop, e, List.range'_1_concat, List.foldl_append, List.foldl_cons, List.foldl_nil]
  congr 1
  omega

theorem loop_row (i a b : ℕ) (h : a ≤ b) (g : ℕ → α → α) (A : ℕ → ℕ → α) :
    loop a b (fun k A => upd A i k (g k (A i k))) A =
      fun i' j' => if i' = i ∧ a ≤ j' ∧ j' < b then g j' (A i' j') else A i' j' := by
  induction b, h using Nat.le_induction with
  | base =>
    rw [loop_self]
    funext i' j'
    rw [if_neg (by omega)]
  | succ b hb ih =>
    rw [loop_succ hb, ih]
    funext i' j'
    simp only [upd]
    by_cases h1 : i' = i ∧ j' = b
    · obtain ⟨rfl, rfl⟩ := h1
      simp [hb]
    · rw [if_neg h1]
      by_cases h2 : i' = i ∧ a ≤ j' ∧ j' < b
      · rw [if_pos h2, if_pos (by omega)]
      · rw [if_neg h2, if_neg (by omega)]

theorem loop_col (j a b : ℕ) (h : a ≤ b) (g : ℕ → α → α) (A : ℕ → ℕ → α) :
    loop a b (fun k A => upd A k j (g k (A k j))) A =
      fun i' j' => if j' = j ∧ a ≤ i' ∧ i' < b then g i' (A i' j') else A i' j' := by
  induction b, h using Nat.le_induction with
  | base =>
    rw [loop_self]
    funext i' j'
    rw [if_neg (by omega)]
  | succ b hb ih =>
    rw [loop_succ hb, ih]
    funext i' j'
    simp only [upd]
    by_cases h1 : i' = b ∧ j' = j
    · obtain ⟨rfl, rfl⟩ := h1
      simp [hb]
    · rw [if_neg h1]
      by_cases h2 : j' = j ∧ a ≤ i' ∧ i' < b
      · rw [if_pos h2, if_pos (by omega)]
      · rw [if_neg h2, if_neg (by omega)]

theorem loop_grid (n m : ℕ) (g : ℕ → ℕ → α → α) (A : ℕ → ℕ → α) :
    loop 0 n (fun j A => loop 0 m (fun k A => upd A k j (g k j (A k j))) A) A =
      fun i' j' => if i' < m ∧ j' < n then g i' j' (A i' j') else A i' j' := by
  induction n with
  | zero =>
    rw [loop_self]
    funext i' j'
    rw [if_neg (by omega)]
  | succ n ih =>
    rw [loop_succ (Nat.zero_le n), ih, loop_col _ _ _ (Nat.zero_le m) (fun k => g k n)]
    funext i' j'
    by_cases h1 : j' = n ∧ 0 ≤ i' ∧ i' < m
    · obtain ⟨rfl, -, h⟩ := h1
      simp [h]
    · rw [if_neg h1]
      by_cases h2 : i' < m ∧ j' < n
      · rw [if_pos h2, if_pos (by omega)]
      · rw [if_neg h2, if_neg (by omega)]

end loops

/-! ### C186: precision -/

section precision

variable {α : Type}

/-- The precision of all the entries. -/
def Uniform (prec : α → ℕ) (v : Mat α) (p : ℕ) : Prop := ∀ i < v.rows, ∀ j < v.cols, prec (v.at' i j) = p

/-- **C186.** For every nonempty matrix, `Precision(v)` and `PrecisionRequireUniform(v)` return `p` exactly if all entries
have precision `p`; after `Precision(v, p)` they do. -/
def C186_full : Prop :=
  ∀ (α : Type) (prec : α → ℕ) (setPrec : ℕ → α → α) (_ : ∀ p x, prec (setPrec p x) = p) (v : Mat α),
    0 < v.rows → 0 < v.cols →
    (∀ p, precision prec v = .ok p ↔ Uniform prec v p) ∧ (∀ p, requireUniform prec v = .ok p ↔ Uniform prec v p) ∧
    ∀ p, precision prec (setPrecision setPrec v p) = .ok p ∧ requireUniform prec (setPrecision setPrec v p) = .ok p

theorem get_ok {v : Mat α} {i j : ℕ} (hi : i < v.rows) (hj : j < v.cols) : v.get i j = .ok (v.at' i j) :=
  if_pos ⟨hi, hj⟩

theorem scanRows_ok (prec : α → ℕ) (v : Mat α) (a ii : ℕ) (hi : ii < v.cols) (n jj : ℕ) (h : jj + n ≤ v.rows) :
    scanRows prec v a ii jj n = .ok () ∨
      ∃ i, jj ≤ i ∧ i < jj + n ∧ prec (v.at' i ii) ≠ a ∧ (∀ k, jj ≤ k → k < i → prec (v.at' k ii) = a) ∧
        scanRows prec v a ii jj n = .error (.nonUniform a (prec (v.at' i ii)) i ii) := by
  induction n generalizing jj with
  | zero => exact Or.inl rfl
  | succ n ih =>
    simp only [scanRows, get_ok (v := v) (i := jj) (j := ii) (by omega) hi]
    change (if a ≠ prec (v.at' jj ii) then _ else _) = _ ∨ ∃ i, _ ∧ _ ∧ _ ∧ _ ∧ (if a ≠ prec (v.at' jj ii) then _ else _) = _
    by_cases hp : a ≠ prec (v.at' jj ii)
    · refine Or.inr ⟨jj, le_refl _, by omega, fun e => hp e.symm, fun k h1 h2 => absurd h2 (by omega), ?_⟩
      rw [if_pos hp]
    · rw [if_neg hp]
      rcases ih (jj + 1) (by omega) with h1 | ⟨i, h1, h2, h3, h4, h5⟩
      · exact Or.inl h1
      · refine Or.inr ⟨i, by omega, by omega, h3, ?_, h5⟩
        intro k hk1 hk2
        by_cases hk : k = jj
        · subst hk; exact (not_not.1 hp).symm
        · exact h4 k (by omega) hk2

theorem scanRows_iff (prec : α → ℕ) (v : Mat α) (a ii : ℕ) (hi : ii < v.cols) (n jj : ℕ) (h : jj + n ≤ v.rows) :
    scanRows prec v a ii jj n = .ok () ↔ ∀ i, jj ≤ i → i < jj + n → prec (v.at' i ii) = a := by
  induction n generalizing jj with
  | zero => exact ⟨fun _ i h1 h2 => absurd h2 (by omega), fun _ => rfl⟩
  | succ n ih =>
    simp only [scanRows, get_ok (v := v) (i := jj) (j := ii) (by omega) hi]
    change (if a ≠ prec (v.at' jj ii) then _ else _) = _ ↔ _
    by_cases hp : a ≠ prec (v.at' jj ii)
    · rw [if_pos hp]
      exact ⟨fun e => by (cases e), fun e => absurd (e jj (le_refl _) (by omega)).symm hp⟩
    · rw [if_neg hp, ih (jj + 1) (by omega)]
      constructor
      · intro e i h1 h2
        by_cases hk : i = jj
        · subst hk; exact (not_not.1 hp).symm
        · exact e i (by omega) (by omega)
      · exact fun e i h1 h2 => e i (by omega) (by omega)

theorem scanCols_iff (prec : α → ℕ) (v : Mat α) (a : ℕ) (n ii : ℕ) (h : ii + n ≤ v.cols) :
    scanCols prec v a ii n = .ok () ↔ ∀ j, ii ≤ j → j < ii + n → ∀ i < v.rows, prec (v.at' i j) = a := by
  induction n generalizing ii with
  | zero => exact ⟨fun _ i h1 h2 => absurd h2 (by omega), fun _ => rfl⟩
  | succ n ih =>
    have hr := scanRows_iff prec v a ii (by omega) v.rows 0 (by omega)
    simp only [scanCols]
    cases hs : scanRows prec v a ii 0 v.rows with
    | error e =>
      constructor
      · intro hc; cases hc
      · intro hc
        have := hr.2 (fun i _ h2 => hc ii (le_refl _) (by omega) i (by omega))
        rw [hs] at this
        cases this
    | ok u =>
      have h1 := hr.1 hs
      change scanCols prec v a (ii + 1) n = _ ↔ _
      rw [ih (ii + 1) (by omega)]
      constructor
      · intro e j hj1 hj2 i hi
        by_cases hk : j = ii
        · subst hk; exact h1 i (Nat.zero_le _) (by omega)
        · exact e j (by omega) (by omega) i hi
      · exact fun e j h1 h2 => e j (by omega) (by omega)

/-- `PrecisionRequireUniform` returns `p` exactly if all entries have precision `p`. -/
theorem C186_uniform (prec : α → ℕ) (v : Mat α) (hr : 0 < v.rows) (hc : 0 < v.cols) (p : ℕ) :
    requireUniform prec v = .ok p ↔ Uniform prec v p := by
  have hs := scanCols_iff prec v (prec (v.at' 0 0)) v.cols 0 (by omega)
  simp only [requireUniform, get_ok hr hc]
  change ((scanCols prec v (prec (v.at' 0 0)) 0 v.cols).bind fun _ => .ok (prec (v.at' 0 0))) = _ ↔ _
  cases h : scanCols prec v (prec (v.at' 0 0)) 0 v.cols with
  | error e =>
    constructor
    · intro hh; cases hh
    · intro hu
      have := hs.2 (fun j _ hj i hi => (hu i hi j (by omega)).trans (hu 0 hr 0 hc).symm)
      rw [h] at this
      cases this
  | ok u =>
    have h1 := hs.1 h
    constructor
    · intro e i hi j hj
      have e' : prec (v.at' 0 0) = p := by
        injection e
      rw [h1 j (Nat.zero_le _) (by omega) i hi, e']
    · intro hu
      change Except.ok (prec (v.at' 0 0)) = _
      rw [hu 0 hr 0 hc]

/-- Otherwise it throws, and the exception names a place where the precision is not that of the first entry: the first one,
column by column; all entries before it have the precision of the first entry. -/
theorem C186_throws (prec : α → ℕ) (v : Mat α) (hr : 0 < v.rows) (hc : 0 < v.cols) (h : ¬ ∃ p, Uniform prec v p) :
    ∃ i j, i < v.rows ∧ j < v.cols ∧ prec (v.at' i j) ≠ prec (v.at' 0 0) ∧
      (∀ j' < j, ∀ i' < v.rows, prec (v.at' i' j') = prec (v.at' 0 0)) ∧
      (∀ i' < i, prec (v.at' i' j) = prec (v.at' 0 0)) ∧
      requireUniform prec v = .error (.nonUniform (prec (v.at' 0 0)) (prec (v.at' i j)) i j) := by
  have key : ∀ a n ii, ii + n ≤ v.cols → scanCols prec v a ii n = .ok () ∨
      ∃ i j, i < v.rows ∧ ii ≤ j ∧ j < ii + n ∧ prec (v.at' i j) ≠ a ∧
        (∀ j', ii ≤ j' → j' < j → ∀ i' < v.rows, prec (v.at' i' j') = a) ∧ (∀ i' < i, prec (v.at' i' j) = a) ∧
        scanCols prec v a ii n = .error (.nonUniform a (prec (v.at' i j)) i j) := by
    intro a n
    induction n with
    | zero => exact fun ii _ => Or.inl rfl
    | succ n ih =>
      intro ii hii
      simp only [scanCols]
      rcases scanRows_ok prec v a ii (by omega) v.rows 0 (by omega) with h1 | ⟨i, -, h2, h3, h4, h5⟩
      · have hall := (scanRows_iff prec v a ii (by omega) v.rows 0 (by omega)).1 h1
        rw [h1]
        change scanCols prec v a (ii + 1) n = _ ∨ ∃ i j, _ ∧ _ ∧ _ ∧ _ ∧ _ ∧ _ ∧ scanCols prec v a (ii + 1) n = _
        rcases ih (ii + 1) (by omega) with h2 | ⟨i, j, b1, b2, b3, b4, b5, b6, b7⟩
        · exact Or.inl h2
        · refine Or.inr ⟨i, j, b1, by omega, by omega, b4, ?_, b6, b7⟩
          intro j' h1 h2 i' hi'
          by_cases hk : j' = ii
          · subst hk; exact hall i' (Nat.zero_le _) (by omega)
          · exact b5 j' (by omega) h2 i' hi'
      · refine Or.inr ⟨i, ii, by omega, le_refl _, by omega, h3, fun j' x y => absurd y (by omega),
          fun i' hi' => h4 i' (Nat.zero_le _) hi', ?_⟩
        rw [h5]
        rfl
  rcases key (prec (v.at' 0 0)) v.cols 0 (by omega) with h1 | ⟨i, j, b1, -, b3, b4, b5, b6, b7⟩
  · refine absurd ⟨prec (v.at' 0 0), fun i hi j hj => ?_⟩ h
    exact (scanCols_iff prec v _ v.cols 0 (by omega)).1 h1 j (Nat.zero_le _) (by omega) i hi
  · refine ⟨i, j, b1, by omega, b4, fun j' h1 => b5 j' (Nat.zero_le _) h1, b6, ?_⟩
    simp only [requireUniform, get_ok hr hc]
    change ((scanCols prec v (prec (v.at' 0 0)) 0 v.cols).bind fun _ => .ok (prec (v.at' 0 0))) = _
    rw [b7]
    rfl

/-- Setting the precision changes every entry, and nothing but the entries. -/
theorem C186_set (setPrec : ℕ → α → α) (v : Mat α) (p : ℕ) :
    (setPrecision setPrec v p).rows = v.rows ∧ (setPrecision setPrec v p).cols = v.cols ∧
      ∀ i < v.rows, ∀ j < v.cols, (setPrecision setPrec v p).at' i j = setPrec p (v.at' i j) := by
  refine ⟨rfl, rfl, fun i hi j hj => ?_⟩
  have := loop_grid v.cols v.rows (fun _ _ => setPrec p) v.at'
  simp only [setPrecision]
  rw [this]
  exact if_pos ⟨hi, hj⟩

theorem precision_eq (prec : α → ℕ) (v : Mat α) (hr : 0 < v.rows) (hc : 0 < v.cols) :
    precision prec v = .ok (prec (v.at' 0 0)) := by
  have he : isEmpty v = false := by
    simp only [isEmpty, Bool.or_eq_false_iff, beq_eq_false_iff_ne]
    omega
  simp only [precision, he, get_ok hr hc]
  rfl

/-- **C186, with `Precision(v)` on matrices of one precision only.** Missing from `C186_full`: `Precision(v)` on the others, where
it returns the precision of the first entry. -/
theorem C186_partial (prec : α → ℕ) (setPrec : ℕ → α → α) (hset : ∀ p x, prec (setPrec p x) = p) (v : Mat α)
    (hr : 0 < v.rows) (hc : 0 < v.cols) :
    (∀ p, Uniform prec v p → precision prec v = .ok p) ∧ precision prec v = .ok (prec (v.at' 0 0)) ∧
      (∀ p, requireUniform prec v = .ok p ↔ Uniform prec v p) ∧
      ∀ p, precision prec (setPrecision setPrec v p) = .ok p ∧ requireUniform prec (setPrecision setPrec v p) = .ok p := by
  have hP := precision_eq prec v hr hc
  refine ⟨fun p hu => ?_, hP, C186_uniform prec v hr hc, fun p => ?_⟩
  · rw [hP, hu 0 hr 0 hc]
  · obtain ⟨e1, e2, e3⟩ := C186_set setPrec v p
    have hr' : 0 < (setPrecision setPrec v p).rows := hr
    have hc' : 0 < (setPrecision setPrec v p).cols := hc
    constructor
    · rw [precision_eq prec _ hr' hc', e3 0 hr 0 hc, hset]
    · rw [C186_uniform prec _ hr' hc']
      intro i hi j hj
      rw [e3 i hi j hj, hset]

/-- On an empty matrix `Precision(v)` throws; `PrecisionRequireUniform` accesses an entry which does not exist. -/
theorem C186_empty (prec : α → ℕ) (v : Mat α) (h : v.rows = 0 ∨ v.cols = 0) :
    precision prec v = .error .empty ∧ requireUniform prec v = .error .outside := by
  constructor
  · have : isEmpty v = true := by simpa [isEmpty] using h
    simp [precision, this]
  · have : v.get 0 0 = .error .outside := if_neg (by omega)
    simp only [requireUniform, this]
    rfl

/-- A row with precisions 16 and 30. -/
def mixed : Mat ℕ := ⟨1, 2, fun _ j => if j = 0 then 16 else 30⟩

/-- **C186, refuted.** `Precision` of a row with precisions 16 and 30 returns 16. -/
theorem C186_refuted : ¬ C186_full := by
  intro h
  have h1 := (h ℕ id (fun p _ => p) (fun _ _ => rfl) mixed (by decide) (by decide)).1 16
  have h2 : precision id mixed = .ok 16 := rfl
  have h3 := h1.1 h2 0 (by decide) 1 (by decide)
  exact absurd h3 (by decide)

/-- Cases meeting the hypotheses. -/
example : requireUniform id mixed = .error (.nonUniform 16 30 0 1) ∧ Uniform id (setPrecision (fun p _ => p) mixed 50) 50 ∧
    requireUniform id (setPrecision (fun p _ => p) mixed 50) = .ok 50 ∧ ¬ ∃ p, Uniform id mixed p := by
  refine ⟨rfl, ?_, rfl, ?_⟩
  · rw [← C186_uniform id _ (by decide) (by decide)]; rfl
  · rintro ⟨p, hp⟩
    have h1 := hp 0 (by decide) 0 (by decide)
    have h2 := hp 0 (by decide) 1 (by decide)
    simp [mixed] at h1 h2
    omega

end precision

/-! ### C187: the Kahan matrix -/

section kahan

variable {K : Type} [Field K]

theorem kahanFill_eq (n : ℕ) (c : K) (A : ℕ → ℕ → K) :
    kahanFill n c A = fun i j => if i < n ∧ j < n then (if j < i then 0 else -c) else A i j := by
  have aux : ∀ m ≤ n, loop 0 m (fun ii A => loop ii n (fun jj A => upd A ii jj (-c * 1))
      (loop 0 ii (fun jj A => upd A ii jj (0 : K)) A)) A =
      fun i j => if i < m ∧ j < n then (if j < i then 0 else -c) else A i j := by
    intro m
    induction m with
    | zero =>
      intro _
      rw [loop_self]
      funext i j
      rw [if_neg (by omega)]
    | succ m ih =>
      intro hm
      rw [loop_succ (Nat.zero_le m), ih (by omega)]
      beta_reduce
      rw [loop_row m 0 m (Nat.zero_le m) (fun _ _ => (0 : K)), loop_row m m n (by omega) (fun _ _ => -c * 1)]
      funext i j
      by_cases h1 : i = m
      · subst h1
        by_cases h2 : j < n
        · by_cases h3 : j < i
          · simp [h2, h3, Nat.not_le.2 h3]
          · simp [h2, h3, Nat.not_lt.1 h3]
        · rw [if_neg (by omega), if_neg (by omega), if_neg (by omega), if_neg (by omega)]
      · rw [if_neg (by omega), if_neg (by omega)]
        by_cases h2 : i < m ∧ j < n
        · rw [if_pos h2, if_pos (c := i < m + 1 ∧ j < n) (by omega)]
        · rw [if_neg h2, if_neg (c := i < m + 1 ∧ j < n) (by omega)]
  exact aux n (le_refl n)

theorem kahanDiag_eq (n : ℕ) (c : K) (A : ℕ → ℕ → K) :
    kahanDiag n c A = fun i j => if i = j ∧ i < n then A i j + (1 + c) else A i j := by
  rw [kahanDiag]
  induction n with
  | zero =>
    rw [loop_self]
    funext i j
    rw [if_neg (by omega)]
  | succ n ih =>
    rw [loop_succ (Nat.zero_le n), ih]
    funext i j
    simp only [upd]
    by_cases h1 : i = n ∧ j = n
    · obtain ⟨rfl, rfl⟩ := h1
      simp
    · rw [if_neg h1]
      by_cases h2 : i = j ∧ i < n
      · rw [if_pos h2, if_pos (by omega)]
      · rw [if_neg h2, if_neg (by omega)]

theorem kahanRows_eq (n : ℕ) (s : K) (A : ℕ → ℕ → K) :
    (kahanRows n s A).1 = fun i j => if i < n ∧ j < n then A i j * s ^ i else A i j := by
  have aux : ∀ m ≤ n, loop 0 m (fun jj st => (loop 0 n (fun kk A => upd A jj kk (A jj kk * st.2)) st.1, st.2 * s)) (A, 1) =
      ((fun i j => if i < m ∧ j < n then A i j * s ^ i else A i j : ℕ → ℕ → K), s ^ m) := by
    intro m
    induction m with
    | zero =>
      intro _
      rw [loop_self, pow_zero]
      refine Prod.ext ?_ rfl
      funext i j
      dsimp only
      rw [if_neg (by omega)]
    | succ m ih =>
      intro hm
      rw [loop_succ (Nat.zero_le m), ih (by omega)]
      beta_reduce
      rw [loop_row m 0 n (Nat.zero_le n) (fun _ a => a * s ^ m), pow_succ]
      refine Prod.ext ?_ rfl
      funext i j
      dsimp only
      by_cases h1 : i = m ∧ 0 ≤ j ∧ j < n
      · obtain ⟨rfl, -, h⟩ := h1
        simp [h]
      · rw [if_neg h1]
        by_cases h2 : i < m ∧ j < n
        · rw [if_pos h2, if_pos (c := i < m + 1 ∧ j < n) (by omega)]
        · rw [if_neg h2, if_neg (c := i < m + 1 ∧ j < n) (by omega)]
  rw [kahanRows, aux n (le_refl n)]

/-- The entries of the Kahan matrix: with `s = sqrt(1 - c^2)`, row `i` scaled by `s^i`, column `j` divided by `j + 1`, of the
matrix with 1 on the diagonal, `-c` above and 0 below; whatever the storage held before. -/
theorem C187_entries (sqrt : K → K) (n : ℕ) (c : K) (A0 : ℕ → ℕ → K) :
    (kahan sqrt n c A0).rows = n ∧ (kahan sqrt n c A0).cols = n ∧ ∀ i < n, ∀ j < n, (kahan sqrt n c A0).at' i j =
      (if j < i then 0 else if j = i then 1 else -c) * sqrt (1 - c ^ 2) ^ i / (j + 1) := by
  refine ⟨rfl, rfl, fun i hi j hj => ?_⟩
  have e : (1 - c) * (1 + c) = 1 - c ^ 2 := by ring
  simp only [kahan, kahanCols, e]
  rw [loop_grid n n (fun _ j a => a / ((j : K) + 1)), kahanRows_eq, kahanDiag_eq, kahanFill_eq]
  simp only [hi, hj, and_self, if_true, and_true]
  by_cases h1 : j < i
  · rw [if_pos h1, if_pos h1, if_neg (by omega)]
  · rw [if_neg h1, if_neg h1]
    by_cases h2 : i = j
    · subst h2
      rw [if_pos rfl, if_pos rfl]
      congr 2
      ring
    · rw [if_neg h2, if_neg (fun e => h2 e.symm)]

/-- The matrix as an object of linear algebra. -/
def Mat.toMatrix (v : Mat K) (n : ℕ) : Matrix (Fin n) (Fin n) K := Matrix.of fun i j => v.at' i j

/-- The determinant is the product of the `s^i / (i+1)`. -/
theorem C187_det (sqrt : K → K) (n : ℕ) (c : K) (A0 : ℕ → ℕ → K) :
    ((kahan sqrt n c A0).toMatrix n).det = ∏ i : Fin n, sqrt (1 - c ^ 2) ^ (i : ℕ) / ((i : ℕ) + 1) := by
  have hE := (C187_entries sqrt n c A0).2.2
  rw [Matrix.det_of_upperTriangular]
  · refine Finset.prod_congr rfl fun i _ => ?_
    simp only [Mat.toMatrix, Matrix.of_apply]
    rw [hE i i.2 i i.2, if_neg (lt_irrefl _), if_pos rfl, one_mul]
  · intro i j hij
    simp only [Mat.toMatrix, Matrix.of_apply]
    have h : (j : ℕ) < i := hij
    rw [hE i i.2 j j.2, if_pos h, zero_mul, zero_div]

/-- Over the reals with `-1 < c < 1` the Kahan matrix is invertible, at every size. -/
theorem C187_invertible (n : ℕ) (c : ℝ) (h1 : -1 < c) (h2 : c < 1) (A0 : ℕ → ℕ → ℝ) :
    ((kahan Real.sqrt n c A0).toMatrix n).det ≠ 0 := by
  rw [C187_det, Finset.prod_ne_zero_iff]
  intro i _
  have hs : 0 < Real.sqrt (1 - c ^ 2) := Real.sqrt_pos.2 (by nlinarith)
  have hi : (0 : ℝ) < (i : ℕ) + 1 := by positivity
  positivity

/-- A case: size 2, `c = 3/5`, `s = 4/5`; and the hypotheses of `C187_invertible` can be met. -/
example : (kahan (fun _ => (4 / 5 : ℚ)) 2 (3 / 5) (fun _ _ => 7)).at' 1 1 = 2 / 5 ∧
    (kahan (fun _ => (4 / 5 : ℚ)) 2 (3 / 5) (fun _ _ => 7)).at' 0 1 = -3 / 10 ∧ (-1 : ℝ) < 3 / 5 ∧ (3 / 5 : ℝ) < 1 := by
  have h := (C187_entries (fun _ => (4 / 5 : ℚ)) 2 (3 / 5) (fun _ _ => 7)).2.2
  refine ⟨?_, ?_, by norm_num, by norm_num⟩
  · rw [h 1 (by decide) 1 (by decide)]; norm_num
  · rw [h 0 (by decide) 1 (by decide)]; norm_num

end kahan

end B2.Infra.Mat
