import Verif.Track.AMP
import Mathlib.Analysis.SpecialFunctions.Log.Base

/-!
# C97: digits for an interval of step sizes
-/

namespace B2.Track

theorem logb_ten_zpow (k : ℤ) : Real.logb 10 ((10 : ℝ) ^ k) = k := by
  rw [← Real.rpow_intCast, Real.logb_rpow (by norm_num) (by norm_num)]

theorem ten_zpow_mul_le {q : ℤ} {togo h : ℝ} (ht : 0 < togo) (hh : 0 < h) :
    (10 : ℝ) ^ q * togo ≤ h ↔ (q : ℝ) + Real.logb 10 togo ≤ Real.logb 10 h := by
  have h1 : Real.logb 10 ((10 : ℝ) ^ q * togo) = q + Real.logb 10 togo := by
    rw [Real.logb_mul (by positivity) ht.ne', logb_ten_zpow]
  rw [← h1, Real.logb_le_logb (by norm_num) (by positivity) hh]

/-- The smallest step size permitted at precision `p`, apart from the floor for double precision. -/
theorem minStepFor_of {p : ℕ} {togo h : ℝ} (hp : p ≠ 16 ∨ (10 : ℝ) ^ (-150 : ℤ) ≤ h) :
    minStepFor p togo ≤ h ↔ (10 : ℝ) ^ (3 - (p : ℤ)) * togo ≤ h := by
  unfold minStepFor
  dsimp only
  split_ifs with hc
  · have h1 : (10 : ℝ) ^ (-150 : ℤ) ≤ h := by
      rcases hp with hp | hp
      · exact absurd hc.1 hp
      · exact hp
    exact ⟨fun _ => hc.2.le.trans h1, fun _ => h1⟩
  · exact Iff.rfl

/-- **C97**: with at least the number of digits computed by `MinDigitsForStepsizeInterval` every step size of the
interval is permitted by `MinStepSizeForPrecision` (for double precision: unless it is below `1e-150`). -/
theorem C97_enough_partial (a b togo h : ℝ) (p : ℕ) (ha : 0 < a) (hah : a ≤ h) (_hb : h ≤ b) (ht : 0 < togo)
    (hp : minDigitsForInterval a b togo ≤ p) (h16 : p ≠ 16 ∨ (10 : ℝ) ^ (-150 : ℤ) ≤ h) :
    minStepFor p togo ≤ h := by
  have hh : 0 < h := ha.trans_le hah
  rw [minStepFor_of h16, ten_zpow_mul_le ht hh]
  have h1 := (le_max_left _ _).trans hp
  unfold minDigitsForLog at h1
  rw [abs_of_pos ht] at h1
  have h2 := Int.le_ceil (-Real.logb 10 a)
  have h3 := Int.le_ceil (Real.logb 10 togo)
  have h4 : ⌈-Real.logb 10 a⌉ + ⌈Real.logb 10 togo⌉ + 3 ≤ (p : ℤ) := by omega
  have h5 : ((⌈-Real.logb 10 a⌉ : ℤ) : ℝ) + (⌈Real.logb 10 togo⌉ : ℤ) + 3 ≤ (p : ℝ) := by exact_mod_cast h4
  have h6 : Real.logb 10 a ≤ Real.logb 10 h := Real.logb_le_logb_of_le (by norm_num) ha hah
  push_cast
  linarith

/-- **C97 (no waste)**: with two digits fewer the smallest step size of the interval is not permitted. -/
theorem C97_needed (a b togo : ℝ) (p : ℕ) (ha : 0 < a) (hab : a ≤ b) (ht : 0 < togo)
    (hp : p + 2 ≤ minDigitsForInterval a b togo) : a < minStepFor p togo := by
  have hle : minDigitsForLog (-Real.logb 10 b) togo ≤ minDigitsForLog (-Real.logb 10 a) togo := by
    unfold minDigitsForLog
    have := Int.ceil_le_ceil (neg_le_neg (Real.logb_le_logb_of_le (b := 10) (by norm_num) ha hab))
    omega
  have h1 : p + 2 ≤ minDigitsForLog (-Real.logb 10 a) togo := by
    unfold minDigitsForInterval at hp
    rwa [max_eq_left hle] at hp
  have h0 : a < (10 : ℝ) ^ (3 - (p : ℤ)) * togo := by
    rw [← not_le, ten_zpow_mul_le ht ha]
    intro hc
    unfold minDigitsForLog at h1
    rw [abs_of_pos ht] at h1
    have h2 := Int.ceil_lt_add_one (-Real.logb 10 a)
    have h3 := Int.ceil_lt_add_one (Real.logb 10 togo)
    have h4 : (p : ℤ) + 2 ≤ ⌈-Real.logb 10 a⌉ + ⌈Real.logb 10 togo⌉ + 3 := by omega
    have h5 : (p : ℝ) + 2 ≤ ((⌈-Real.logb 10 a⌉ : ℤ) : ℝ) + (⌈Real.logb 10 togo⌉ : ℤ) + 3 := by exact_mod_cast h4
    push_cast at hc
    linarith
  unfold minStepFor
  dsimp only
  split_ifs with hc
  · exact h0.trans hc.2
  · exact h0

/-- C97, full statement: enough digits for every step size of the interval, without exception. -/
def C97_full : Prop :=
  ∀ (a b togo h : ℝ) (p : ℕ), 0 < a → a ≤ h → h ≤ b → 0 < togo → minDigitsForInterval a b togo ≤ p →
    minStepFor p togo ≤ h

/-- In double precision steps below `1e-150` are refused even if 16 digits are enough. -/
theorem C97_refuted : ¬ C97_full := by
  intro H
  have h := H ((10 : ℝ) ^ (-152 : ℤ)) ((10 : ℝ) ^ (-152 : ℤ)) ((10 : ℝ) ^ (-152 : ℤ)) ((10 : ℝ) ^ (-152 : ℤ)) 16
    (by positivity) le_rfl le_rfl (by positivity) (by
      unfold minDigitsForInterval minDigitsForLog
      rw [abs_of_pos (by positivity), logb_ten_zpow, ← Int.cast_neg, Int.ceil_intCast, Int.ceil_intCast]
      decide)
  unfold minStepFor at h
  rw [if_pos ⟨rfl, by
    rw [← zpow_add₀ (by norm_num)]
    exact zpow_lt_zpow_right₀ (by norm_num) (by norm_num)⟩] at h
  have : (10 : ℝ) ^ (-152 : ℤ) < (10 : ℝ) ^ (-150 : ℤ) := zpow_lt_zpow_right₀ (by norm_num) (by norm_num)
  linarith

/-- Witness: a step of `1e-9` with 1/10 to go needs 11 digits; 11 are enough, 9 are not. -/
example : minStepFor 11 ((10 : ℝ) ^ (-1 : ℤ)) ≤ (10 : ℝ) ^ (-9 : ℤ) ∧
    (10 : ℝ) ^ (-9 : ℤ) < minStepFor 9 ((10 : ℝ) ^ (-1 : ℤ)) := by
  have hd : minDigitsForInterval ((10 : ℝ) ^ (-9 : ℤ)) ((10 : ℝ) ^ (-9 : ℤ)) ((10 : ℝ) ^ (-1 : ℤ)) = 11 := by
    unfold minDigitsForInterval minDigitsForLog
    rw [abs_of_pos (by positivity), logb_ten_zpow, logb_ten_zpow, ← Int.cast_neg, Int.ceil_intCast, Int.ceil_intCast]
    decide
  exact ⟨C97_enough_partial _ _ _ _ 11 (by positivity) le_rfl le_rfl (by positivity) hd.le (Or.inl (by decide)),
    C97_needed _ _ _ 9 (by positivity) le_rfl (by positivity) hd.ge⟩

end B2.Track
