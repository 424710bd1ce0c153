/-
C152: on paths that are fractional power series in `t`, continued exactly, the Cauchy endgame finds the limit.
-/
import Verif.Endgame.PropsCauchy2
import Verif.Endgame.ConvergeProof
import Mathlib.Analysis.SpecialFunctions.Pow.Complex

set_option linter.unusedSimpArgs false
set_option linter.unusedSectionVars false

namespace B2.Endgame
open B2.Track (Code)

variable {ι : Type} [Fintype ι]

/-- The calls made by the Cauchy endgame are exact on the path `φ(u)` at time `u ^ c`, for `0 < ‖u‖ ^ c < R`: tracking
from the time `u ^ c` to a time `t'` (in a straight line, which does not pass through 0) follows the root of the time
continuously, refinement changes nothing, means are means, and differences are measured in the infinity norm. -/
structure ExactC (E : CEnv (ι → ℂ)) (φ : ℂ → ι → ℂ) (c : ℕ) (R : ℝ) : Prop where
  track : ∀ k (u t' : ℂ), u ≠ 0 → ‖u‖ ^ c < R → t' / u ^ c ∈ Complex.slitPlane → ‖t'‖ ≤ ‖u‖ ^ c →
    E.track k (u ^ c) t' (φ u) = (.success, φ (u * (t' / u ^ c) ^ (c : ℂ)⁻¹))
  refine : ∀ k (u : ℂ), u ≠ 0 → ‖u‖ ^ c < R → E.refine k (φ u) (u ^ c) = (.success, φ u)
  polish : ∀ k (u : ℂ), u ≠ 0 → ‖u‖ ^ c < R → E.polish k (φ u) (u ^ c) = φ u
  mean : E.mean = meanV
  dist : ∀ a b, E.dist a b = some ‖a - b‖

/-- The state with `m` circles from the position `u`. -/
noncomputable def onCircles (φ : ℂ → ι → ℂ) (c n : ℕ) (s : CSt (ι → ℂ)) (u : ℂ) (m k : ℕ) : CSt (ι → ℂ) :=
  { s with
    cT := (List.range (m * n + 1)).map fun i => turn (c * n) u i ^ c
    cX := (List.range (m * n + 1)).map fun i => φ (turn (c * n) u i)
    cyc := m, k := k }

theorem norm_turn (m : ℕ) (u : ℂ) (i : ℕ) : ‖turn m u i‖ = ‖u‖ := by
  unfold turn
  rw [norm_mul, norm_pow]
  have := norm_exp_turn 1 m
  rw [show 2 * (Real.pi : ℂ) * Complex.I * ((1 : ℕ) / m) = 2 * Real.pi * Complex.I / m by push_cast; ring] at this
  rw [this, one_pow, mul_one]

theorem turn_ne {m : ℕ} {u : ℂ} (hu : u ≠ 0) (i : ℕ) : turn m u i ≠ 0 := by
  rw [← norm_ne_zero_iff, norm_turn]
  exact norm_ne_zero_iff.2 hu

section
variable {E : CEnv (ι → ℂ)} {φ : ℂ → ι → ℂ} {c : ℕ} {R : ℝ} {w : ℂ}

/-- One part of a circle. -/
theorem ExactC.arc (hE : ExactC E φ c R) (hc : 1 ≤ c) {n : ℕ} (hn : 3 ≤ n) (k : ℕ) {u : ℂ} (hu : u ≠ 0) (huR : ‖u‖ ^ c < R) :
    E.track k (u ^ c) (turn (c * n) u 1 ^ c) (φ u) = (.success, φ (turn (c * n) u 1)) := by
  have hn0 : (n : ℂ) ≠ 0 := by exact_mod_cast (by omega : n ≠ 0)
  have hc0 : (c : ℂ) ≠ 0 := by exact_mod_cast (by omega : c ≠ 0)
  have hpi := Real.pi_pos
  have hnr : (3 : ℝ) ≤ n := by exact_mod_cast hn
  set θ : ℂ := 2 * Real.pi * Complex.I / n with hθ
  have him : θ.im = 2 * Real.pi / n := by
    have : θ = ((2 * Real.pi / n : ℝ) : ℂ) * Complex.I := by rw [hθ]; push_cast; ring
    rw [this, Complex.im_ofReal_mul, Complex.I_im, mul_one]
  have hlt : 2 * Real.pi / n < Real.pi := by
    rw [div_lt_iff₀ (by linarith)]
    nlinarith
  have hgt : 0 < 2 * Real.pi / n := by positivity
  have hlog : Complex.log (Complex.exp θ) = θ := Complex.log_exp (by rw [him]; linarith) (by rw [him]; linarith)
  have hq : turn (c * n) u 1 ^ c / u ^ c = Complex.exp θ := by
    unfold turn
    rw [pow_one, mul_pow, mul_div_cancel_left₀ _ (pow_ne_zero _ hu), ← Complex.exp_nat_mul]
    congr 1
    rw [hθ]
    push_cast
    field_simp
  have hslit : Complex.exp θ ∈ Complex.slitPlane := by
    rw [Complex.mem_slitPlane_iff_arg]
    refine ⟨?_, Complex.exp_ne_zero _⟩
    rw [← Complex.log_im, hlog, him]
    linarith
  have hpow : Complex.exp θ ^ (c : ℂ)⁻¹ = Complex.exp (2 * Real.pi * Complex.I / (c * n : ℕ)) := by
    rw [Complex.cpow_def_of_ne_zero (Complex.exp_ne_zero _), hlog, hθ]
    congr 1
    push_cast
    field_simp
  have := hE.track k u (turn (c * n) u 1 ^ c) hu huR (by rw [hq]; exact hslit) (by rw [norm_pow, norm_turn])
  rw [this, hq, hpow]
  unfold turn
  rw [pow_one]

theorem circleLoop_exact (hE : ExactC E φ c R) (hc : 1 ≤ c) {n : ℕ} (hn : 3 ≤ n) {u : ℂ} (hu : u ≠ 0) (huR : ‖u‖ ^ c < R) :
    ∀ rem ii k ts xs, ii + rem = n →
    circleLoop E n (u ^ c) 0 rem ii k ts xs (turn (c * n) u ii ^ c) (φ (turn (c * n) u ii)) =
      (.success, ts ++ (List.range' (ii + 1) rem).map (fun i => turn (c * n) u i ^ c),
        xs ++ (List.range' (ii + 1) rem).map (fun i => φ (turn (c * n) u i)), k + rem) := by
  intro rem
  induction rem with
  | zero => intro ii k ts xs h; simp [circleLoop]
  | succ rem ih =>
    intro ii k ts xs h
    rw [circleLoop]
    have h1 := hE.arc hc hn k (turn_ne (m := c * n) hu ii) (by rwa [norm_turn])
    rw [turn_turn] at h1
    have h2 := circleTime_turn c n hc 0 u ii (by omega)
    rw [zero_add, zero_add] at h2
    rw [h2, h1]
    dsimp only
    rw [if_pos rfl, ih (ii + 1) _ _ _ (by omega)]
    simp [List.range'_succ, Nat.add_assoc, Nat.add_comm]
    omega

theorem circleTrack_exact (hE : ExactC E φ c R) (hc : 1 ≤ c) (cfg : CCfg) (hn : 3 ≤ cfg.n) {u : ℂ} (hu : u ≠ 0)
    (huR : ‖u‖ ^ c < R) (s : CSt (ι → ℂ)) (m k : ℕ) : ∃ k',
    circleTrack E cfg 0 (onCircles φ c cfg.n s u m k) = .done .success (onCircles φ c cfg.n s u (m + 1) k') := by
  have hl := circleLoop_exact hE hc hn (turn_ne (m := c * cfg.n) hu (m * cfg.n)) (by rwa [norm_turn]) cfg.n 0 k
    (onCircles φ c cfg.n s u m k).cT (onCircles φ c cfg.n s u m k).cX (by omega)
  have ht0 : turn (c * cfg.n) (turn (c * cfg.n) u (m * cfg.n)) 0 = turn (c * cfg.n) u (m * cfg.n) := by
    rw [turn_turn, Nat.add_zero]
  rw [ht0] at hl
  have hmap : ∀ {β : Type} (f : ℂ → β), (List.range (m * cfg.n + 1)).map (fun i => f (turn (c * cfg.n) u i)) ++
      (List.range' (0 + 1) cfg.n).map (fun i => f (turn (c * cfg.n) (turn (c * cfg.n) u (m * cfg.n)) i)) =
      (List.range ((m + 1) * cfg.n + 1)).map (fun i => f (turn (c * cfg.n) u i)) := by
    intro β f
    have : (m + 1) * cfg.n + 1 = (m * cfg.n + 1) + cfg.n := by ring
    rw [this, List.range_add (n := m * cfg.n + 1), List.map_append, List.map_map, List.range'_eq_map_range,
      List.map_map]
    congr 1
    refine List.map_congr_left fun i _ => ?_
    simp only [Function.comp]
    rw [turn_turn]
    congr 2
    omega
  refine ⟨k + cfg.n, ?_⟩
  unfold circleTrack
  have hTl : (onCircles φ c cfg.n s u m k).cT.getLast? = some (turn (c * cfg.n) u (m * cfg.n) ^ c) := by
    unfold onCircles
    simp [List.range_succ]
  have hXl : (onCircles φ c cfg.n s u m k).cX.getLast? = some (φ (turn (c * cfg.n) u (m * cfg.n))) := by
    unfold onCircles
    simp [List.range_succ]
  rw [if_neg (by omega), hTl, hXl]
  dsimp only
  have hk : (onCircles φ c cfg.n s u m k).k = k := rfl
  rw [hk, hl]
  unfold onCircles
  dsimp only
  rw [hmap (fun z => z ^ c), hmap (fun z => φ z)]

theorem map_range_succ {β : Type} (f : ℕ → β) (N : ℕ) :
    (List.range (N + 1)).map f = f 0 :: (List.range N).map (fun i => f (i + 1)) := by
  rw [List.range_succ_eq_map, List.map_cons, List.map_map]
  rfl

theorem getLast_map_range {β : Type} (f : ℕ → β) (N : ℕ) (h) : ((List.range (N + 1)).map f).getLast h = f N := by
  simp [List.range_succ]

theorem dropLast_map_range {β : Type} (f : ℕ → β) (N : ℕ) : ((List.range (N + 1)).map f).dropLast = (List.range N).map f := by
  simp [List.range_succ]

/-- The closing test changes nothing on the path, and says yes after `c` circles. -/
theorem checkClosed_exact (hE : ExactC E φ c R) (hc : 1 ≤ c) (cfg : CCfg) (hn : 3 ≤ cfg.n) (htol : 0 < cfg.trackTol) {u : ℂ}
    (hu : u ≠ 0) (huR : ‖u‖ ^ c < R) (s : CSt (ι → ℂ)) (m k : ℕ) : ∃ b k',
    checkClosed E cfg (onCircles φ c cfg.n s u m k) = (b, onCircles φ c cfg.n s u m k') ∧ (m = c → b = true) := by
  obtain ⟨fT, hfT⟩ : ∃ f : ℕ → ℂ, f = fun i => turn (c * cfg.n) u i ^ c := ⟨_, rfl⟩
  obtain ⟨fX, hfX⟩ : ∃ f : ℕ → ι → ℂ, f = fun i => φ (turn (c * cfg.n) u i) := ⟨_, rfl⟩
  have hlast : ∀ h, (fX 0 :: (List.range (m * cfg.n)).map fun i => fX (i + 1)).getLast h = fX (m * cfg.n) := by
    rw [← map_range_succ]
    exact getLast_map_range fX _
  have hlastT : ∀ h, (fT 0 :: (List.range (m * cfg.n)).map fun i => fT (i + 1)).getLast h = fT (m * cfg.n) := by
    rw [← map_range_succ]
    exact getLast_map_range fT _
  have hpol : ∀ k i, E.polish k (fX i) (fT i) = fX i := by
    intro k i
    rw [hfX, hfT]
    exact hE.polish k _ (turn_ne hu i) (by rwa [norm_turn])
  have hclose : m = c → fX (m * cfg.n) = fX 0 := by
    rintro rfl
    have hm0 : m * cfg.n ≠ 0 := Nat.mul_ne_zero (by omega) (by omega)
    rw [hfX]
    simp only
    rw [turn_full _ hm0]
    simp [turn]
  have hdist : m = c → below cfg.trackTol (E.dist (fX 0) (fX (m * cfg.n))) := by
    intro hm
    rw [hE.dist, hclose hm, sub_self, norm_zero]
    exact ⟨0, rfl, htol⟩
  have hst : ∀ k, onCircles φ c cfg.n s u m k = { s with
      cT := fT 0 :: (List.range (m * cfg.n)).map fun i => fT (i + 1)
      cX := fX 0 :: (List.range (m * cfg.n)).map fun i => fX (i + 1), cyc := m, k := k } := by
    intro k
    rw [← map_range_succ, ← map_range_succ, hfT, hfX]
    rfl
  have hl2 : (fX 0 :: (List.range (m * cfg.n)).map fun i => fX (i + 1)).dropLast ++ [fX (m * cfg.n)] =
      fX 0 :: (List.range (m * cfg.n)).map fun i => fX (i + 1) := by
    rw [← map_range_succ, dropLast_map_range, List.range_succ, List.map_append]
    rfl
  by_cases hb : below cfg.trackTol (E.dist (fX 0) (fX (m * cfg.n)))
  · refine ⟨(checkClosed E cfg (onCircles φ c cfg.n s u m k)).1, k, Prod.ext rfl ?_, fun _ => ?_⟩
    · rw [hst]
      unfold checkClosed
      simp only [hlast, if_pos hb]
    · rw [hst]
      unfold checkClosed
      simp only [hlast, if_pos hb]
  · refine ⟨(checkClosed E cfg (onCircles φ c cfg.n s u m k)).1, k + 2, Prod.ext rfl ?_, fun hm => absurd (hdist hm) hb⟩
    rw [hst, hst]
    unfold checkClosed
    simp only [hlast, if_neg hb, hlastT, hpol, hl2]

theorem closeLoop_exact (hE : ExactC E φ c R) (hc : 1 ≤ c) (cfg : CCfg) (hn : 3 ≤ cfg.n) (htol : 0 < cfg.trackTol)
    (hfs : c ≤ cfg.failsafe) {u : ℂ} (hu : u ≠ 0) (huR : ‖u‖ ^ c < R) (s : CSt (ι → ℂ)) : ∀ d m k, m + d = c → 1 ≤ m →
    ∃ m' k', 1 ≤ m' ∧ closeLoop E cfg 0 (onCircles φ c cfg.n s u m k) = .done .success (onCircles φ c cfg.n s u m' k') := by
  intro d
  induction d with
  | zero =>
    intro m k hm h1
    obtain ⟨b, k', e, hb⟩ := checkClosed_exact hE hc cfg hn htol hu huR s m k
    rw [closeLoop, e, hb (by omega)]
    exact ⟨m, k', h1, rfl⟩
  | succ d ih =>
    intro m k hm h1
    obtain ⟨b, k', e, hb⟩ := checkClosed_exact hE hc cfg hn htol hu huR s m k
    rw [closeLoop, e]
    cases b with
    | true => exact ⟨m, k', h1, rfl⟩
    | false =>
      dsimp only
      rw [if_neg (by simp), if_neg (show ¬ cfg.failsafe < (onCircles φ c cfg.n s u m k).cyc by show ¬ cfg.failsafe < m; omega)]
      obtain ⟨k2, e2⟩ := circleTrack_exact hE hc cfg hn hu huR s m k'
      have : ({ onCircles φ c cfg.n s u m k' with cyc := (onCircles φ c cfg.n s u m k).cyc } : CSt (ι → ℂ)) =
        onCircles φ c cfg.n s u m k' := rfl
      rw [this, e2]
      exact ih (m + 1) k2 (by omega) (by omega)

theorem samplesLoop_exact (hE : ExactC E φ c R) (hc : 1 ≤ c) (cfg : CCfg) (hn : 3 ≤ cfg.n) (htol : 0 < cfg.trackTol)
    (hfs : c ≤ cfg.failsafe) {u : ℂ} (hu : u ≠ 0) (huR : ‖u‖ ^ c < R) (s : CSt (ι → ℂ)) : ∀ d m k, m + d + 1 = c →
    ∃ m' k', 1 ≤ m' ∧ samplesLoop E cfg 0 (onCircles φ c cfg.n s u m k) = .done .success (onCircles φ c cfg.n s u m' k') := by
  intro d
  induction d with
  | zero =>
    intro m k hm
    obtain ⟨k2, e2⟩ := circleTrack_exact hE hc cfg hn hu huR s m k
    obtain ⟨b, k', e, hb⟩ := checkClosed_exact hE hc cfg hn htol hu huR s (m + 1) k2
    rw [samplesLoop, if_pos (show (onCircles φ c cfg.n s u m k).cyc < cfg.failsafe by show m < cfg.failsafe; omega), e2]
    dsimp only
    rw [e, hb (by omega)]
    exact ⟨m + 1, k', by omega, rfl⟩
  | succ d ih =>
    intro m k hm
    obtain ⟨k2, e2⟩ := circleTrack_exact hE hc cfg hn hu huR s m k
    obtain ⟨b, k', e, hb⟩ := checkClosed_exact hE hc cfg hn htol hu huR s (m + 1) k2
    rw [samplesLoop, if_pos (show (onCircles φ c cfg.n s u m k).cyc < cfg.failsafe by show m < cfg.failsafe; omega), e2]
    dsimp only
    rw [e]
    cases b with
    | true => exact ⟨m + 1, k', by omega, rfl⟩
    | false => exact ih (m + 1) k' (by omega)

theorem refineAll_exactC (hE : ExactC E φ c R) (l : List ℂ) (hl : ∀ u ∈ l, u ≠ 0 ∧ ‖u‖ ^ c < R) : ∀ k,
    (refineAll E.toEgEnv k (l.map fun u => u ^ c) (l.map φ)).2 = l.map φ := by
  induction l with
  | nil => intro k; rfl
  | cons a l ih =>
    intro k
    have ha := hl a (by simp)
    simp only [List.map_cons]
    rw [refineAll]
    dsimp only
    rw [hE.refine k a ha.1 ha.2, if_pos rfl, ih (fun u hu => hl u (by simp [hu]))]

theorem meanV_close {l : List (ι → ℂ)} (hl : l ≠ []) {z : ι → ℂ} {δ : ℝ} (h : ∀ v ∈ l, ‖v - z‖ ≤ δ) : ‖meanV l - z‖ ≤ δ := by
  have hδ : 0 ≤ δ := by
    obtain ⟨v, hv⟩ := List.exists_mem_of_ne_nil l hl
    exact (norm_nonneg _).trans (h v hv)
  rw [pi_norm_le_iff_of_nonneg hδ]
  intro j
  have hlen : (0 : ℝ) < l.length := by exact_mod_cast List.length_pos_iff.2 hl
  have hlenC : (l.length : ℂ) ≠ 0 := by exact_mod_cast hlen.ne'
  have key : ∀ l : List (ι → ℂ), (∀ v ∈ l, ‖v - z‖ ≤ δ) → ‖(l.map fun v => v j).sum - l.length * z j‖ ≤ l.length * δ := by
    intro l
    induction l with
    | nil => intro _; simp
    | cons a l ih =>
      intro hl
      have h1 := ih fun v hv => hl v (by simp [hv])
      have h2 := (norm_le_pi_norm (a - z) j).trans (hl a (by simp))
      rw [Pi.sub_apply] at h2
      rw [List.map_cons, List.sum_cons, List.length_cons]
      push_cast
      calc _ = ‖(a j - z j) + ((l.map fun v => v j).sum - l.length * z j)‖ := by congr 1; ring
        _ ≤ _ := norm_add_le _ _
        _ ≤ (l.length + 1) * δ := by linarith
  have : (meanV l - z) j = ((l.map fun v => v j).sum - l.length * z j) / l.length := by
    rw [Pi.sub_apply, meanV, sub_div, mul_div_cancel_left₀ _ hlenC]
  rw [this, norm_div, Complex.norm_natCast, div_le_iff₀ hlen]
  exact (key l h).trans (le_of_eq (mul_comm _ _))

/-- The approximation from whole circles on which the path is close to its limit is close to the limit. -/
theorem cauchyApprox_exact (hE : ExactC E φ c R) (cfg : CCfg) (hn : 3 ≤ cfg.n) {u : ℂ} (hu : u ≠ 0) (huR : ‖u‖ ^ c < R)
    (s : CSt (ι → ℂ)) (m k : ℕ) (hm : 1 ≤ m) : ∃ a k' h,
    cauchyApprox E cfg (onCircles φ c cfg.n s u m k) =
      .done .success { onCircles φ c cfg.n s u m k' with latest := a, hist := h } ∧
    a = meanV ((List.range (m * cfg.n)).map fun i => φ (turn (c * cfg.n) u i)) := by
  unfold cauchyApprox
  rw [if_neg (by simp [onCircles])]
  have hr := refineAll_exactC hE ((List.range (m * cfg.n + 1)).map (turn (c * cfg.n) u)) (by
    intro v hv
    rw [List.mem_map] at hv
    obtain ⟨i, -, rfl⟩ := hv
    exact ⟨turn_ne hu i, by rwa [norm_turn]⟩) k
  rw [List.map_map, List.map_map] at hr
  have hr' : (refineAll E.toEgEnv (onCircles φ c cfg.n s u m k).k (onCircles φ c cfg.n s u m k).cT
      (onCircles φ c cfg.n s u m k).cX).2 = (onCircles φ c cfg.n s u m k).cX := hr
  dsimp only
  rw [hr']
  refine ⟨_, (refineAll E.toEgEnv (onCircles φ c cfg.n s u m k).k (onCircles φ c cfg.n s u m k).cT
      (onCircles φ c cfg.n s u m k).cX).1, _, rfl, ?_⟩
  rw [hE.mean]
  unfold onCircles
  dsimp only
  rw [← List.map_take, List.take_range, Nat.min_eq_left (by omega)]

/-! ### Straight moves towards 0 -/

/-- The root of a factor. -/
noncomputable def rootOf (c : ℕ) (a : ℝ) : ℂ := (a : ℂ) ^ (c : ℂ)⁻¹

theorem rootOf_pow (hc : 1 ≤ c) (a : ℝ) : rootOf c a ^ c = a := Complex.cpow_nat_inv_pow _ (by omega)

theorem rootOf_real {a : ℝ} (ha : 0 < a) : ∃ ρ : ℝ, 0 < ρ ∧ rootOf c a = ρ := by
  refine ⟨a ^ (c : ℝ)⁻¹, Real.rpow_pos_of_pos ha _, ?_⟩
  unfold rootOf
  rw [Complex.ofReal_cpow ha.le]
  push_cast
  rfl

theorem rootOf_spec (hc : 1 ≤ c) {a : ℝ} (ha : 0 < a) {u : ℂ} (hu : u ≠ 0) :
    u * rootOf c a ≠ 0 ∧ (u * rootOf c a) ^ c = u ^ c * a ∧ ‖u * rootOf c a‖ ^ c = ‖u‖ ^ c * a := by
  have hp : (u * rootOf c a) ^ c = u ^ c * a := by rw [mul_pow, rootOf_pow hc]
  refine ⟨fun h => ?_, hp, ?_⟩
  · rw [h, zero_pow (by omega)] at hp
    exact mul_ne_zero (pow_ne_zero c hu) (by exact_mod_cast ha.ne') hp.symm
  · rw [← norm_pow, hp, norm_mul, norm_pow, Complex.norm_real, Real.norm_eq_abs, abs_of_pos ha]

theorem ExactC.radial (hE : ExactC E φ c R) (k : ℕ) {u : ℂ} (hu : u ≠ 0) (huR : ‖u‖ ^ c < R) {a : ℝ} (ha : 0 < a)
    (ha1 : a ≤ 1) : E.track k (u ^ c) (u ^ c * a) (φ u) = (.success, φ (u * rootOf c a)) := by
  have hq : u ^ c * a / u ^ c = (a : ℂ) := mul_div_cancel_left₀ _ (pow_ne_zero _ hu)
  have := hE.track k u (u ^ c * a) hu huR (by rw [hq]; exact Complex.ofReal_mem_slitPlane.2 ha) (by
    rw [norm_mul, norm_pow, Complex.norm_real, Real.norm_eq_abs, abs_of_pos ha]
    exact mul_le_of_le_one_right (by positivity) ha1)
  rw [this, hq]
  rfl

/-- The last sample of the power-series data is on the path at position `u`, in the same direction as `w`. -/
structure OnPS (φ : ℂ → ι → ℂ) (c : ℕ) (s : CSt (ι → ℂ)) (u w : ℂ) : Prop where
  time : s.psT.getLast? = some (u ^ c)
  sample : s.psX.getLast? = some (φ u)
  len : 3 ≤ s.psX.length
  ne : u ≠ 0
  ray : ∃ ρ : ℝ, 0 < ρ ∧ u = w * ρ

theorem OnPS.same {s s' : CSt (ι → ℂ)} {u : ℂ} (h : OnPS φ c s u w) (h1 : s'.psT = s.psT)
    (h2 : s'.psX = s.psX) : OnPS φ c s' u w :=
  ⟨by rw [h1]; exact h.time, by rw [h2]; exact h.sample, by rw [h2]; exact h.len, h.ne, h.ray⟩

/-- The initial samples, from a point `x` from which tracking leads to the path. -/
theorem initialLoop_exactC (hE : ExactC E φ c R) (hc : 1 ≤ c) (cfg : EgCfg) (hf0 : 0 < cfg.factor) (hf1 : cfg.factor < 1) :
    ∀ (rem k : ℕ) (ts : List ℂ) (xs : List (ι → ℂ)) (u : ℂ) (x : ι → ℂ), u ≠ 0 → ‖u‖ ^ c < R →
    (∀ k, E.track k (u ^ c) (u ^ c * cfg.factor) x = (.success, φ (u * rootOf c cfg.factor))) →
    ∃ (ts' : List ℂ) (xs' : List (ι → ℂ)) (u' : ℂ) (k' : ℕ),
    initialLoop E.toEgEnv cfg 0 (rem + 1) k ts xs (u ^ c) x = (.success, ts', xs', k') ∧ ts'.getLast? = some (u' ^ c) ∧
      xs'.getLast? = some (φ u') ∧ xs'.length = xs.length + (rem + 1) ∧ u' ≠ 0 ∧
      ‖u'‖ ^ c = ‖u‖ ^ c * cfg.factor ^ (rem + 1) ∧ ∃ ρ : ℝ, 0 < ρ ∧ u' = u * ρ := by
  have hstep : ∀ (rem k : ℕ) (ts : List ℂ) (xs : List (ι → ℂ)) (u : ℂ) (x : ι → ℂ), u ≠ 0 →
      (∀ k, E.track k (u ^ c) (u ^ c * cfg.factor) x = (.success, φ (u * rootOf c cfg.factor))) →
      initialLoop E.toEgEnv cfg 0 (rem + 1) k ts xs (u ^ c) x =
        initialLoop E.toEgEnv cfg 0 rem (k + 1) (ts ++ [(u * rootOf c cfg.factor) ^ c]) (xs ++ [φ (u * rootOf c cfg.factor)])
          ((u * rootOf c cfg.factor) ^ c) (φ (u * rootOf c cfg.factor)) := by
    intro rem k ts xs u x hu hx
    obtain ⟨g1, g2, g3⟩ := rootOf_spec hc hf0 hu
    rw [initialLoop]
    have hn : nextTimePS cfg.factor 0 (u ^ c) = u ^ c * cfg.factor := by unfold nextTimePS; ring
    rw [hn]
    simp only [hx]
    rw [if_true, ← g2]
  intro rem
  induction rem with
  | zero =>
    intro k ts xs u x hu huR hx
    obtain ⟨g1, g2, g3⟩ := rootOf_spec hc hf0 hu
    obtain ⟨ρ1, hρ1, h1⟩ := rootOf_real (c := c) hf0
    rw [hstep 0 k ts xs u x hu hx]
    exact ⟨_, _, u * rootOf c cfg.factor, k + 1, rfl, by simp, by simp, by simp, g1, by rw [g3, zero_add, pow_one], ρ1, hρ1,
      by rw [h1]⟩
  | succ rem ih =>
    intro k ts xs u x hu huR hx
    obtain ⟨g1, g2, g3⟩ := rootOf_spec hc hf0 hu
    have hlt : ‖u‖ ^ c * cfg.factor ≤ ‖u‖ ^ c := mul_le_of_le_one_right (by positivity) hf1.le
    have hR' : ‖u * rootOf c cfg.factor‖ ^ c < R := by rw [g3]; linarith
    obtain ⟨ρ1, hρ1, h1⟩ := rootOf_real (c := c) hf0
    obtain ⟨ts', xs', u', k', e1, e2, e3, e4, e5, e6, ρ, hρ, e7⟩ := ih (k + 1) (ts ++ [(u * rootOf c cfg.factor) ^ c])
      (xs ++ [φ (u * rootOf c cfg.factor)]) (u * rootOf c cfg.factor) (φ (u * rootOf c cfg.factor)) g1 hR'
      (fun k => hE.radial k g1 hR' hf0 hf1.le)
    refine ⟨ts', xs', u', k', ?_, e2, e3, by rw [e4]; simp; omega, e5, by rw [e6, g3, pow_succ _ (rem + 1)]; ring, ρ1 * ρ,
      mul_pos hρ1 hρ, by rw [e7, h1]; push_cast; ring⟩
    rw [hstep (rem + 1) k ts xs u x hu hx]
    exact e1

theorem advanceC_exact (hE : ExactC E φ c R) (hc : 1 ≤ c) (cfg : CCfg) (hf0 : 0 < cfg.factor) (hf1 : cfg.factor < 1)
    {s : CSt (ι → ℂ)} {u : ℂ} (hs : OnPS φ c s u w) (huR : ‖u‖ ^ c < R)
    (hmt : cfg.minTrack ≤ ‖u‖ ^ c * (1 - cfg.factor)) :
    ∃ (ts : List ℂ) (xs : List (ι → ℂ)) (u' : ℂ), advanceC E cfg 0 s = .done .success { s with psT := ts, psX := xs, k := s.k + 1 } ∧
      OnPS φ c { s with psT := ts, psX := xs, k := s.k + 1 } u' w ∧ ‖u'‖ ^ c = ‖u‖ ^ c * (1 - cfg.factor) := by
  have h0 : 0 < 1 - cfg.factor := by linarith
  obtain ⟨g1, g2, g3⟩ := rootOf_spec hc h0 hs.ne
  refine ⟨s.psT.tail ++ [(u * rootOf c (1 - cfg.factor)) ^ c], s.psX.tail ++ [φ (u * rootOf c (1 - cfg.factor))],
    u * rootOf c (1 - cfg.factor), ?_, ⟨by simp, by simp, ?_, g1, ?_⟩, g3⟩
  · unfold advanceC
    rw [hs.time, hs.sample]
    dsimp only
    have hn : nextTimeC cfg.factor 0 (u ^ c) = u ^ c * ((1 - cfg.factor : ℝ) : ℂ) := by
      unfold nextTimeC; push_cast; ring
    rw [hn, sub_zero, ← g2, norm_pow, g3, if_neg (not_lt.2 hmt)]
    have ht := hE.radial s.k hs.ne huR h0 (by linarith)
    rw [g2, ht]
    simp only [ne_eq, not_true_eq_false, if_false]
  · have := hs.len
    simp only [List.length_append, List.length_tail, List.length_cons, List.length_nil]
    omega
  · obtain ⟨ρ1, hρ1, h1⟩ := rootOf_real (c := c) h0
    obtain ⟨ρ, hρ, h2⟩ := hs.ray
    exact ⟨ρ * ρ1, mul_pos hρ hρ1, by rw [h1, h2]; push_cast; ring⟩

theorem ckOf_exact {s : CSt (ι → ℂ)} (h : 3 ≤ s.psX.length) : ∃ x, ckOf E s = some x := by
  unfold ckOf
  match s.psX, h with
  | a :: b :: d :: l, _ => exact ⟨_, rfl⟩

theorem zoneFor_exact (hE : ExactC E φ c R) (hc : 1 ≤ c) (cfg : CCfg) (hf0 : 0 < cfg.factor) (hf1 : cfg.factor < 1)
    (f : List ℝ → CSt (ι → ℂ) → Res (CSt (ι → ℂ))) : ∀ (rem : ℕ) (l : List ℝ) (s : CSt (ι → ℂ))
    (u : ℂ), OnPS φ c s u w → ‖u‖ ^ c < R →
    cfg.minTrack ≤ ‖u‖ ^ c * (1 - cfg.factor) ^ rem →
    ∃ l' s' u', zoneFor E cfg 0 rem l s f = f l' s' ∧ OnPS φ c s' u' w ∧ s'.prev = s.prev ∧
      ‖u'‖ ^ c = ‖u‖ ^ c * (1 - cfg.factor) ^ rem := by
  intro rem
  induction rem with
  | zero => intro l s u hs _ _; exact ⟨l, s, u, rfl, hs, rfl, by simp⟩
  | succ rem ih =>
    intro l s u hs huR hmt
    have h0 : 0 < 1 - cfg.factor := by linarith
    have h1 : 1 - cfg.factor ≤ 1 := by linarith
    have hn : 0 < ‖u‖ ^ c := pow_pos (norm_pos_iff.2 hs.ne) c
    obtain ⟨ts, xs, u1, e1, e2, e3⟩ := advanceC_exact hE hc cfg hf0 hf1 hs huR (hmt.trans (by
      rw [pow_succ, ← mul_assoc, mul_right_comm]
      exact mul_le_of_le_one_right (by positivity) (pow_le_one₀ h0.le h1)))
    obtain ⟨x, hx⟩ := ckOf_exact (E := E) e2.len
    obtain ⟨l', s', u', g1, g2, g3, g4⟩ := ih (l ++ [x]) _ u1 (e2.same (s' := { s with
      psT := ts, psX := xs, k := s.k + 1 + 1 }) rfl rfl) (by rw [e3]; nlinarith)
      (by rw [e3]; exact hmt.trans (le_of_eq (by rw [pow_succ]; ring)))
    refine ⟨l', s', u', ?_, g2, g3, by rw [g4, e3, pow_succ]; ring⟩
    rw [zoneFor, e1, andThen_ok, hx]
    exact g1

theorem zoneWhile_exact (hE : ExactC E φ c R) (hc : 1 ≤ c) (cfg : CCfg) (hf0 : 0 < cfg.factor) (hf1 : cfg.factor < 1) :
    ∀ (N fuel : ℕ) (l : List ℝ) (s : CSt (ι → ℂ)) (u : ℂ), N < fuel → OnPS φ c s u w →
    ‖u‖ ^ c < R → ‖u‖ ^ c * (1 - cfg.factor) ^ N ≤ cfg.cycleCutoff →
    cfg.minTrack ≤ ‖u‖ ^ c * (1 - cfg.factor) ^ N →
    ∃ j s' u', j ≤ N ∧ zoneWhile E cfg 0 fuel l s = .done .success s' ∧ OnPS φ c s' u' w ∧ s'.prev = s.prev ∧
      ‖u'‖ ^ c = ‖u‖ ^ c * (1 - cfg.factor) ^ j := by
  intro N
  induction N with
  | zero =>
    intro fuel l s u hN hs _ hcut _
    obtain ⟨fuel, rfl⟩ : ∃ m, fuel = m + 1 := ⟨fuel - 1, by omega⟩
    refine ⟨0, s, u, le_rfl, ?_, hs, rfl, by simp⟩
    rw [zoneWhile, if_neg]
    rintro ⟨-, t, ht, hlt⟩
    rw [hs.time, Option.some.injEq] at ht
    rw [← ht, sub_zero, norm_pow] at hlt
    rw [pow_zero, mul_one] at hcut
    linarith
  | succ N ih =>
    intro fuel l s u hN hs huR hcut hmt
    obtain ⟨fuel, rfl⟩ : ∃ m, fuel = m + 1 := ⟨fuel - 1, by omega⟩
    rw [zoneWhile]
    split_ifs with hcond
    swap
    · exact ⟨0, s, u, by omega, rfl, hs, rfl, by simp⟩
    have h0 : 0 < 1 - cfg.factor := by linarith
    have h1 : 1 - cfg.factor ≤ 1 := by linarith
    have hn : 0 < ‖u‖ ^ c := pow_pos (norm_pos_iff.2 hs.ne) c
    obtain ⟨ts, xs, u1, e1, e2, e3⟩ := advanceC_exact hE hc cfg hf0 hf1 hs huR (hmt.trans (by
      rw [pow_succ, ← mul_assoc, mul_right_comm]
      exact mul_le_of_le_one_right (by positivity) (pow_le_one₀ h0.le h1)))
    obtain ⟨x, hx⟩ := ckOf_exact (E := E) e2.len
    obtain ⟨j, s', u', g0, g1, g2, g3, g4⟩ := ih fuel (l.tail ++ [x]) _ u1 (by omega) (e2.same (s' := { s with
      psT := ts, psX := xs, k := s.k + 1 + 1 }) rfl rfl) (by rw [e3]; nlinarith)
      (by rw [e3]; exact (le_of_eq (by rw [pow_succ]; ring)).trans hcut)
      (by rw [e3]; exact hmt.trans (le_of_eq (by rw [pow_succ]; ring)))
    refine ⟨j + 1, s', u', by omega, ?_, g2, g3, by rw [g4, e3, pow_succ]; ring⟩
    rw [e1, andThen_ok, hx]
    exact g1

theorem clearAndSeed_exact {s : CSt (ι → ℂ)} {u : ℂ} (hs : OnPS φ c s u w) (n : ℕ) :
    clearAndSeed s = onCircles φ c n s u 0 s.k := by
  unfold clearAndSeed onCircles
  rw [hs.time, hs.sample]
  simp [turn]

theorem initialLoops_exact (hE : ExactC E φ c R) (hc : 1 ≤ c) (cfg : CCfg) (hn : 3 ≤ cfg.n) (htol : 0 < cfg.trackTol)
    (hfs : c ≤ cfg.failsafe) (hf0 : 0 < cfg.factor) (hf1 : cfg.factor < 1) :
    ∀ (N fuel : ℕ) (s : CSt (ι → ℂ)) (u : ℂ), N < fuel → OnPS φ c s u w → ‖u‖ ^ c < R →
    (‖u‖ ^ c * (1 - cfg.factor) ^ N) ^ 2 < cfg.ratioCutoff →
    cfg.minTrack ≤ ‖u‖ ^ c * (1 - cfg.factor) ^ N →
    ∃ j s' u' m k, j ≤ N ∧ 1 ≤ m ∧ initialLoops E cfg 0 fuel s = .done .success (onCircles φ c cfg.n s' u' m k) ∧
      OnPS φ c s' u' w ∧ s'.prev = s.prev ∧ ‖u'‖ ^ c = ‖u‖ ^ c * (1 - cfg.factor) ^ j := by
  intro N
  induction N with
  | zero =>
    intro fuel s u hN hs huR hcut _
    obtain ⟨fuel, rfl⟩ : ∃ m, fuel = m + 1 := ⟨fuel - 1, by omega⟩
    rw [initialLoops, clearAndSeed_exact hs cfg.n]
    obtain ⟨k', e⟩ := circleTrack_exact hE hc cfg hn hs.ne huR s 0 s.k
    rw [e, andThen_ok, if_pos]
    · obtain ⟨m', k2, g1, g2⟩ := closeLoop_exact hE hc cfg hn htol hfs hs.ne huR s (c - 1) 1 k' (by omega) le_rfl
      exact ⟨0, s, u, m', k2, le_rfl, g1, g2, hs, rfl, by simp⟩
    · left
      refine ⟨u ^ c, by simp [onCircles, List.range_succ_eq_map, turn], ?_⟩
      rw [pow_zero, mul_one] at hcut
      rwa [sub_zero, norm_pow]
  | succ N ih =>
    intro fuel s u hN hs huR hcut hmt
    obtain ⟨fuel, rfl⟩ : ∃ m, fuel = m + 1 := ⟨fuel - 1, by omega⟩
    rw [initialLoops, clearAndSeed_exact hs cfg.n]
    obtain ⟨k', e⟩ := circleTrack_exact hE hc cfg hn hs.ne huR s 0 s.k
    rw [e, andThen_ok]
    split_ifs with hz
    · obtain ⟨m', k2, g1, g2⟩ := closeLoop_exact hE hc cfg hn htol hfs hs.ne huR s (c - 1) 1 k' (by omega) le_rfl
      exact ⟨0, s, u, m', k2, by omega, g1, g2, hs, rfl, by simp⟩
    have h0 : 0 < 1 - cfg.factor := by linarith
    have h1 : 1 - cfg.factor ≤ 1 := by linarith
    have hn0 : 0 < ‖u‖ ^ c := pow_pos (norm_pos_iff.2 hs.ne) c
    obtain ⟨ts, xs, u1, e1, e2, e3⟩ := advanceC_exact hE hc cfg hf0 hf1
      (hs.same (s' := onCircles φ c cfg.n s u (0 + 1) k') rfl rfl) huR (hmt.trans (by
      rw [pow_succ, ← mul_assoc, mul_right_comm]
      exact mul_le_of_le_one_right (by positivity) (pow_le_one₀ h0.le h1)))
    rw [e1, andThen_ok]
    obtain ⟨j, s', u', m, k, g0, g1, g2, g3, g4, g5⟩ := ih fuel _ u1 (by omega) e2 (by rw [e3]; nlinarith)
      (by rw [e3]; exact lt_of_eq_of_lt (by rw [pow_succ]; ring) hcut)
      (by rw [e3]; exact hmt.trans (le_of_eq (by rw [pow_succ]; ring)))
    exact ⟨j + 1, s', u', m, k, by omega, g1, g2, g3, g4, by rw [g5, e3, pow_succ]; ring⟩

/-- Up to the first approximation. -/
theorem runC_exact (hE : ExactC E φ c R) (hc : 1 ≤ c) (cfg : CCfg) (hn : 3 ≤ cfg.n) (htol : 0 < cfg.trackTol)
    (hfs : c ≤ cfg.failsafe) (hf0 : 0 < cfg.factor) (hf1 : cfg.factor < 1) {u : ℂ} (hu : u ≠ 0) (huR : ‖u‖ ^ c < R)
    {x0 : ι → ℂ} (hx0 : ∀ k, E.track k (u ^ c) (u ^ c * cfg.factor) x0 = (.success, φ (u * rootOf c cfg.factor)))
    (N M fuel : ℕ) (hN : N < fuel) (hM : M < fuel) (hcut : ‖u‖ ^ c * (1 - cfg.factor) ^ N ≤ cfg.cycleCutoff)
    (hrat : (‖u‖ ^ c * (1 - cfg.factor) ^ M) ^ 2 < cfg.ratioCutoff)
    (hmt : cfg.minTrack ≤ ‖u‖ ^ c * cfg.factor ^ (cfg.n - 1) * (1 - cfg.factor) ^ (cfg.needed + N + M)) :
    ∃ j s v m k, j ≤ N + M ∧ 1 ≤ m ∧ runC E cfg (u ^ c) 0 x0 fuel = loopC E cfg 0 fuel (onCircles φ c cfg.n s v m k) ∧
      OnPS φ c s v u ∧ s.prev = x0 ∧
      ‖v‖ ^ c = ‖u‖ ^ c * cfg.factor ^ (cfg.n - 1) * (1 - cfg.factor) ^ (cfg.needed + j) := by
  have h0 : 0 < 1 - cfg.factor := by linarith
  have h1 : 1 - cfg.factor ≤ 1 := by linarith
  have hn0 : 0 < ‖u‖ ^ c := pow_pos (norm_pos_iff.2 hu) c
  have hpw : ∀ a b, a ≤ b → (1 - cfg.factor) ^ b ≤ (1 - cfg.factor) ^ a := fun a b h => pow_le_pow_of_le_one h0.le h1 h
  have hf : cfg.factor ^ (cfg.n - 1) ≤ 1 := pow_le_one₀ hf0.le hf1.le
  obtain ⟨rem, hrem⟩ : ∃ rem, cfg.n - 1 = rem + 1 := ⟨cfg.n - 2, by omega⟩
  obtain ⟨ts0, xs0, u0, k0, a1, a2, a2', a3, a4, a5, a6⟩ := initialLoop_exactC hE hc cfg.toEgCfg hf0 hf1 rem 0 [u ^ c] [x0] u x0 hu
    huR hx0
  rw [← hrem] at a1 a3 a5
  set s0 : CSt (ι → ℂ) := CSt.mk [] [] [] [] 0 x0 x0 none none 0 [] with hs0
  have hu0 : ‖u0‖ ^ c ≤ ‖u‖ ^ c := by rw [a5]; exact mul_le_of_le_one_right hn0.le hf
  have hlen : 3 ≤ xs0.length := by rw [a3]; simp; omega
  have hon : OnPS φ c ({ s0 with psT := ts0, psX := xs0, k := k0 + 1 } : CSt (ι → ℂ)) u0 u := ⟨a2, a2', hlen, a4, a6⟩
  obtain ⟨x, hx⟩ := ckOf_exact (E := E) (s := ({ s0 with psT := ts0, psX := xs0, k := k0 } : CSt (ι → ℂ))) hlen
  obtain ⟨l1, s1, u1, b1, b2, b3, b4⟩ := zoneFor_exact hE hc cfg hf0 hf1 (zoneWhile E cfg 0 fuel) cfg.needed [x] _ u0
    hon (by linarith) (by
      rw [a5]
      exact hmt.trans (mul_le_mul_of_nonneg_left (hpw _ _ (by omega)) (by positivity)))
  have hu1 : ‖u1‖ ^ c ≤ ‖u0‖ ^ c := by
    rw [b4]; exact mul_le_of_le_one_right (by positivity) (pow_le_one₀ h0.le h1)
  obtain ⟨j, s2, u2, c0, c1, c2, c3, c4⟩ := zoneWhile_exact hE hc cfg hf0 hf1 N fuel l1 s1 u1 hN b2 (by linarith)
    ((mul_le_mul_of_nonneg_right (hu1.trans hu0) (by positivity)).trans hcut) (by
      rw [b4, a5, mul_assoc _ ((1 - cfg.factor) ^ cfg.needed), ← pow_add]
      exact hmt.trans (mul_le_mul_of_nonneg_left (hpw _ _ (by omega)) (by positivity)))
  have hu2 : ‖u2‖ ^ c ≤ ‖u1‖ ^ c := by
    rw [c4]; exact mul_le_of_le_one_right (by positivity) (pow_le_one₀ h0.le h1)
  obtain ⟨i, s3, u3, m, k, d0, d1, d2, d3, d4, d5⟩ := initialLoops_exact hE hc cfg hn htol hfs hf0 hf1 M fuel s2 u2 hM c2
    (by linarith) (lt_of_le_of_lt (by
      refine pow_le_pow_left₀ (by positivity) ?_ 2
      exact mul_le_mul_of_nonneg_right (hu2.trans (hu1.trans hu0)) (by positivity)) hrat) (by
      rw [c4, b4, a5, mul_assoc _ ((1 - cfg.factor) ^ cfg.needed), ← pow_add, mul_assoc _ ((1 - cfg.factor) ^ (cfg.needed + j)),
        ← pow_add]
      exact hmt.trans (mul_le_mul_of_nonneg_left (hpw _ _ (by omega)) (by positivity)))
  have hprev : s3.prev = x0 := by rw [d4, c3, b3]
  have hrun : runC E cfg (u ^ c) 0 x0 fuel = loopC E cfg 0 fuel (if cfg.level ≤ 0 then
      { onCircles φ c cfg.n s3 u3 m k with normPrev := some (E.dehomNorm (onCircles φ c cfg.n s3 u3 m k).prev) }
      else onCircles φ c cfg.n s3 u3 m k) := by
    unfold runC
    have hz : intoZone E cfg (u ^ c) 0 x0 fuel s0 = .done .success s2 := by
      unfold intoZone initialSamples
      have e : initialLoop E.toEgEnv cfg.toEgCfg 0 (cfg.n - 1) s0.k [u ^ c] [x0] (u ^ c) x0 =
        (.success, ts0, xs0, k0) := a1
      rw [e]
      dsimp only
      rw [if_neg (by simp), hx]
      dsimp only
      rw [b1, c1]
    rw [← hs0]
    dsimp only
    rw [hz, andThen_ok, d2, andThen_ok]
  refine ⟨j + i, if cfg.level ≤ 0 then ({ s3 with normPrev := some (E.dehomNorm s3.prev) } : CSt (ι → ℂ)) else s3, u3, m, k, by omega, d1,
    ?_, ?_, ?_, ?_⟩
  · rw [hrun]
    congr 1
    split_ifs <;> rfl
  · split_ifs
    · exact d3.same rfl rfl
    · exact d3
  · split_ifs
    · exact hprev
    · exact hprev
  · rw [d5, c4, b4, a5]
    ring

/-- One turn of the loop, the security check not being made. -/
theorem loopC_exact (hE : ExactC E φ c R) (hc : 1 ≤ c) (cfg : CCfg) (hn : 3 ≤ cfg.n) (htol : 0 < cfg.trackTol)
    (hfs : c ≤ cfg.failsafe) (hf0 : 0 < cfg.factor) (hf1 : cfg.factor < 1) (hlev : cfg.level = 0) (fuel : ℕ) {s : CSt (ι → ℂ)}
    {v : ℂ} (hs : OnPS φ c s v w) (hvR : ‖v‖ ^ c < R) {m : ℕ} (hm : 1 ≤ m) (k : ℕ)
    (hmt : cfg.minTrack ≤ ‖v‖ ^ c * (1 - cfg.factor)) :
    (∃ s', loopC E cfg 0 (fuel + 1) (onCircles φ c cfg.n s v m k) = .done .success s') ∨
    ∃ a s' v' m' k', (∀ z δ, (∀ x, ‖x‖ = ‖v‖ → ‖φ x - z‖ ≤ δ) → ‖a - z‖ ≤ δ) ∧ cfg.finalTol ≤ ‖a - s.prev‖ ∧ 1 ≤ m' ∧
      loopC E cfg 0 (fuel + 1) (onCircles φ c cfg.n s v m k) = loopC E cfg 0 fuel (onCircles φ c cfg.n s' v' m' k') ∧
      OnPS φ c s' v' w ∧ s'.prev = a ∧ ‖v'‖ ^ c = ‖v‖ ^ c * (1 - cfg.factor) := by
  obtain ⟨a, k', hist, b1, b2⟩ := cauchyApprox_exact hE cfg hn hs.ne hvR s m k hm
  rw [loopC, b1, andThen_ok]
  unfold judge
  dsimp only
  have hp : (onCircles φ c cfg.n s v m k').prev = s.prev := rfl
  rw [hp]
  by_cases hbel : below cfg.finalTol (E.dist a s.prev)
  · rw [if_pos hbel]
    exact Or.inl ⟨_, rfl⟩
  rw [if_neg hbel, if_neg (by simp [hlev])]
  dsimp only
  obtain ⟨ts, xs, v1, e1, e2, e3⟩ := advanceC_exact hE hc cfg hf0 hf1 (hs.same (s' := ({ onCircles φ c cfg.n s v m k' with
    latest := a, hist := hist, prev := a, normPrev := (onCircles φ c cfg.n s v m k').normLatest } : CSt (ι → ℂ))) rfl rfl) hvR hmt
  rw [e1, andThen_ok]
  unfold cauchySamples
  rw [clearAndSeed_exact e2 cfg.n]
  have hv0 : 0 < ‖v‖ ^ c := pow_pos (norm_pos_iff.2 hs.ne) c
  obtain ⟨m', k2, g1, g2⟩ := samplesLoop_exact hE hc cfg hn htol hfs e2.ne (by rw [e3]; nlinarith) _ (c - 1) 0 _ (by omega)
  rw [g2, andThen_ok]
  refine Or.inr ⟨a, _, v1, m', k2, ?_, ?_, g1, rfl, e2, rfl, e3⟩
  · intro z δ hx
    rw [b2]
    refine meanV_close ?_ ?_
    · have : 0 < m * cfg.n := Nat.mul_pos (by omega) (by omega)
      intro h
      have := congrArg List.length h
      simp at this
      omega
    · intro x hx'
      rw [List.mem_map] at hx'
      obtain ⟨i, -, rfl⟩ := hx'
      exact hx _ (norm_turn _ _ _)
  · by_contra hlt
    exact hbel ⟨_, hE.dist _ _, not_le.1 hlt⟩

theorem loopC_succeeds (hE : ExactC E φ c R) (hc : 1 ≤ c) (cfg : CCfg) (hn : 3 ≤ cfg.n) (htol : 0 < cfg.trackTol)
    (hfs : c ≤ cfg.failsafe) (hf0 : 0 < cfg.factor) (hf1 : cfg.factor < 1) (hlev : cfg.level = 0) {z : ι → ℂ} {r : ℝ}
    (hr : ∀ x : ℂ, ‖x‖ ^ c < r → ‖φ x - z‖ ≤ cfg.finalTol / 3) (hft : 0 < cfg.finalTol) : ∀ (N : ℕ) (s : CSt (ι → ℂ))
    (v : ℂ) (m k : ℕ), OnPS φ c s v w → ‖v‖ ^ c < R → 1 ≤ m → ‖v‖ ^ c * (1 - cfg.factor) ^ N < r →
    cfg.minTrack ≤ ‖v‖ ^ c * (1 - cfg.factor) ^ (N + 2) →
    ∃ s', loopC E cfg 0 (N + 2) (onCircles φ c cfg.n s v m k) = .done .success s' := by
  have h0 : 0 < 1 - cfg.factor := by linarith
  have h1 : 1 - cfg.factor ≤ 1 := by linarith
  intro N
  induction N with
  | zero =>
    intro s v m k hs hvR hm hlt hmt
    have hv0 : 0 < ‖v‖ ^ c := pow_pos (norm_pos_iff.2 hs.ne) c
    rw [pow_zero, mul_one] at hlt
    have hmt1 : cfg.minTrack ≤ ‖v‖ ^ c * (1 - cfg.factor) := hmt.trans (by
      rw [zero_add, pow_two, ← mul_assoc]
      exact mul_le_of_le_one_right (by positivity) h1)
    rcases loopC_exact hE hc cfg hn htol hfs hf0 hf1 hlev 1 hs hvR hm k hmt1 with h | ⟨a, s1, v1, m1, k1, a1, -, a3, a4, a5, a6, a7⟩
    · exact h
    rw [a4]
    have hlt1 : ‖v1‖ ^ c < r := by rw [a7]; nlinarith
    rcases loopC_exact hE hc cfg hn htol hfs hf0 hf1 hlev 0 a5 (by rw [a7]; nlinarith) a3 k1 (hmt.trans (le_of_eq (by
      rw [a7]; ring))) with h | ⟨b, s2, v2, m2, k2, b1, b2, -⟩
    · exact h
    have c1 := a1 z (cfg.finalTol / 3) fun x hx => hr x (by rwa [hx])
    have c2 := b1 z (cfg.finalTol / 3) fun x hx => hr x (by rwa [hx])
    have c3 := norm_sub_le (b - z) (a - z)
    rw [sub_sub_sub_cancel_right] at c3
    rw [a6] at b2
    linarith
  | succ N ih =>
    intro s v m k hs hvR hm hlt hmt
    have hv0 : 0 < ‖v‖ ^ c := pow_pos (norm_pos_iff.2 hs.ne) c
    have hmt1 : cfg.minTrack ≤ ‖v‖ ^ c * (1 - cfg.factor) := hmt.trans (by
      rw [pow_succ, mul_comm ((1 - cfg.factor) ^ (N + 2)), ← mul_assoc]
      exact mul_le_of_le_one_right (by positivity) (pow_le_one₀ h0.le h1))
    rcases loopC_exact hE hc cfg hn htol hfs hf0 hf1 hlev (N + 2) hs hvR hm k hmt1 with
      h | ⟨a, s1, v1, m1, k1, a1, -, a3, a4, a5, a6, a7⟩
    · exact h
    rw [show N + 1 + 2 = N + 2 + 1 by ring, a4]
    exact ih s1 v1 m1 k1 a5 (by rw [a7]; nlinarith) a3 (lt_of_eq_of_lt (by rw [a7]; ring) hlt)
      (hmt.trans (le_of_eq (by rw [a7]; ring)))

theorem andThen_imp {A : Type} {f g : A → Res A} {b : A} (hfg : ∀ a, f a = .done .success b → g a = .done .success b)
    (r : Res A) (h : r.andThen f = .done .success b) : r.andThen g = .done .success b := by
  rcases r with ⟨cd, a⟩ | a | - <;> first | (cases cd <;> first | exact hfg a h | cases h) | cases h

theorem loopC_mono (E : CEnv (ι → ℂ)) (cfg : CCfg) (target : ℂ) : ∀ (n m : ℕ) (s s' : CSt (ι → ℂ)), n ≤ m →
    loopC E cfg target n s = .done .success s' → loopC E cfg target m s = .done .success s' := by
  intro n
  induction n with
  | zero => intro m s s' _ h; cases h
  | succ n ih =>
    intro m s s' hm h
    obtain ⟨m, rfl⟩ : ∃ i, m = i + 1 := ⟨m - 1, by omega⟩
    rw [loopC] at h ⊢
    refine andThen_imp (fun s1 h1 => ?_) _ h
    cases hj : judge E cfg s1 with
    | inl r => rw [hj] at h1; exact h1
    | inr s2 =>
      rw [hj] at h1
      exact andThen_imp (fun s3 h3 => andThen_imp (fun s4 h4 => ih m s4 s' (by omega) h4) _ h3) _ h1

end

/-! ## C152 -/

/-- **C152, full statement**: on a path that is a fractional power series, continued exactly from `start` on, success of the
Cauchy endgame means that the point returned is within the final tolerance of the limit. -/
def C152_full : Prop :=
  ∀ (ι : Type) [Fintype ι] (φ : ℂ → ι → ℂ) (c : ℕ) (R : ℝ) (cfg : CCfg) (E : CEnv (ι → ℂ)) (u : ℂ) (fuel : ℕ)
    (s : CSt (ι → ℂ)), 1 ≤ c → (∀ u, ‖u‖ ^ c < R → AnalyticAt ℂ φ u) → ExactC E φ c R → 3 ≤ cfg.n → 0 < cfg.factor →
    cfg.factor < 1 → 0 < cfg.trackTol → c ≤ cfg.failsafe → 0 < cfg.finalTol → u ≠ 0 → ‖u‖ ^ c < R →
    runC E cfg (u ^ c) 0 (φ u) fuel = .done .success s → ‖s.latest - φ 0‖ ≤ cfg.finalTol

/-- Accuracy, also when the endgame is started near the path. -/
theorem cauchy_near {φ : ℂ → ι → ℂ} {c : ℕ} {R : ℝ} (hc : 1 ≤ c) (hR : 0 < R) (hφ : ContinuousAt φ 0)
    {ε tol cutoff ratio : ℝ} (hε : 0 < ε) (htol : 0 < tol) (hcut : 0 < cutoff) (hrat : 0 < ratio) :
    ∃ r, 0 < r ∧ r ≤ R ∧ ∀ (cfg : CCfg) (E : CEnv (ι → ℂ)), ExactC E φ c R → 3 ≤ cfg.n → 0 < cfg.factor → cfg.factor < 1 →
      0 < cfg.trackTol → c ≤ cfg.failsafe → tol ≤ cfg.finalTol → cutoff ≤ cfg.cycleCutoff → ratio ≤ cfg.ratioCutoff →
      ∀ (u : ℂ) (x0 : ι → ℂ), u ≠ 0 → ‖u‖ ^ c < r →
        (∀ k, E.track k (u ^ c) (u ^ c * cfg.factor) x0 = (.success, φ (u * rootOf c cfg.factor))) → ‖x0 - φ u‖ ≤ tol / 8 →
        cfg.minTrack ≤ ‖u‖ ^ c * cfg.factor ^ (cfg.n - 1) * (1 - cfg.factor) ^ cfg.needed → ∀ fuel, 1 ≤ fuel →
        ∃ s, runC E cfg (u ^ c) 0 x0 fuel = .done .success s ∧ ‖s.latest - φ 0‖ ≤ ε := by
  obtain ⟨ρ, hρ, hclose⟩ := Metric.continuousAt_iff.1 hφ (min ε (tol / 4)) (by positivity)
  have hcl : ∀ v : ℂ, ‖v‖ < ρ → ‖φ v - φ 0‖ < min ε (tol / 4) := by
    intro v hv
    have := hclose (x := v) (by rwa [dist_zero_right])
    rwa [dist_eq_norm] at this
  refine ⟨min (min R (ρ ^ c)) (min cutoff (min ratio 1)), by positivity, (min_le_left _ _).trans (min_le_left _ _), ?_⟩
  intro cfg E hE hn hf0 hf1 htt hfs htol' hcut' hrat' u x0 hu hur hx0 hx0' hmt fuel hfuel
  have h0 : 0 < 1 - cfg.factor := by linarith
  have hn0 : 0 < ‖u‖ ^ c := pow_pos (norm_pos_iff.2 hu) c
  have g1 : ‖u‖ ^ c < R := hur.trans_le ((min_le_left _ _).trans (min_le_left _ _))
  have g2 : ‖u‖ ^ c < ρ ^ c := hur.trans_le ((min_le_left _ _).trans (min_le_right _ _))
  have g3 : ‖u‖ ^ c < cutoff := hur.trans_le ((min_le_right _ _).trans (min_le_left _ _))
  have g4 : ‖u‖ ^ c < ratio := hur.trans_le ((min_le_right _ _).trans ((min_le_right _ _).trans (min_le_left _ _)))
  have g5 : ‖u‖ ^ c < 1 := hur.trans_le ((min_le_right _ _).trans ((min_le_right _ _).trans (min_le_right _ _)))
  have hball : ∀ v : ℂ, ‖v‖ ^ c ≤ ‖u‖ ^ c → ‖φ v - φ 0‖ < min ε (tol / 4) := fun v hv =>
    hcl v (lt_of_pow_lt_pow_left₀ c hρ.le (hv.trans_lt g2))
  obtain ⟨j, s, v, m, k, hj, hm, e1, e2, e3, e4⟩ := runC_exact hE hc cfg hn htt hfs hf0 hf1 hu g1 hx0 0 0 fuel (by omega) (by omega)
    (by simp; linarith) (by simp; nlinarith) (by simpa using hmt)
  have hv : ‖v‖ ^ c ≤ ‖u‖ ^ c := by
    rw [e4, mul_assoc]
    exact mul_le_of_le_one_right hn0.le (mul_le_one₀ (pow_le_one₀ hf0.le hf1.le) (by positivity) (pow_le_one₀ h0.le (by linarith)))
  obtain ⟨a, k', hist, b1, b2⟩ := cauchyApprox_exact hE cfg hn e2.ne (by linarith) s m k hm
  have ha : ‖a - φ 0‖ ≤ min ε (tol / 4) := by
    rw [b2]
    refine meanV_close ?_ ?_
    · have : 0 < m * cfg.n := Nat.mul_pos (by omega) (by omega)
      intro h
      have := congrArg List.length h
      simp at this
      omega
    · intro x hx
      rw [List.mem_map] at hx
      obtain ⟨i, -, rfl⟩ := hx
      exact (hball _ (by rwa [norm_turn])).le
  obtain ⟨fuel, rfl⟩ : ∃ f, fuel = f + 1 := ⟨fuel - 1, by omega⟩
  refine ⟨{ onCircles φ c cfg.n s v m k' with latest := a, hist := hist }, ?_, ha.trans (min_le_left _ _)⟩
  rw [e1, loopC, b1, andThen_ok]
  have hbel : below cfg.finalTol (E.dist a s.prev) := by
    refine ⟨_, hE.dist _ _, ?_⟩
    rw [e3]
    have h1 := hball u le_rfl
    have h2 := norm_sub_le (a - φ 0) (φ u - φ 0)
    rw [sub_sub_sub_cancel_right] at h2
    have h3 := min_le_right ε (tol / 4)
    have h4 := norm_sub_le (a - φ u) (x0 - φ u)
    rw [sub_sub_sub_cancel_right] at h4
    linarith
  unfold judge
  dsimp only
  have hp : (onCircles φ c cfg.n s v m k').prev = s.prev := rfl
  rw [hp, if_pos hbel]

/-- **C152, the part that holds, accuracy**: for every fractional power series whose cycle number is at most the configured
maximum, every required accuracy `ε`, every positive final tolerance and positive cutoffs there is a radius such that from
any start time inside it the endgame, with exact continuation, ends with success and the point returned is within `ε` of
the limit - although the loops may be declared closed too early.  Missing: start times outside that radius. -/
theorem C152_accurate_partial {φ : ℂ → ι → ℂ} {c : ℕ} {R : ℝ} (hc : 1 ≤ c) (hR : 0 < R) (hφ : ContinuousAt φ 0)
    {ε tol cutoff ratio : ℝ} (hε : 0 < ε) (htol : 0 < tol) (hcut : 0 < cutoff) (hrat : 0 < ratio) :
    ∃ r, 0 < r ∧ r ≤ R ∧ ∀ (cfg : CCfg) (E : CEnv (ι → ℂ)), ExactC E φ c R → 3 ≤ cfg.n → 0 < cfg.factor → cfg.factor < 1 →
      0 < cfg.trackTol → c ≤ cfg.failsafe → tol ≤ cfg.finalTol → cutoff ≤ cfg.cycleCutoff → ratio ≤ cfg.ratioCutoff →
      ∀ u : ℂ, u ≠ 0 → ‖u‖ ^ c < r →
        cfg.minTrack ≤ ‖u‖ ^ c * cfg.factor ^ (cfg.n - 1) * (1 - cfg.factor) ^ cfg.needed → ∀ fuel, 1 ≤ fuel →
        ∃ s, runC E cfg (u ^ c) 0 (φ u) fuel = .done .success s ∧ ‖s.latest - φ 0‖ ≤ ε := by
  obtain ⟨r, h1, h2, h3⟩ := cauchy_near hc hR hφ hε htol hcut hrat
  refine ⟨r, h1, h2, fun cfg E hE hn hf0 hf1 htt hfs ht hcu hra u hu hur => ?_⟩
  exact h3 cfg E hE hn hf0 hf1 htt hfs ht hcu hra u (φ u) hu hur (fun k => hE.radial k hu (hur.trans_le h2) hf0 hf1.le)
    (by rw [sub_self, norm_zero]; positivity)

/-- **C152, the part that holds, convergence**: from any start time at which the path is a fractional power series with
cycle number at most the configured maximum, continued exactly and with the security check not made, the endgame ends
with success, if the least tracking time is small enough. -/
theorem C152_succeeds_partial {φ : ℂ → ι → ℂ} {c : ℕ} {R : ℝ} (hc : 1 ≤ c) (hφ : ContinuousAt φ 0) (cfg : CCfg)
    (hn : 3 ≤ cfg.n) (hf0 : 0 < cfg.factor) (hf1 : cfg.factor < 1) (htol : 0 < cfg.trackTol) (hfs : c ≤ cfg.failsafe)
    (hft : 0 < cfg.finalTol) (hcut : 0 < cfg.cycleCutoff) (hrat : 0 < cfg.ratioCutoff) (hlev : cfg.level = 0) (u : ℂ)
    (hu : u ≠ 0) (huR : ‖u‖ ^ c < R) :
    ∃ μ N, 0 < μ ∧ ∀ mt ≤ μ, ∀ E, ExactC E φ c R →
      ∃ s, runC E { cfg with minTrack := mt } (u ^ c) 0 (φ u) N = .done .success s := by
  have h0 : 0 < 1 - cfg.factor := by linarith
  have h1 : 1 - cfg.factor < 1 := by linarith
  have hn0 : 0 < ‖u‖ ^ c := pow_pos (norm_pos_iff.2 hu) c
  obtain ⟨ρ, hρ, hclose⟩ := Metric.continuousAt_iff.1 hφ (cfg.finalTol / 3) (by positivity)
  have hcl : ∀ x : ℂ, ‖x‖ ^ c < ρ ^ c → ‖φ x - φ 0‖ ≤ cfg.finalTol / 3 := by
    intro x hx
    have := hclose (x := x) (by rw [dist_zero_right]; exact lt_of_pow_lt_pow_left₀ c hρ.le hx)
    rw [dist_eq_norm] at this
    exact this.le
  have hsm : ∀ b : ℝ, 0 < b → ∃ N : ℕ, ‖u‖ ^ c * (1 - cfg.factor) ^ N < b := by
    intro b hb
    obtain ⟨N, hN⟩ := exists_pow_lt_of_lt_one (div_pos hb hn0) h1
    exact ⟨N, by rw [lt_div_iff₀ hn0] at hN; linarith⟩
  obtain ⟨N, hN⟩ := hsm _ hcut
  obtain ⟨M, hM⟩ := hsm (Real.sqrt cfg.ratioCutoff) (Real.sqrt_pos.2 hrat)
  obtain ⟨K, hK⟩ := hsm (ρ ^ c) (by positivity)
  refine ⟨‖u‖ ^ c * cfg.factor ^ (cfg.n - 1) * (1 - cfg.factor) ^ (cfg.needed + N + M + K + 2), N + M + K + 2, by positivity, ?_⟩
  intro mt hmt E hE
  have hpw : ∀ a b, a ≤ b → (1 - cfg.factor) ^ b ≤ (1 - cfg.factor) ^ a := fun a b h => pow_le_pow_of_le_one h0.le h1.le h
  have hA : 0 < ‖u‖ ^ c * cfg.factor ^ (cfg.n - 1) := by positivity
  obtain ⟨j, s, v, m, k, hj, hm, e1, e2, -, e4⟩ := runC_exact hE hc { cfg with minTrack := mt } hn htol hfs hf0 hf1 hu huR
    (fun k => hE.radial k hu huR hf0 hf1.le) N M (N + M + K + 2) (by omega) (by omega) hN.le (by
      have := pow_lt_pow_left₀ hM (by positivity) (n := 2) (by norm_num)
      rwa [Real.sq_sqrt hrat.le] at this)
    (hmt.trans (mul_le_mul_of_nonneg_left (hpw _ _ (show cfg.needed + N + M ≤ _ by omega)) hA.le))
  have hv : ‖v‖ ^ c ≤ ‖u‖ ^ c := by
    rw [e4, mul_assoc]
    exact mul_le_of_le_one_right hn0.le (mul_le_one₀ (pow_le_one₀ hf0.le hf1.le) (by positivity) (pow_le_one₀ h0.le h1.le))
  rw [e1]
  obtain ⟨s', hs'⟩ := loopC_succeeds hE hc { cfg with minTrack := mt } hn htol hfs hf0 hf1 hlev (z := φ 0) hcl hft K s v m k e2
    (hv.trans_lt huR) hm (lt_of_le_of_lt (mul_le_mul_of_nonneg_right hv (by positivity)) hK) (by
      rw [e4]
      show mt ≤ ‖u‖ ^ c * cfg.factor ^ (cfg.n - 1) * (1 - cfg.factor) ^ (cfg.needed + j) * (1 - cfg.factor) ^ (K + 2)
      rw [mul_assoc _ ((1 - cfg.factor) ^ (cfg.needed + j)), ← pow_add]
      exact hmt.trans (mul_le_mul_of_nonneg_left (hpw _ _ (by omega)) hA.le))
  exact ⟨s', loopC_mono E _ 0 (K + 2) _ _ _ (by omega) hs'⟩

/-! ### An exact environment exists -/

/-- Tracking, refinement and means along a path whose position can be found from time and point. -/
noncomputable def exactC (φ : ℂ → ι → ℂ) (ψ : ℂ → (ι → ℂ) → ℂ) (c : ℕ) : CEnv (ι → ℂ) where
  track _ t t' x := (.success, φ (ψ t x * (t' / t) ^ (c : ℂ)⁻¹))
  refine _ x _ := (.success, x)
  approx _ _ _ := 0
  dist a b := some ‖a - b‖
  dehomNorm a := ‖a‖
  polish _ x _ := x
  mean := meanV
  cOverK _ _ _ _ := 1
  lowRatio _ _ := false
  sampNorm a := ‖a‖

theorem exactC_exact {φ : ℂ → ι → ℂ} {ψ : ℂ → (ι → ℂ) → ℂ} {c : ℕ} (R : ℝ) (h : ∀ u, ψ (u ^ c) (φ u) = u) :
    ExactC (exactC φ ψ c) φ c R where
  track k u t' _ _ _ _ := by simp [exactC, h]
  refine _ _ _ _ := rfl
  polish _ _ _ _ := rfl
  mean := rfl
  dist _ _ := rfl

noncomputable def cauchyCfg : CCfg where
  n := 3
  factor := 1 / 2
  minTrack := 0
  finalTol := 1 / 10
  level := 0
  maxNorm := 1
  failsafe := 6
  needed := 1
  cycleCutoff := 1
  ratioCutoff := 1
  maxRatio := 1 / 2
  trackTol := 1 / 100

/-- Witness for `C152_accurate_partial` and `C152_succeeds_partial`: the square root of `t` plus 1. -/
example : (∃ r, 0 < r ∧ r ≤ (1 : ℝ) ∧ ∀ u : ℂ, u ≠ 0 → ‖u‖ ^ 2 < r → ∃ s,
      runC (exactC (fun u (_ : Unit) => 1 + u) (fun _ x => x () - 1) 2) cauchyCfg (u ^ 2) 0 (fun _ => 1 + u) 1 =
        .done .success s ∧ ‖s.latest - fun _ => 1‖ ≤ 1 / 1000) ∧
    ∃ μ N, 0 < μ ∧ ∀ mt ≤ μ, ∃ s,
      runC (exactC (fun u (_ : Unit) => 1 + u) (fun _ x => x () - 1) 2) { cauchyCfg with minTrack := mt } ((1 / 2) ^ 2) 0
        (fun _ => 1 + 1 / 2) N = .done .success s := by
  have hE : ExactC (exactC (fun u (_ : Unit) => 1 + u) (fun _ x => x () - 1) 2) (fun u (_ : Unit) => 1 + u) 2 1 :=
    exactC_exact 1 fun u => by ring
  have hφ : ContinuousAt (fun (u : ℂ) (_ : Unit) => 1 + u) 0 := by fun_prop
  constructor
  · obtain ⟨r, h1, h2, h3⟩ := C152_accurate_partial (c := 2) (by norm_num) one_pos hφ (ε := 1 / 1000) (tol := 1 / 10)
      (cutoff := 1) (ratio := 1) (by norm_num) (by norm_num) one_pos one_pos
    refine ⟨r, h1, h2, fun u hu hur => ?_⟩
    obtain ⟨s, g1, g2⟩ := h3 cauchyCfg _ hE (by norm_num [cauchyCfg]) (by norm_num [cauchyCfg]) (by norm_num [cauchyCfg])
      (by norm_num [cauchyCfg]) (by norm_num [cauchyCfg]) (by norm_num [cauchyCfg]) (by norm_num [cauchyCfg])
      (by norm_num [cauchyCfg]) u hu hur (by
        show (0 : ℝ) ≤ _
        have : 0 < cauchyCfg.factor := by norm_num [cauchyCfg]
        have : 0 < 1 - cauchyCfg.factor := by norm_num [cauchyCfg]
        positivity) 1 le_rfl
    exact ⟨s, g1, by simpa using g2⟩
  · obtain ⟨μ, N, h1, h2⟩ := C152_succeeds_partial (c := 2) (R := 1) (by norm_num) hφ cauchyCfg (by norm_num [cauchyCfg])
      (by norm_num [cauchyCfg]) (by norm_num [cauchyCfg]) (by norm_num [cauchyCfg]) (by norm_num [cauchyCfg])
      (by norm_num [cauchyCfg]) (by norm_num [cauchyCfg]) (by norm_num [cauchyCfg]) rfl (1 / 2) (by norm_num)
      (by rw [norm_div]; norm_num)
    exact ⟨μ, N, h1, fun mt hmt => h2 mt hmt _ hE⟩

/-! ### Refutation -/

noncomputable def badPath (u : ℂ) : Unit → ℂ := fun _ => 32768 * (u ^ 3 - 1 / 8) * (u ^ 3 - 1 / 4096)

theorem badPath_turn (v : ℂ) (i : ℕ) : badPath (turn (1 * 3) v i) = badPath v := by
  have : turn (1 * 3) v i ^ 3 = v ^ 3 := by
    unfold turn
    rw [mul_pow, ← pow_mul, mul_comm i 3, pow_mul, ← Complex.exp_nat_mul]
    have : ((3 : ℕ) : ℂ) * (2 * Real.pi * Complex.I / ((1 * 3 : ℕ) : ℂ)) = 2 * Real.pi * Complex.I := by
      push_cast; ring
    rw [this, Complex.exp_two_pi_mul_I, one_pow, mul_one]
  unfold badPath
  rw [this]

/-- **C152 fails**: the mean of the first samples equals the starting point exactly, and both miss the limit by ten times the
tolerance. -/
theorem C152_refuted : ¬ C152_full := by
  intro H
  have hE : ExactC (exactC badPath (fun t _ => t) 1) badPath 1 1 := exactC_exact 1 fun u => pow_one u
  have hu : ‖(1 / 2 : ℂ)‖ ^ 1 = 1 / 2 := by rw [pow_one, norm_div]; norm_num
  obtain ⟨j, s, v, m, k, hj, hm, e1, e2, e3, e4⟩ := runC_exact hE le_rfl cauchyCfg (by norm_num [cauchyCfg])
    (by norm_num [cauchyCfg]) (by norm_num [cauchyCfg]) (by norm_num [cauchyCfg]) (by norm_num [cauchyCfg]) (u := 1 / 2) (by norm_num)
    (by rw [hu]; norm_num) (fun k => hE.radial k (by norm_num) (by rw [hu]; norm_num) (by norm_num [cauchyCfg])
      (by norm_num [cauchyCfg])) 0 0 1 one_pos one_pos (by rw [hu]; norm_num [cauchyCfg]) (by rw [hu]; norm_num [cauchyCfg])
    (by rw [hu]; norm_num [cauchyCfg])
  obtain rfl : j = 0 := by omega
  have hvn : ‖v‖ ^ 1 = 1 / 16 := by rw [e4, hu]; norm_num [cauchyCfg]
  have hv : v = 1 / 16 := by
    obtain ⟨ρ, hρ, rfl⟩ := e2.ray
    rw [pow_one, norm_mul, Complex.norm_real, Real.norm_eq_abs, abs_of_pos hρ, norm_div] at hvn
    have : ρ = 1 / 8 := by norm_num at hvn; linarith
    rw [this]; push_cast; norm_num
  obtain ⟨a, k', hist, b1, b2⟩ := cauchyApprox_exact hE cauchyCfg (by norm_num [cauchyCfg]) e2.ne (by rw [hvn]; norm_num) s m k hm
  have h1 : badPath (1 / 2) = 0 := by funext _; simp [badPath]; left; norm_num
  have h2 : badPath v = 0 := by rw [hv]; funext _; simp [badPath]; right; norm_num
  have ha : a = 0 := by
    have : ‖a - 0‖ ≤ 0 := by
      rw [b2]
      refine meanV_close ?_ ?_
      · have : 0 < m * cauchyCfg.n := Nat.mul_pos (by omega) (by norm_num [cauchyCfg])
        intro h
        have h' := congrArg List.length h
        rw [List.length_map, List.length_range, List.length_nil] at h'
        omega
      · intro x hx
        rw [List.mem_map] at hx
        obtain ⟨i, -, rfl⟩ := hx
        show ‖badPath (turn (1 * 3) v i) - 0‖ ≤ 0
        rw [badPath_turn, h2]
        simp
    rwa [sub_zero, norm_le_zero_iff] at this
  have hrun : runC (exactC badPath (fun t _ => t) 1) cauchyCfg ((1 / 2) ^ 1) 0 (badPath (1 / 2)) 1 =
      .done .success { onCircles badPath 1 cauchyCfg.n s v m k' with latest := a, hist := hist } := by
    rw [e1, loopC, b1, andThen_ok]
    unfold judge
    dsimp only
    have hp : (onCircles badPath 1 cauchyCfg.n s v m k').prev = s.prev := rfl
    rw [hp, e3, h1, ha, if_pos]
    exact ⟨_, rfl, by simp [cauchyCfg]⟩
  have := H Unit badPath 1 1 cauchyCfg _ (1 / 2) 1 _ le_rfl (fun u _ => analyticAt_pi_iff.2 fun _ => by unfold badPath; fun_prop) hE (by norm_num [cauchyCfg])
    (by norm_num [cauchyCfg]) (by norm_num [cauchyCfg]) (by norm_num [cauchyCfg]) (by norm_num [cauchyCfg]) (by norm_num [cauchyCfg])
    (by norm_num) (by rw [hu]; norm_num) hrun
  rw [ha] at this
  have h3 := (norm_le_pi_norm (0 - badPath 0) ()).trans this
  norm_num [badPath, cauchyCfg] at h3

end B2.Endgame
