/-
C115: what the criteria of adaptive precision say.  C116: criterion B and the iterations that are left.
C117: the digits the tracker asks for.
-/
import Verif.Track.Criteria

namespace B2.Track.Crit

/-! ### C115 -/

theorem lg_pos {x : ℝ} (h : 0 < x) : lg x = ((Real.logb 10 x : ℝ) : EReal) := by rw [lg, if_neg h.ne']

theorem lg_zero : lg 0 = ⊥ := by rw [lg, if_pos rfl]

/-- A real logarithmic inequality in multiplicative form. -/
theorem log_form (k : ℤ) (x y : ℝ) (p : ℕ) (hx : 0 < x) (hy : 0 < y) :
    (k : ℝ) + (Real.logb 10 x - Real.logb 10 y) < p ↔ x * (10 : ℝ) ^ k < y * 10 ^ p := by
  have h10 : (1 : ℝ) < 10 := by norm_num
  have e1 : Real.logb 10 (x * (10 : ℝ) ^ k) = Real.logb 10 x + k := by
    rw [Real.logb_mul hx.ne' (by positivity), ← Real.rpow_intCast, Real.logb_rpow (by norm_num) (by norm_num)]
  have e2 : Real.logb 10 (y * (10 : ℝ) ^ p) = Real.logb 10 y + p := by
    rw [Real.logb_mul hy.ne' (by positivity), ← Real.rpow_natCast, Real.logb_rpow (by norm_num) (by norm_num)]
  rw [← Real.logb_lt_logb_iff h10 (show 0 < x * (10 : ℝ) ^ k by positivity) (show 0 < y * (10 : ℝ) ^ p by positivity), e1, e2]
  constructor <;> intro h <;> linarith

/-- **C115**: for all norms, settings and precisions (non-negative norms and error bounds, positive tolerance, at least
one iteration): criterion A holds exactly when `‖J⁻¹‖ ε (‖J‖ + Φ)` is below `10^(p - σ₁)`; criterion C exactly when
`‖J⁻¹‖ Ψ + ‖z‖` is below `tol 10^(p - σ₂)`; criterion B exactly when `n` steps, each of which shrinks the residual by the
factor `10^(σ₁ - p) (‖J⁻¹‖ ((2+ε) ‖J‖ + ε Φ) + 1)`, bring it below the tolerance. -/
theorem C115 (c : Conf) (p : ℕ) (nJ nJi nz tol res : ℝ) (n : ℕ) (heps : 0 ≤ c.eps) (hphi : 0 ≤ c.phi)
    (hpsi : 0 ≤ c.psi) (hJ : 0 ≤ nJ) (hJi : 0 ≤ nJi) (hz : 0 ≤ nz) (ht : 0 < tol) (hr : 0 ≤ res) (hn : 0 < n) :
    (passA c p nJ nJi ↔ nJi * c.eps * (nJ + c.phi) * (10 : ℝ) ^ c.safety1 < 10 ^ p) ∧
    (passC c p nJi nz tol ↔ (nJi * c.psi + nz) * (10 : ℝ) ^ c.safety2 < tol * 10 ^ p) ∧
    (passB c p nJ nJi n tol res ↔
      res * ((10 : ℝ) ^ (c.safety1 - p) * (nJi * ((2 + c.eps) * nJ + c.eps * c.phi) + 1)) ^ n < tol) := by
  refine ⟨?_, ?_, ?_⟩
  · unfold passA rhsA
    have hx : 0 ≤ nJi * c.eps * (nJ + c.phi) := by positivity
    rcases hx.lt_or_eq with hx | hx
    · rw [lg_pos hx, ← EReal.coe_add, EReal.coe_lt_coe_iff]
      have := log_form c.safety1 _ 1 p hx one_pos
      rw [Real.logb_one, sub_zero, one_mul] at this
      exact this
    · rw [← hx, lg_zero, EReal.add_bot, zero_mul]
      simp only [EReal.bot_lt_coe, true_iff]
      positivity
  · unfold passC rhsC
    have hx : 0 ≤ nJi * c.psi + nz := by positivity
    rcases hx.lt_or_eq with hx | hx
    · rw [lg_pos hx, lg_pos ht, ← EReal.coe_neg, ← EReal.coe_add, ← EReal.coe_add, EReal.coe_lt_coe_iff]
      rw [← log_form c.safety2 _ tol p hx ht]
      constructor <;> intro h <;> linarith
    · rw [← hx, lg_zero, EReal.add_bot, zero_mul]
      simp only [EReal.bot_lt_coe, true_iff]
      positivity
  · unfold passB rhsB capD
    have hD : 0 < nJi * ((2 + c.eps) * nJ + c.eps * c.phi) + 1 := by positivity
    have hnr : (0 : ℝ) < n := by exact_mod_cast hn
    rw [lg_pos hD, lg_pos ht, ← EReal.coe_neg]
    rcases hr.lt_or_eq with hr | hr
    · rw [lg_pos hr, ← EReal.coe_add, ← EReal.coe_add, ← EReal.coe_div, ← EReal.coe_add, EReal.coe_lt_coe_iff]
      have h10 : (1 : ℝ) < 10 := by norm_num
      rw [← Real.logb_lt_logb_iff h10 (by positivity) ht]
      have e1 : Real.logb 10 ((10 : ℝ) ^ (c.safety1 - (p : ℤ))) = c.safety1 - p := by
        rw [← Real.rpow_intCast, Real.logb_rpow (by norm_num) (by norm_num)]
        push_cast
        ring
      rw [Real.logb_mul hr.ne' (by positivity), Real.logb_pow, Real.logb_mul (by positivity) hD.ne', e1]
      generalize Real.logb 10 (nJi * ((2 + c.eps) * nJ + c.eps * c.phi) + 1) = D
      generalize Real.logb 10 tol = t
      generalize Real.logb 10 res = r
      have : (c.safety1 : ℝ) + D + (-t + r) / n < p ↔ (-t + r) < (p - c.safety1 - D) * n := by
        rw [← div_lt_iff₀ hnr]
        constructor <;> intro h <;> linarith
      rw [this]
      constructor <;> intro h <;> linarith
    · rw [← hr, lg_zero, EReal.add_bot, zero_mul]
      have : (⊥ : EReal) / ((n : ℝ) : EReal) = ⊥ := EReal.bot_div_of_pos_ne_top (by exact_mod_cast hnr) (EReal.coe_ne_top _)
      rw [this, EReal.add_bot]
      simp only [EReal.bot_lt_coe, true_iff]
      exact ht

/-- **C115, consequence**: once a criterion is satisfied, it stays satisfied with more digits, and with a smaller estimate
of `‖J⁻¹‖`. -/
theorem C115_mono (c : Conf) (p q : ℕ) (nJ nJi nJi' nz tol res : ℝ) (n : ℕ) (heps : 0 ≤ c.eps) (hphi : 0 ≤ c.phi)
    (hpsi : 0 ≤ c.psi) (hJ : 0 ≤ nJ) (hJi' : 0 ≤ nJi') (hle : nJi' ≤ nJi) (hz : 0 ≤ nz) (ht : 0 < tol) (hr : 0 ≤ res)
    (hn : 0 < n) (hpq : p ≤ q) :
    (passA c p nJ nJi → passA c q nJ nJi') ∧ (passC c p nJi nz tol → passC c q nJi' nz tol) ∧
    (passB c p nJ nJi n tol res → passB c q nJ nJi' n tol res) := by
  have hJi : 0 ≤ nJi := hJi'.trans hle
  obtain ⟨a1, c1, b1⟩ := C115 c p nJ nJi nz tol res n heps hphi hpsi hJ hJi hz ht hr hn
  obtain ⟨a2, c2, b2⟩ := C115 c q nJ nJi' nz tol res n heps hphi hpsi hJ hJi' hz ht hr hn
  have hpow : (10 : ℝ) ^ p ≤ 10 ^ q := pow_le_pow_right₀ (by norm_num) hpq
  refine ⟨?_, ?_, ?_⟩
  · rw [a1, a2]
    intro h
    refine lt_of_le_of_lt ?_ (h.trans_le hpow)
    gcongr
  · rw [c1, c2]
    intro h
    refine lt_of_le_of_lt ?_ (h.trans_le (by gcongr))
    gcongr
  · rw [b1, b2]
    intro h
    refine lt_of_le_of_lt ?_ h
    have : (10 : ℝ) ^ (c.safety1 - (q : ℤ)) ≤ (10 : ℝ) ^ (c.safety1 - (p : ℤ)) :=
      zpow_le_zpow_right₀ (by norm_num) (by omega)
    gcongr

/-- Settings of a system in two variables of degree 2 with coefficients up to 10. -/
def conf2 : Conf := { eps := 4, phi := 20, psi := 20, safety1 := 1, safety2 := 1 }

/-- With `‖J‖ = ‖J⁻¹‖ = 10` criterion A holds in double precision, and fails with four digits. -/
example : passA conf2 16 10 10 ∧ ¬ passA conf2 4 10 10 := by
  have h := fun p => (C115 conf2 p 10 10 1 1 1 1 (by norm_num [conf2]) (by norm_num [conf2]) (by norm_num [conf2])
    (by norm_num) (by norm_num) (by norm_num) (by norm_num) (by norm_num) (by norm_num)).1
  rw [h, h]
  norm_num [conf2]

/-! ### C116 -/

/-- The factor by which, according to the criterion, every Newton iteration shrinks the residual. -/
noncomputable def shrink (c : Conf) (p : ℕ) (nJ nJi : ℝ) : ℝ :=
  (10 : ℝ) ^ (c.safety1 - p) * (nJi * ((2 + c.eps) * nJ + c.eps * c.phi) + 1)

/-- The setting of C116: norms do not change from iteration `ii` on, every step is shorter than the one before by the factor
`shrink`, which is at most 1, and criterion C is satisfied. -/
structure Contracting (c : Conf) (p minIts maxIts ii : ℕ) (tol nJ nJi : ℝ) (nz res : ℕ → ℝ) : Prop where
  heps : 0 ≤ c.eps
  hphi : 0 ≤ c.phi
  hpsi : 0 ≤ c.psi
  hnJ : 0 ≤ nJ
  hnJi : 0 ≤ nJi
  hnz : ∀ j, 0 ≤ nz j
  htol : 0 < tol
  hres : ∀ j, 0 ≤ res j
  le : minIts ≤ maxIts
  lt : ii < maxIts
  one : shrink c p nJ nJi ≤ 1
  contr : ∀ j, ii ≤ j → res (j + 1) ≤ shrink c p nJ nJi * res j
  critC : ∀ j, ii ≤ j → passC c p nJi (nz j) tol

/-- **C116, full statement**: if criterion B is satisfied after an iteration of the corrector, and the further iterations
shrink the residual by the factor the criterion assumes, the corrector converges. -/
def C116_full : Prop :=
  ∀ (c : Conf) (p minIts maxIts ii : ℕ) (tol nJ nJi : ℝ) (nz res : ℕ → ℝ),
    Contracting c p minIts maxIts ii tol nJ nJi nz res →
    passB c p nJ nJi (maxIts - ii) tol (res ii) →
    correct c p minIts maxIts tol (fun _ => nJ) (fun _ => nJi) nz res (maxIts - ii) ii = .success

theorem correct_contracting (c : Conf) (p minIts maxIts : ℕ) (tol nJ nJi : ℝ) (nz res : ℕ → ℝ) :
    ∀ k ii, ii + (k + 1) = maxIts → Contracting c p minIts maxIts ii tol nJ nJi nz res →
    res ii * shrink c p nJ nJi ^ k < tol →
    correct c p minIts maxIts tol (fun _ => nJ) (fun _ => nJi) nz res (k + 1) ii = .success := by
  intro k
  induction k with
  | zero =>
    intro ii hii h hlt
    rw [correct, if_pos]
    rw [pow_zero, mul_one] at hlt
    exact ⟨hlt, by have := h.le; omega⟩
  | succ k ih =>
    intro ii hii h hlt
    rw [correct]
    by_cases hs : res ii < tol ∧ minIts ≤ ii + 1
    · rw [if_pos hs]
    · have hk0 : 0 ≤ shrink c p nJ nJi := by
        unfold shrink
        have := h.heps; have := h.hphi; have := h.hnJ; have := h.hnJi
        positivity
      have hB : passB c p nJ nJi (maxIts - ii) tol (res ii) := by
        rw [(C115 c p nJ nJi 0 tol (res ii) (maxIts - ii) h.heps h.hphi h.hpsi h.hnJ h.hnJi le_rfl h.htol (h.hres ii)
          (by omega)).2.2]
        have hn : maxIts - ii = (k + 1) + 1 := by omega
        rw [hn]
        refine lt_of_le_of_lt ?_ hlt
        change res ii * shrink c p nJ nJi ^ (k + 1 + 1) ≤ _
        rw [pow_succ _ (k + 1), ← mul_assoc]
        exact mul_le_of_le_one_right (mul_nonneg (h.hres ii) (pow_nonneg hk0 _)) h.one
      rw [if_neg hs, if_neg (not_not.2 hB), if_neg (not_not.2 (h.critC ii le_rfl))]
      refine ih (ii + 1) (by omega) ?_ ?_
      · exact { h with
          lt := by omega
          contr := fun j hj => h.contr j (by omega)
          critC := fun j hj => h.critC j (by omega) }
      · refine lt_of_le_of_lt ?_ hlt
        rw [pow_succ' _ k, ← mul_assoc]
        refine mul_le_mul_of_nonneg_right ?_ (pow_nonneg hk0 _)
        rw [mul_comm]
        exact h.contr ii le_rfl

/-- **C116, partial**: it is true if criterion B is satisfied with the number of iterations that are in fact left, one
less than the corrector says.  Missing: the corrector counts the iteration it has just done among those remaining. -/
theorem C116_partial (c : Conf) (p minIts maxIts ii : ℕ) (tol nJ nJi : ℝ) (nz res : ℕ → ℝ)
    (h : Contracting c p minIts maxIts ii tol nJ nJi nz res) (hi : ii + 1 < maxIts)
    (hB : passB c p nJ nJi (maxIts - (ii + 1)) tol (res ii)) :
    correct c p minIts maxIts tol (fun _ => nJ) (fun _ => nJi) nz res (maxIts - ii) ii = .success := by
  have hk : maxIts - ii = (maxIts - (ii + 1)) + 1 := by omega
  rw [hk]
  refine correct_contracting c p minIts maxIts tol nJ nJi nz res _ ii (by omega) h ?_
  rw [(C115 c p nJ nJi 0 tol (res ii) (maxIts - (ii + 1)) h.heps h.hphi h.hpsi h.hnJ h.hnJi le_rfl h.htol (h.hres ii)
    (by omega)).2.2] at hB
  exact hB

/-- **C116 fails**: in the last iteration the test of criterion B decides nothing but the name of the failure: whatever the
data, a step that is not shorter than the tolerance ends without success. -/
theorem C116_refuted : ¬ C116_full ∧
    ∀ (c : Conf) (p minIts maxIts : ℕ) (tol : ℝ) (nJ nJi nz res : ℕ → ℝ), tol ≤ res (maxIts - 1) →
      correct c p minIts maxIts tol nJ nJi nz res 1 (maxIts - 1) ≠ .success := by
  have key : ∀ (c : Conf) (p minIts maxIts : ℕ) (tol : ℝ) (nJ nJi nz res : ℕ → ℝ), tol ≤ res (maxIts - 1) →
      correct c p minIts maxIts tol nJ nJi nz res 1 (maxIts - 1) ≠ .success := by
    intro c p minIts maxIts tol nJ nJi nz res h
    rw [correct, if_neg (fun hc => absurd hc.1 (not_lt.2 h)), correct]
    split_ifs <;> simp
  refine ⟨fun hf => ?_, key⟩
  have hs : shrink conf2 16 0 0 = 1 / 10 ^ 15 := by
    unfold shrink conf2
    norm_num [zpow_neg]
  have hC : Contracting conf2 16 1 2 1 (1 / 10 ^ 5) 0 0 (fun _ => 1) (fun j => (1 / 10 ^ 15) ^ (j - 1)) := by
    refine ⟨by norm_num [conf2], by norm_num [conf2], by norm_num [conf2], le_rfl, le_rfl, fun _ => zero_le_one,
      by norm_num, fun j => by positivity, by norm_num, by norm_num, ?_, ?_, ?_⟩
    · rw [hs]; norm_num
    · intro j hj
      rw [hs]
      have : j + 1 - 1 = (j - 1) + 1 := by omega
      rw [this, pow_succ']
    · intro j _
      rw [(C115 conf2 16 0 0 1 (1 / 10 ^ 5) 0 1 (by norm_num [conf2]) (by norm_num [conf2]) (by norm_num [conf2])
        le_rfl le_rfl zero_le_one (by norm_num) le_rfl one_pos).2.1]
      norm_num [conf2]
  have hB : passB conf2 16 0 0 (2 - 1) (1 / 10 ^ 5) ((1 / 10 ^ 15) ^ (1 - 1)) := by
    rw [(C115 conf2 16 0 0 1 (1 / 10 ^ 5) _ (2 - 1) (by norm_num [conf2]) (by norm_num [conf2]) (by norm_num [conf2])
      le_rfl le_rfl zero_le_one (by norm_num) (by norm_num) (by norm_num)).2.2]
    change _ * shrink conf2 16 0 0 ^ (2 - 1) < _
    rw [hs]
    norm_num
  exact key conf2 16 1 2 (1 / 10 ^ 5) (fun _ => 0) (fun _ => 0) (fun _ => 1) (fun j => (1 / 10 ^ 15) ^ (j - 1))
    (by norm_num) (hf conf2 16 1 2 1 _ 0 0 _ _ hC hB)

/-- A first step of length 1, two iterations, double precision: criterion B is satisfied for the one iteration left, and
the corrector converges. -/
example : correct conf2 16 1 2 (1 / 10 ^ 5) (fun _ => 0) (fun _ => 0) (fun _ => 1) (fun j => (1 / 10 ^ 15) ^ j) 2 0 =
    .success := by
  have hs : shrink conf2 16 0 0 = 1 / 10 ^ 15 := by
    unfold shrink conf2
    norm_num [zpow_neg]
  refine C116_partial conf2 16 1 2 0 (1 / 10 ^ 5) 0 0 (fun _ => 1) (fun j => (1 / 10 ^ 15) ^ j) ?_ (by norm_num) ?_
  · refine ⟨by norm_num [conf2], by norm_num [conf2], by norm_num [conf2], le_rfl, le_rfl, fun _ => zero_le_one,
      by norm_num, fun j => by positivity, by norm_num, by norm_num, ?_, ?_, ?_⟩
    · rw [hs]; norm_num
    · intro j hj
      rw [hs, pow_succ']
    · intro j _
      rw [(C115 conf2 16 0 0 1 (1 / 10 ^ 5) 0 1 (by norm_num [conf2]) (by norm_num [conf2]) (by norm_num [conf2])
        le_rfl le_rfl zero_le_one (by norm_num) le_rfl one_pos).2.1]
      norm_num [conf2]
  · rw [(C115 conf2 16 0 0 1 (1 / 10 ^ 5) _ (2 - 1) (by norm_num [conf2]) (by norm_num [conf2]) (by norm_num [conf2])
      le_rfl le_rfl zero_le_one (by norm_num) (by norm_num) (by norm_num)).2.2]
    change _ * shrink conf2 16 0 0 ^ (2 - 1) < _
    rw [hs]
    norm_num

/-! ### C117 -/

theorem digitsOf_spec (r : EReal) (hr : r ≠ ⊤) (p : ℕ) : r < ((p : ℝ) : EReal) ↔ r < 0 ∨ digitsOf r < p := by
  induction r with
  | bot => exact ⟨fun _ => .inl EReal.bot_lt_zero, fun _ => EReal.bot_lt_coe _⟩
  | top => exact absurd rfl hr
  | coe x =>
    have e0 : ((0 : ℝ) : EReal) = 0 := rfl
    rw [EReal.coe_lt_coe_iff, ← e0, EReal.coe_lt_coe_iff]
    unfold digitsOf
    rcases lt_or_ge x 0 with h | h
    · simp only [h, true_or, iff_true]
      exact h.trans_le (Nat.cast_nonneg p)
    · have : max (x : EReal) 0 = (x : EReal) := max_eq_left (by exact_mod_cast h)
      rw [this, EReal.toReal_coe, Nat.floor_lt h]
      constructor
      · exact .inr
      · rintro (h1 | h1)
        · exact absurd h1 (not_lt.2 h)
        · exact h1

theorem rhsB_ne_top (c : Conf) (nJ nJi tol a : ℝ) (n : ℕ) (ht : 0 < tol) (ha : 0 ≤ a) (hn : 0 < n)
    (heps : 0 ≤ c.eps) (hphi : 0 ≤ c.phi) (hJ : 0 ≤ nJ) (hJi : 0 ≤ nJi) : rhsB c nJ nJi n tol a ≠ ⊤ := by
  unfold rhsB capD
  have hD : 0 < nJi * ((2 + c.eps) * nJ + c.eps * c.phi) + 1 := by positivity
  rw [lg_pos hD, lg_pos ht, ← EReal.coe_neg]
  rcases ha.lt_or_eq with ha | ha
  · rw [lg_pos ha, ← EReal.coe_add, ← EReal.coe_add, ← EReal.coe_div, ← EReal.coe_add]
    exact EReal.coe_ne_top _
  · rw [← ha, lg_zero, EReal.add_bot, EReal.bot_div_of_pos_ne_top (by exact_mod_cast hn) (EReal.coe_ne_top _), EReal.add_bot]
    exact bot_ne_top

theorem rhsC_ne_top (c : Conf) (nJi nz tol : ℝ) (ht : 0 < tol) (hpsi : 0 ≤ c.psi) (hJi : 0 ≤ nJi) (hz : 0 ≤ nz) :
    rhsC c nJi nz tol ≠ ⊤ := by
  unfold rhsC
  have hx : 0 ≤ nJi * c.psi + nz := by positivity
  rw [lg_pos ht, ← EReal.coe_neg, ← EReal.coe_add]
  rcases hx.lt_or_eq with hx | hx
  · rw [lg_pos hx, ← EReal.coe_add]
    exact EReal.coe_ne_top _
  · rw [← hx, lg_zero, EReal.add_bot]
    exact bot_ne_top

/-- The state the digits are computed from. -/
structure Sound (c : Conf) (nJ nJi nz tol a : ℝ) (maxIts : ℕ) : Prop where
  heps : 0 ≤ c.eps
  hphi : 0 ≤ c.phi
  hpsi : 0 ≤ c.psi
  hnJ : 0 ≤ nJ
  hnJi : 0 ≤ nJi
  hnz : 0 ≤ nz
  htol : 0 < tol
  ha : 0 ≤ a
  hits : 0 < maxIts

/-- **C117, full statement**: the smallest precision the tracker considers sufficient satisfies criteria B and C. -/
def C117_full : Prop :=
  ∀ (c : Conf) (nJ nJi nz tol a : ℝ) (maxIts digitsTol : ℕ), Sound c nJ nJi nz tol a maxIts →
    passB c (minRequired c nJ nJi nz maxIts digitsTol tol a) nJ nJi maxIts tol a ∧
    passC c (minRequired c nJ nJi nz maxIts digitsTol tol a) nJi nz tol

/-- **C117, partial**: every larger precision satisfies both criteria, and the smallest precision is at most one more than
any precision of at least 17 digits and the digits of the tolerance that does; no precision below the digits of a criterion
satisfies it.  Missing: the smallest precision itself, where the digits are the truncated right hand side but the
criterion is a strict inequality. -/
theorem C117_partial (c : Conf) (nJ nJi nz tol a : ℝ) (maxIts digitsTol : ℕ) (h : Sound c nJ nJi nz tol a maxIts)
    (p : ℕ) :
    (minRequired c nJ nJi nz maxIts digitsTol tol a < p → passB c p nJ nJi maxIts tol a ∧ passC c p nJi nz tol) ∧
    (p < digitsB c nJ nJi maxIts tol a → ¬ passB c p nJ nJi maxIts tol a) ∧
    (p < digitsC c nJi nz tol → ¬ passC c p nJi nz tol) ∧
    digitsTol ≤ minRequired c nJ nJi nz maxIts digitsTol tol a ∧ 16 ≤ minRequired c nJ nJi nz maxIts digitsTol tol a ∧
    (digitsTol < p → 16 < p → passB c (p - 1) nJ nJi maxIts tol a → passC c (p - 1) nJi nz tol →
      minRequired c nJ nJi nz maxIts digitsTol tol a < p) := by
  have hB := digitsOf_spec _ (rhsB_ne_top c nJ nJi tol a maxIts h.htol h.ha h.hits h.heps h.hphi h.hnJ h.hnJi) p
  have hC := digitsOf_spec _ (rhsC_ne_top c nJi nz tol h.htol h.hpsi h.hnJi h.hnz) p
  have neg : ∀ r : EReal, r < 0 → digitsOf r = 0 := by
    intro r hr
    unfold digitsOf
    rw [max_eq_right hr.le]
    simp
  unfold passB passC
  have hB' := digitsOf_spec _ (rhsB_ne_top c nJ nJi tol a maxIts h.htol h.ha h.hits h.heps h.hphi h.hnJ h.hnJi) (p - 1)
  have hC' := digitsOf_spec _ (rhsC_ne_top c nJi nz tol h.htol h.hpsi h.hnJi h.hnz) (p - 1)
  rw [hB, hC, hB', hC']
  refine ⟨?_, ?_, ?_, by unfold minRequired; omega, by unfold minRequired; omega, ?_⟩
  rotate_left 3
  · intro h1 h2 h3 h4
    unfold minRequired digitsB digitsC
    have a1 : digitsOf (rhsB c nJ nJi maxIts tol a) < p := by
      rcases h3 with h3 | h3
      · rw [neg _ h3]; omega
      · omega
    have a2 : digitsOf (rhsC c nJi nz tol) < p := by
      rcases h4 with h4 | h4
      · rw [neg _ h4]; omega
      · omega
    omega
  · intro hp
    unfold minRequired at hp
    exact ⟨.inr (lt_of_le_of_lt (by simp [digitsB]) hp), .inr (lt_of_le_of_lt (by simp [digitsC]) hp)⟩
  · intro hp hc
    rcases hc with h1 | h1
    · unfold digitsB at hp
      rw [neg _ h1] at hp
      omega
    · unfold digitsB at hp
      omega
  · intro hp hc
    rcases hc with h1 | h1
    · unfold digitsC at hp
      rw [neg _ h1] at hp
      omega
    · unfold digitsC at hp
      omega

/-- A state in which both criteria ask for exactly 20 digits. -/
theorem twenty : Sound conf2 0 0 1 (1 / 10 ^ 19) 1 1 ∧ rhsB conf2 0 0 1 (1 / 10 ^ 19) 1 = ((20 : ℝ) : EReal) ∧
    digitsB conf2 0 0 1 (1 / 10 ^ 19) 1 = 20 ∧ minRequired conf2 0 0 1 1 0 (1 / 10 ^ 19) 1 = 20 := by
  have hS : Sound conf2 0 0 1 (1 / 10 ^ 19) 1 1 :=
    ⟨by norm_num [conf2], by norm_num [conf2], by norm_num [conf2], le_rfl, le_rfl, zero_le_one, by norm_num,
      zero_le_one, one_pos⟩
  have hlt : Real.logb 10 (1 / 10 ^ 19) = -19 := by
    rw [one_div, Real.logb_inv, ← Real.rpow_natCast, Real.logb_rpow (by norm_num) (by norm_num)]
    norm_num
  have hB : rhsB conf2 0 0 1 (1 / 10 ^ 19) 1 = ((20 : ℝ) : EReal) := by
    unfold rhsB capD
    have : (0 : ℝ) * ((2 + conf2.eps) * 0 + conf2.eps * conf2.phi) + 1 = 1 := by ring
    rw [this, lg_pos (by norm_num : (0 : ℝ) < 1), lg_pos (by norm_num : (0 : ℝ) < 1 / 10 ^ 19), hlt, Real.logb_one,
      ← EReal.coe_neg, ← EReal.coe_add, ← EReal.coe_add, ← EReal.coe_div, ← EReal.coe_add]
    norm_num [conf2]
  have hCr : rhsC conf2 0 1 (1 / 10 ^ 19) = ((20 : ℝ) : EReal) := by
    unfold rhsC
    have : (0 : ℝ) * conf2.psi + 1 = 1 := by ring
    rw [this, lg_pos (by norm_num : (0 : ℝ) < 1), lg_pos (by norm_num : (0 : ℝ) < 1 / 10 ^ 19), hlt, Real.logb_one,
      ← EReal.coe_neg, ← EReal.coe_add, ← EReal.coe_add]
    norm_num [conf2]
  have d20 : digitsOf ((20 : ℝ) : EReal) = 20 := by
    unfold digitsOf
    have : max ((20 : ℝ) : EReal) 0 = ((20 : ℝ) : EReal) := max_eq_left (by exact_mod_cast (by norm_num : (0 : ℝ) ≤ 20))
    rw [this, EReal.toReal_coe]
    norm_num
  refine ⟨hS, hB, by unfold digitsB; rw [hB, d20], ?_⟩
  unfold minRequired digitsB digitsC
  rw [hB, hCr, d20]
  norm_num

/-- **C117 fails**: whenever criterion B determines the smallest precision and its right hand side is not negative, the
smallest precision violates criterion B. -/
theorem C117_refuted : ¬ C117_full ∧
    ∀ (c : Conf) (nJ nJi nz tol a : ℝ) (maxIts digitsTol : ℕ), Sound c nJ nJi nz tol a maxIts →
      0 ≤ rhsB c nJ nJi maxIts tol a →
      minRequired c nJ nJi nz maxIts digitsTol tol a = digitsB c nJ nJi maxIts tol a →
      ¬ passB c (minRequired c nJ nJi nz maxIts digitsTol tol a) nJ nJi maxIts tol a := by
  have key : ∀ (c : Conf) (nJ nJi nz tol a : ℝ) (maxIts digitsTol : ℕ), Sound c nJ nJi nz tol a maxIts →
      0 ≤ rhsB c nJ nJi maxIts tol a →
      minRequired c nJ nJi nz maxIts digitsTol tol a = digitsB c nJ nJi maxIts tol a →
      ¬ passB c (minRequired c nJ nJi nz maxIts digitsTol tol a) nJ nJi maxIts tol a := by
    intro c nJ nJi nz tol a maxIts digitsTol h h0 he
    unfold passB
    rw [digitsOf_spec _ (rhsB_ne_top c nJ nJi tol a maxIts h.htol h.ha h.hits h.heps h.hphi h.hnJ h.hnJi), he]
    rintro (h1 | h1)
    · exact absurd h1 (not_lt.2 h0)
    · unfold digitsB at h1; omega
  refine ⟨fun hf => ?_, key⟩
  obtain ⟨hS, hB, hd, hm⟩ := twenty
  refine key conf2 0 0 1 (1 / 10 ^ 19) 1 1 0 hS ?_ (hm.trans hd.symm) (hf conf2 0 0 1 (1 / 10 ^ 19) 1 1 0 hS).1
  rw [hB]
  exact_mod_cast (by norm_num : (0 : ℝ) ≤ 20)

/-- The same state: 21 digits satisfy both criteria. -/
example : passB conf2 21 0 0 1 (1 / 10 ^ 19) 1 ∧ passC conf2 21 0 1 (1 / 10 ^ 19) := by
  obtain ⟨hS, -, -, hm⟩ := twenty
  exact (C117_partial conf2 0 0 1 (1 / 10 ^ 19) 1 1 0 hS 21).1 (by rw [hm]; norm_num)

end B2.Track.Crit
