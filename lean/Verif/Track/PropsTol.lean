import Verif.Track.Tol
import Verif.Track.PropsCost
import Mathlib.Tactic.IntervalCases

/-!
# C172: the tolerances of a tracker
-/

namespace B2.Track.Tol

/-- The digits are enough for the tolerance, and no smaller number is. -/
def Digits (t : ℝ) (d : ℕ) : Prop := (1 / 10 : ℝ) ^ d ≤ t ∧ ∀ k < d, t < (1 / 10 : ℝ) ^ k

/-- The values in a tracker make sense. -/
structure Sound (order : ℕ → ℕ) (s : St) : Prop where
  order : s.order = order s.predictor
  tol : 0 < s.tol
  digits : ∃ d, s.digits = some d ∧ Digits s.tol d
  trunc : 0 < s.trunc

/-- C172 in full: whatever setters are called, the tolerance and the truncation threshold are positive, the number of digits is the
least one that the tolerance needs, and calls that throw change nothing. -/
def C172_full : Prop :=
  ∀ (order : ℕ → ℕ) (m : ℕ) (ops : List Op), Sound order (runOps order (St.new order m) ops) ∧
    ∀ o : Op, (o.run order (runOps order (St.new order m) ops)).1 = true →
      (o.run order (runOps order (St.new order m) ops)).2 = runOps order (St.new order m) ops

/-! ### Lemmas -/

theorem pow_le_iff {t : ℝ} (ht : 0 < t) (k : ℕ) : (1 / 10 : ℝ) ^ k ≤ t ↔ -Real.logb 10 t ≤ k := by
  rw [← Real.logb_le_logb (b := 10) (by norm_num) (by positivity) ht, Real.logb_pow, one_div, Real.logb_inv,
    Real.logb_self_eq_one (by norm_num)]
  constructor <;> intro h <;> linarith

theorem digits_iff {t : ℝ} (ht : 0 < t) (d : ℕ) : Digits t d ↔ ⌈-Real.logb 10 t⌉ = d ∨ d = 0 ∧ ⌈-Real.logb 10 t⌉ < 0 := by
  unfold Digits
  rw [pow_le_iff ht]
  have h1 : (∀ k < d, t < (1 / 10 : ℝ) ^ k) ↔ ∀ k < d, (k : ℝ) < -Real.logb 10 t := by
    refine forall₂_congr fun k _ => ?_
    rw [← not_le, pow_le_iff ht, not_le]
  rw [h1]
  have e1 : -Real.logb 10 t ≤ d ↔ ⌈-Real.logb 10 t⌉ ≤ d := by
    rw [Int.ceil_le]; simp
  have e2 : ∀ k : ℕ, (k : ℝ) < -Real.logb 10 t ↔ (k : ℤ) < ⌈-Real.logb 10 t⌉ := by
    intro k; rw [Int.lt_ceil]; simp
  rw [e1]
  simp only [e2]
  constructor
  · rintro ⟨a, b⟩
    by_cases hd : d = 0
    · omega
    · have := b (d - 1) (by omega)
      omega
  · rintro (h | ⟨rfl, h⟩)
    · exact ⟨by omega, fun k hk => by omega⟩
    · exact ⟨by omega, fun k hk => by omega⟩

theorem ten_le {t : ℝ} (ht : 0 < t) : ⌈-Real.logb 10 t⌉ < 0 ↔ 10 ≤ t := by
  have h1 : Real.logb 10 10 = 1 := Real.logb_self_eq_one (by norm_num)
  rw [← Real.logb_le_logb (b := 10) (by norm_num) (by norm_num) ht, h1, ← Int.le_sub_one_iff, Int.ceil_le]
  push_cast
  constructor <;> intro h <;> linarith

/-- **C172 (digits).** For a positive tolerance below ten the number of digits is the least that the tolerance needs; from ten on it is
undefined. -/
theorem C172_digits (t : ℝ) (ht : 0 < t) :
    (t < 10 → ∃ d, tolToDigits t = some d ∧ Digits t d) ∧ (10 ≤ t → tolToDigits t = none) := by
  constructor
  · intro h
    have h0 : ¬ ⌈-Real.logb 10 t⌉ < 0 := by rw [ten_le ht]; exact not_le.2 h
    refine ⟨_, by rw [tolToDigits, if_neg h0], (digits_iff ht _).2 (Or.inl ?_)⟩
    omega
  · intro h
    rw [tolToDigits, if_pos ((ten_le ht).2 h)]

theorem new_sound (order : ℕ → ℕ) (m : ℕ) : Sound order (St.new order m) := by
  refine ⟨rfl, by norm_num [St.new], ⟨5, rfl, by norm_num [St.new], fun k hk => ?_⟩, by norm_num [St.new]⟩
  simp only [St.new]
  interval_cases k <;> norm_num

/-- Calls with tolerances below ten, and positive truncation thresholds in `Setup`. -/
def Mild : Op → Prop
  | .tol t => t < 10
  | .setup _ t q => t < 10 ∧ 0 < q
  | _ => True

theorem setTol_sound {order : ℕ → ℕ} {s : St} (h : Sound order s) {t : ℝ} (ht : t < 10) : Sound order (setTol t s).2 := by
  unfold setTol
  by_cases h0 : t ≤ 0
  · rw [if_pos h0]; exact h
  · rw [if_neg h0]
    exact ⟨h.order, not_le.1 h0, (C172_digits t (not_le.1 h0)).1 ht, h.trunc⟩

theorem setPredictor_sound {order : ℕ → ℕ} {s : St} (h : Sound order s) (m : ℕ) : Sound order (setPredictor order m s) :=
  ⟨rfl, h.tol, h.digits, h.trunc⟩

theorem run_sound {order : ℕ → ℕ} {s : St} (h : Sound order s) {o : Op} (ho : Mild o) : Sound order (o.run order s).2 := by
  cases o with
  | predictor m => exact setPredictor_sound h m
  | tol t => exact setTol_sound h ho
  | trunc t =>
    simp only [Op.run, setTrunc]
    by_cases h0 : t ≤ 0
    · rw [if_pos h0]; exact h
    · rw [if_neg h0]
      exact ⟨h.order, h.tol, h.digits, not_le.1 h0⟩
  | setup m t q =>
    have h1 := setTol_sound (setPredictor_sound h m) ho.1
    simp only [Op.run, setup]
    rcases hc : setTol t (setPredictor order m s) with ⟨b, s'⟩
    rw [hc] at h1
    cases b
    · exact ⟨h1.order, h1.tol, h1.digits, ho.2⟩
    · exact h1

/-- **C172, the part that holds**: for tolerances below ten and positive thresholds in `Setup`; a call is refused exactly if its
tolerance, or the threshold given to its own setter, is not positive, and a refused call changes nothing but, for `Setup`, the
predictor.  Missing: the other tolerances and thresholds, see below. -/
theorem C172_partial (order : ℕ → ℕ) (m : ℕ) (ops : List Op) (hm : ∀ o ∈ ops, Mild o) :
    Sound order (runOps order (St.new order m) ops) ∧
    ∀ (o : Op) (s : St),
      ((o.run order s).1 = true ↔ (∃ t ≤ 0, o = .tol t ∨ o = .trunc t ∨ ∃ m q, o = .setup m t q)) ∧
      ((o.run order s).1 = true → (o.run order s).2.tol = s.tol ∧ (o.run order s).2.digits = s.digits ∧
        (o.run order s).2.trunc = s.trunc ∧ ((∀ m t q, o ≠ .setup m t q) → (o.run order s).2 = s)) ∧
      ((o.run order s).1 = false → ∀ t, (o = .tol t ∨ ∃ m q, o = .setup m t q) → (o.run order s).2.tol = t) ∧
      ((o.run order s).1 = false → ∀ q, (o = .trunc q ∨ ∃ m t, o = .setup m t q) → (o.run order s).2.trunc = q) := by
  constructor
  · have key : ∀ (ops : List Op) (s : St), Sound order s → (∀ o ∈ ops, Mild o) → Sound order (runOps order s ops) := by
      intro ops
      induction ops with
      | nil => exact fun s h _ => h
      | cons o os ih =>
        intro s h hm
        exact ih _ (run_sound h (hm o List.mem_cons_self)) fun o h => hm o (List.mem_cons_of_mem _ h)
    exact key ops _ (new_sound order m) hm
  · intro o s
    cases o with
    | predictor m => simp [Op.run]
    | tol t =>
      simp only [Op.run, setTol]
      by_cases h0 : t ≤ 0
      · simp [h0]
      · simp [h0]
    | trunc t =>
      simp only [Op.run, setTrunc]
      by_cases h0 : t ≤ 0
      · simp [h0]
      · simp [h0]
    | setup m t q =>
      simp only [Op.run, setup, setTol]
      by_cases h0 : t ≤ 0
      · simp [h0, setPredictor]
      · simp [h0]

/-- **C172 fails**: `Setup` takes a negative truncation threshold (which its setter refuses), changes the predictor although it throws,
and tolerances from ten on have no defined number of digits. -/
theorem C172_refuted : ¬ C172_full ∧
    (∀ (order : ℕ → ℕ) (s : St) (m : ℕ), ∃ q < 0, ((Op.setup m 1 q).run order s).1 = false ∧
      ((Op.setup m 1 q).run order s).2.trunc = q ∧ ((Op.trunc q).run order s).1 = true) ∧
    (∀ (order : ℕ → ℕ) (s : St) (m : ℕ), ((Op.setup m 0 1).run order s).1 = true ∧ ((Op.setup m 0 1).run order s).2.predictor = m) ∧
    (∀ (order : ℕ → ℕ) (s : St) (t : ℝ), 10 ≤ t → ((Op.tol t).run order s).1 = false ∧ ((Op.tol t).run order s).2.digits = none) := by
  have h1 : ∀ (order : ℕ → ℕ) (s : St) (m : ℕ), ∃ q < 0, ((Op.setup m 1 q).run order s).1 = false ∧
      ((Op.setup m 1 q).run order s).2.trunc = q ∧ ((Op.trunc q).run order s).1 = true := fun order s m =>
    ⟨-1, by norm_num, by rw [Op.run, setup, setTol, if_neg (by norm_num)], by rw [Op.run, setup, setTol, if_neg (by norm_num)],
      by simp [Op.run, setTrunc]⟩
  refine ⟨fun H => ?_, h1, fun order s m => ?_, fun order s t ht => ?_⟩
  · obtain ⟨q, hq, -, e, -⟩ := h1 (fun _ => 1) (St.new (fun _ => 1) 0) 0
    have := (H (fun _ => 1) 0 [.setup 0 1 q]).1.trunc
    simp only [runOps] at this
    rw [e] at this
    linarith
  · simp [Op.run, setup, setTol, setPredictor]
  · have h0 : ¬ t ≤ 0 := by linarith
    simp only [Op.run, setTol, if_neg h0]
    exact ⟨trivial, (C172_digits t (by linarith)).2 ht⟩

/-- **C172 (precision).** An adaptive track that starts (with precision preserved) has a start point with enough digits for the
tolerance; and after each accepted step the precision plus nine digits is enough, or, when the tolerance needs at most sixteen digits,
the precision itself: with `p` digits, `10 ^ (-p) ≤ tol`. -/
theorem C172_precision {X : Type} [Add X] (order : ℕ → ℕ) (s : St) (hs : Sound order s) :
    (∀ p, startOk s p ↔ (1 / 10 : ℝ) ^ p ≤ s.tol) ∧
    ∀ (cfg : Cfg) (ac : AmpCfg) (env : Env X) (i : ℕ) (st : B2.Track.St X), s.digits = some ac.digitsTol →
      demanded ac env i ≤ 1000 →
      (1 / 10 : ℝ) ^ ((adjustSuccess cfg ac env i st).prec + 9) ≤ s.tol ∧
      (ac.digitsTol ≤ 16 → (1 / 10 : ℝ) ^ (adjustSuccess cfg ac env i st).prec ≤ s.tol) := by
  constructor
  · intro p
    rw [startOk, pow_le_iff hs.tol]
  · intro cfg ac env i st hd hle
    obtain ⟨d, e, hdd, -⟩ := hs.digits
    rw [hd, Option.some.injEq] at e
    subst e
    obtain ⟨h, -, -, h16⟩ := C94_partial cfg ac env i st hle
    have hmono : ∀ k, ac.digitsTol ≤ k → (1 / 10 : ℝ) ^ k ≤ s.tol := fun k hk =>
      (pow_le_pow_of_le_one (by norm_num) (by norm_num) hk).trans hdd
    have hdem : ac.digitsTol ≤ demanded ac env i := by unfold demanded; omega
    exact ⟨hmono _ (by omega), fun h1 => hmono _ (by omega)⟩

/-! ### Cases -/

example : tolToDigits (1 / 10 ^ 7) = some 7 := by
  obtain ⟨d, h1, h2⟩ := (C172_digits (1 / 10 ^ 7) (by norm_num)).1 (by norm_num)
  rw [h1]
  congr 1
  rw [digits_iff (by norm_num)] at h2
  have : Real.logb 10 (1 / 10 ^ 7) = -7 := by
    rw [one_div, Real.logb_inv, Real.logb_pow, Real.logb_self_eq_one (by norm_num)]; norm_num
  rw [this] at h2
  simp at h2
  omega

example : Sound (fun _ => 4) (runOps (fun _ => 4) (St.new (fun _ => 4) 0) [.tol (1 / 3), .trunc (-1), .setup 2 (-1) 1, .setup 3 5 7]) :=
  (C172_partial (fun _ => 4) 0 _ (by simp [Mild]; norm_num)).1

end B2.Track.Tol
