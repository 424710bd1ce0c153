/-
C150: on paths that are fractional power series in `t`, followed exactly, the power-series endgame finds the limit.
-/
import Verif.Endgame.ConvergeProof
import Verif.Endgame.PropsPS

set_option linter.unusedSimpArgs false
set_option linter.unusedSectionVars false

namespace B2.Endgame
open B2.Track (Code)

variable {ι : Type} [Fintype ι]

/-- The calls made by the endgame are exact on the path `y` over `(0,R)`: tracking and refinement succeed and stay on the
path, the derivatives are those of the path, the extrapolation is `approxAtT0` (whatever cycle number was stored before), and
differences are measured in the infinity norm. -/
structure ExactEg (E : EgEnv (ι → ℂ)) (ccfg : CycCfg) (rand : ι → ℂ) (y d : ℝ → ι → ℂ) (R : ℝ) : Prop where
  track : ∀ k (t t' : ℝ), 0 < t' → t' ≤ t → t < R → E.track k t t' (y t) = (.success, y t')
  refine : ∀ k (t : ℝ), 0 < t → t < R → E.refine k (y t) t = (.success, y t)
  approx : ∀ k (rs : List ℝ), (∀ t ∈ rs, 0 < t ∧ t < R) → ∃ old, ∀ a,
    approxAtT0 ccfg rand 0 (rs.map fun t : ℝ => (t : ℂ)) (rs.map y) (rs.map d) old = some a →
      E.approx k (rs.map fun t : ℝ => (t : ℂ)) (rs.map y) = a
  dist : ∀ a b, E.dist a b = some ‖a - b‖

/-- The containers hold the window of `len` samples starting at `τ`. -/
def OnWin (f : ℝ) (y : ℝ → ι → ℂ) (τ : ℝ) (len : ℕ) (s : PSt (ι → ℂ)) : Prop :=
  s.times = (win f τ len).map (fun t : ℝ => (t : ℂ)) ∧ s.samples = (win f τ len).map y

theorem win_succ (f τ : ℝ) (len : ℕ) : win f τ (len + 1) = win f τ len ++ [τ * f ^ len] := by
  unfold win; rw [List.range_succ]; simp

theorem win_tail (f τ : ℝ) (len : ℕ) : (win f τ (len + 1)).tail = win f (τ * f) len := by
  unfold win
  rw [List.range_succ_eq_map]
  simp only [List.map_cons, List.tail_cons, List.map_map]
  refine List.map_congr_left fun i _ => ?_
  simp only [Function.comp_apply, Nat.succ_eq_add_one, pow_succ]
  ring

theorem next_real (f t : ℝ) : nextTimePS f 0 (t : ℂ) = ((t * f : ℝ) : ℂ) := by
  unfold nextTimePS; push_cast; ring

section
variable {E : EgEnv (ι → ℂ)} {ccfg : CycCfg} {rand : ι → ℂ} {y d : ℝ → ι → ℂ} {R : ℝ}

theorem refineAll_exact (hE : ExactEg E ccfg rand y d R) : ∀ (rs : List ℝ), (∀ t ∈ rs, 0 < t ∧ t < R) → ∀ k,
    (refineAll E k (rs.map fun t : ℝ => (t : ℂ)) (rs.map y)).2 = rs.map y
  | [], _, k => rfl
  | t :: rs, h, k => by
    have h1 := h t (by simp)
    rw [List.map_cons, List.map_cons, refineAll, hE.refine k t h1.1 h1.2, if_pos rfl]
    exact congrArg (y t :: ·) (refineAll_exact hE rs (fun t ht => h t (by simp [ht])) (k + 1))

theorem initialLoop_exact (hE : ExactEg E ccfg rand y d R) (cfg : EgCfg) (hf0 : 0 < cfg.factor) (hf1 : cfg.factor < 1)
    {τ : ℝ} (hτ : 0 < τ) (hτR : τ < R) : ∀ rem m k, ∃ k',
    initialLoop E cfg 0 rem k ((win cfg.factor τ (m + 1)).map fun t : ℝ => (t : ℂ)) ((win cfg.factor τ (m + 1)).map y)
      ((τ * cfg.factor ^ m : ℝ) : ℂ) (y (τ * cfg.factor ^ m)) =
      (.success, (win cfg.factor τ (m + 1 + rem)).map (fun t : ℝ => (t : ℂ)), (win cfg.factor τ (m + 1 + rem)).map y, k')
  | 0, m, k => ⟨k, rfl⟩
  | rem + 1, m, k => by
    obtain ⟨k', ih⟩ := initialLoop_exact hE cfg hf0 hf1 hτ hτR rem (m + 1) (k + 1)
    have h0 : 0 < τ * cfg.factor ^ m := by positivity
    have h1 : τ * cfg.factor ^ m ≤ τ := mul_le_of_le_one_right hτ.le (pow_le_one₀ hf0.le hf1.le)
    have h2 := hE.track k (τ * cfg.factor ^ m) (τ * cfg.factor ^ m * cfg.factor) (by positivity) (by nlinarith) (by linarith)
    have e : τ * cfg.factor ^ m * cfg.factor = τ * cfg.factor ^ (m + 1) := by ring
    refine ⟨k', ?_⟩
    rw [initialLoop]
    simp only [next_real]
    rw [h2, if_pos rfl, e]
    rw [win_succ cfg.factor τ (m + 1), List.map_append, List.map_append] at ih
    rw [show m + 1 + (rem + 1) = m + 1 + 1 + rem by omega]
    exact ih

theorem initPS_exact (hE : ExactEg E ccfg rand y d R) (cfg : EgCfg) (hn : 0 < cfg.n) (hf0 : 0 < cfg.factor)
    (hf1 : cfg.factor < 1) {τ : ℝ} (hτ : 0 < τ) (hτR : τ < R) :
    ∃ s k, initPS E cfg τ 0 (y τ) = .more s ∧ OnWin cfg.factor y τ cfg.n s ∧ s.err = some 1 ∧
      s.latest = E.approx k s.times s.samples ∧ s.prev = s.latest ∧
      (cfg.level ≤ 0 → s.normPrev = some (E.dehomNorm s.prev)) := by
  obtain ⟨k', h⟩ := initialLoop_exact hE cfg hf0 hf1 hτ hτR (cfg.n - 1) 0 0
  have e : initialSamples E cfg τ 0 (y τ) 0 = (.success, (win cfg.factor τ cfg.n).map (fun t : ℝ => (t : ℂ)),
      (win cfg.factor τ cfg.n).map y, k') := by
    unfold initialSamples
    rw [show 0 + 1 + (cfg.n - 1) = cfg.n by omega] at h
    rw [← h]
    simp [win]
  unfold initPS
  rw [e]
  dsimp only
  rw [if_neg (by simp)]
  have hr := refineAll_exact hE (win cfg.factor τ cfg.n) (fun t ht => ⟨(win_mem hf0 hf1 hτ ht).1,
    lt_of_le_of_lt (win_mem hf0 hf1 hτ ht).2 hτR⟩) k'
  exact ⟨_, _, rfl, ⟨rfl, hr⟩, rfl, rfl, rfl, fun hl => if_pos hl⟩

theorem advancePS_exact (hE : ExactEg E ccfg rand y d R) (cfg : EgCfg) (hn : 0 < cfg.n) (hf0 : 0 < cfg.factor)
    (hf1 : cfg.factor < 1) {τ : ℝ} (hτ : 0 < τ) (hτR : τ < R) {len : ℕ} (hl : cfg.n ≤ len) (hl' : len ≤ cfg.n + 1)
    (hmt : cfg.minTrack ≤ τ * cfg.factor ^ len) (s : PSt (ι → ℂ)) (hs : OnWin cfg.factor y τ len s) :
    ∃ s', advancePS E cfg 0 s = some (.success, s') ∧
      OnWin cfg.factor y (if len = cfg.n then τ else τ * cfg.factor) (cfg.n + 1) s' ∧ s'.prev = s.prev ∧
      s'.normPrev = s.normPrev := by
  obtain ⟨m, rfl⟩ : ∃ m, len = m + 1 := ⟨len - 1, by omega⟩
  obtain ⟨hs1, hs2⟩ := hs
  have h0 : 0 < τ * cfg.factor ^ m := by positivity
  have h1 : τ * cfg.factor ^ m ≤ τ := mul_le_of_le_one_right hτ.le (pow_le_one₀ hf0.le hf1.le)
  have e : τ * cfg.factor ^ m * cfg.factor = τ * cfg.factor ^ (m + 1) := by ring
  have h3 : 0 < τ * cfg.factor ^ (m + 1) := by positivity
  have h4 : τ * cfg.factor ^ (m + 1) ≤ τ * cfg.factor ^ m := by rw [← e]; nlinarith
  unfold advancePS
  rw [hs1, hs2]
  have g1 : ((win cfg.factor τ (m + 1)).map fun t : ℝ => (t : ℂ)).getLast? = some ((τ * cfg.factor ^ m : ℝ) : ℂ) := by
    rw [win_succ]; simp
  have g2 : ((win cfg.factor τ (m + 1)).map y).getLast? = some (y (τ * cfg.factor ^ m)) := by
    rw [win_succ]; simp
  rw [g1, g2]
  dsimp only
  rw [next_real, e, sub_zero, Complex.norm_real, Real.norm_of_nonneg h3.le, if_neg (not_lt.mpr hmt),
    hE.track _ _ _ h3 h4 (by linarith), if_neg (by simp), hE.refine _ _ h3 (by linarith), if_neg (by simp)]
  have e1 : (win cfg.factor τ (m + 1)).map (fun t : ℝ => (t : ℂ)) ++ [((τ * cfg.factor ^ (m + 1) : ℝ) : ℂ)] =
      (win cfg.factor τ (m + 2)).map fun t : ℝ => (t : ℂ) := by rw [win_succ cfg.factor τ (m + 1)]; simp
  have e2 : (win cfg.factor τ (m + 1)).map y ++ [y (τ * cfg.factor ^ (m + 1))] = (win cfg.factor τ (m + 2)).map y := by
    rw [win_succ cfg.factor τ (m + 1)]; simp
  have e3 : ((win cfg.factor τ (m + 2)).map fun t : ℝ => (t : ℂ)).length = m + 2 := by simp [win]
  rw [e1, e2, e3]
  by_cases hlen : m + 1 = cfg.n
  · rw [if_neg (by omega), if_pos hlen]
    refine ⟨_, rfl, ⟨?_, ?_⟩, rfl, rfl⟩ <;> rw [← hlen]
  · rw [if_pos (by omega), if_neg hlen]
    have hm : m = cfg.n := by omega
    refine ⟨_, rfl, ⟨?_, ?_⟩, rfl, rfl⟩
    · dsimp only
      rw [← List.map_tail, win_tail, hm]
    · dsimp only
      rw [← List.map_tail, win_tail, hm]

/-- One turn of the loop. -/
theorem stepPS_exact (hE : ExactEg E ccfg rand y d R) (cfg : EgCfg) (hn : 0 < cfg.n) (hf0 : 0 < cfg.factor)
    (hf1 : cfg.factor < 1) {τ : ℝ} (hτ : 0 < τ) (hτR : τ < R) {len : ℕ} (hl : cfg.n ≤ len) (hl' : len ≤ cfg.n + 1)
    (hmt : cfg.minTrack ≤ τ * cfg.factor ^ len) (s : PSt (ι → ℂ)) (hs : OnWin cfg.factor y τ len s)
    (hab : above cfg.finalTol s.err)
    (hsafe : 0 < cfg.level ∨ ∀ k, E.dehomNorm (E.approx k
      ((win cfg.factor (if len = cfg.n then τ else τ * cfg.factor) (cfg.n + 1)).map fun t : ℝ => (t : ℂ))
      ((win cfg.factor (if len = cfg.n then τ else τ * cfg.factor) (cfg.n + 1)).map y)) ≤ cfg.maxNorm) :
    ∃ s' k, stepPS E cfg 0 s = .more s' ∧
      OnWin cfg.factor y (if len = cfg.n then τ else τ * cfg.factor) (cfg.n + 1) s' ∧
      s'.latest = E.approx k s'.times s'.samples ∧ s'.prev = s'.latest ∧ s'.err = some ‖s'.latest - s.prev‖ := by
  obtain ⟨s1, h1, h2, h3, h4⟩ := advancePS_exact hE cfg hn hf0 hf1 hτ hτR hl hl' hmt s hs
  set τ' := if len = cfg.n then τ else τ * cfg.factor with hτ'
  have hτ'0 : 0 < τ' := by rw [hτ']; split_ifs <;> positivity
  have hτ'R : τ' < R := by
    rw [hτ']; split_ifs
    · exact hτR
    · nlinarith
  unfold stepPS
  rw [if_pos hab, h1]
  dsimp only
  rw [if_neg (by simp)]
  have hr := refineAll_exact hE (win cfg.factor τ' (cfg.n + 1)) (fun t ht => ⟨(win_mem hf0 hf1 hτ'0 ht).1,
    lt_of_le_of_lt (win_mem hf0 hf1 hτ'0 ht).2 hτ'R⟩) s1.k
  have hw : OnWin cfg.factor y τ' (cfg.n + 1) (extrapolatePS E s1) := by
    refine ⟨h2.1, ?_⟩
    show (refineAll E s1.k s1.times s1.samples).2 = _
    rw [h2.1, h2.2]; exact hr
  have hla : (extrapolatePS E s1).latest = E.approx (refineAll E s1.k s1.times s1.samples).1 (extrapolatePS E s1).times
      (extrapolatePS E s1).samples := rfl
  have her : (extrapolatePS E s1).err = some ‖(extrapolatePS E s1).latest - s.prev‖ := by
    rw [← h3]; exact hE.dist _ _
  by_cases hlev : cfg.level ≤ 0
  · rw [if_pos hlev]
    rcases hsafe with hs | hs
    · omega
    · have h5 := hs (refineAll E s1.k s1.times s1.samples).1
      rw [← hw.1, ← hw.2, ← hla] at h5
      rw [if_neg (not_lt.mpr h5)]
      exact ⟨_, _, rfl, hw, hla, rfl, her⟩
  · rw [if_neg hlev]
    exact ⟨_, _, rfl, hw, hla, rfl, her⟩

theorem approx_exact (hE : ExactEg E ccfg rand y d R) {f τ : ℝ} (hf0 : 0 < f) (hf1 : f < 1) (hτ : 0 < τ) (hτR : τ < R) (len : ℕ)
    {z : ι → ℂ} {ε : ℝ} (ha : ∀ old, ∃ a, approxAtT0 ccfg rand 0 ((win f τ len).map fun t : ℝ => (t : ℂ))
      ((win f τ len).map y) ((win f τ len).map d) old = some a ∧ ‖a - z‖ ≤ ε) (k : ℕ) :
    ‖E.approx k ((win f τ len).map fun t : ℝ => (t : ℂ)) ((win f τ len).map y) - z‖ ≤ ε := by
  obtain ⟨old, ho⟩ := hE.approx k (win f τ len) (fun t ht => ⟨(win_mem hf0 hf1 hτ ht).1,
    lt_of_le_of_lt (win_mem hf0 hf1 hτ ht).2 hτR⟩)
  obtain ⟨a, h1, h2⟩ := ha old
  rw [ho a h1]; exact h2

theorem stepPS_stop (cfg : EgCfg) (s : PSt (ι → ℂ)) (h : ¬ above cfg.finalTol s.err) :
    stepPS E cfg 0 s = .done .success s := by
  unfold stepPS; rw [if_neg h]

end

/-! ## C150 -/

/-- **C150, full statement**: on a path that is a fractional power series, followed exactly from `start` on, success of the
power-series endgame means that the point returned is within the final tolerance of the limit. -/
def C150_full : Prop :=
  ∀ (ι : Type) [Fintype ι] (y d : ℝ → ι → ℂ) (φ : ℂ → ι → ℂ) (c : ℕ) (R : ℝ) (cfg : EgCfg) (ccfg : CycCfg) (rand : ι → ℂ)
    (E : EgEnv (ι → ℂ)) (start : ℝ) (fuel : ℕ) (s : PSt (ι → ℂ)), FracSeries y d φ c R → ccfg.n = cfg.n →
    ccfg.factor = cfg.factor → 3 ≤ cfg.n → 0 < cfg.factor → cfg.factor < 1 → 0 < ccfg.top → 1 ≤ ccfg.maxCycle →
    ExactEg E ccfg rand y d R → 0 < start → start < R → 0 < cfg.finalTol → cfg.finalTol < 1 →
    runPS E cfg start 0 (y start) fuel = .done .success s → ‖s.latest - φ 0‖ ≤ cfg.finalTol

/-- **C150, the part that holds, accuracy**: for every fractional power series (any cycle number), every required accuracy
`ε` and every positive final tolerance there is a radius such that from any start time inside it the endgame, followed
exactly, ends with success within two turns and the point returned is within `ε` of the limit - although the cycle number
picked may be wrong and the interpolation is not exact (C46, C98).  Missing: start times outside that radius. -/
theorem C150_accurate_partial {y d : ℝ → ι → ℂ} {φ : ℂ → ι → ℂ} {c : ℕ} {R : ℝ} (h : FracSeries y d φ c R) (cfg : EgCfg)
    (ccfg : CycCfg) (rand : ι → ℂ) (hcn : ccfg.n = cfg.n) (hcf : ccfg.factor = cfg.factor) (hn : 3 ≤ cfg.n)
    (hf0 : 0 < cfg.factor) (hf1 : cfg.factor < 1) (htop : 0 < ccfg.top) (hmc : 1 ≤ ccfg.maxCycle) (htol : 0 < cfg.finalTol)
    {ε : ℝ} (hε : 0 < ε) :
    ∃ r, 0 < r ∧ r ≤ R ∧ ∀ E, ExactEg E ccfg rand y d R →
      (0 < cfg.level ∨ ∀ a, ‖a - φ 0‖ ≤ ε → E.dehomNorm a ≤ cfg.maxNorm) →
      ∀ start : ℝ, 0 < start → start < r → ∀ m ≤ start * cfg.factor ^ cfg.n, ∀ fuel, 2 ≤ fuel →
        ∃ s, runPS E { cfg with minTrack := m } start 0 (y start) fuel = .done .success s ∧ ‖s.latest - φ 0‖ ≤ ε := by
  have hε' : 0 < min ε (cfg.finalTol / 2) := lt_min hε (by linarith)
  obtain ⟨r1, hr1, hR1, h1⟩ := h.approx ccfg rand (by omega) (by rwa [hcf]) (by rwa [hcf]) htop hmc cfg.n (by omega) hε'
  obtain ⟨r2, hr2, hR2, h2⟩ := h.approx ccfg rand (by omega) (by rwa [hcf]) (by rwa [hcf]) htop hmc (cfg.n + 1) (by omega) hε'
  rw [hcf] at h1 h2
  refine ⟨min r1 r2, lt_min hr1 hr2, (min_le_left _ _).trans hR1, fun E hE hsec start hs0 hsr m hmt fuel hfuel => ?_⟩
  set cfg' : EgCfg := { cfg with minTrack := m } with hcfg'
  have hsr1 := hsr.trans_le (min_le_left _ _)
  have hsr2 := hsr.trans_le (min_le_right _ _)
  have hsR := hsr1.trans_le hR1
  have ha1 := approx_exact hE hf0 hf1 hs0 hsR cfg.n (h1 start hs0 hsr1)
  have ha2 := approx_exact hE hf0 hf1 hs0 hsR (cfg.n + 1) (h2 start hs0 hsr2)
  obtain ⟨s, k, e1, e2, e3, e4, e5, e6⟩ := initPS_exact hE cfg' (show 0 < cfg.n by omega) hf0 hf1 hs0 hsR
  have hsl : ‖s.latest - φ 0‖ ≤ min ε (cfg.finalTol / 2) := by rw [e4, e2.1, e2.2]; exact ha1 k
  obtain ⟨fuel, rfl⟩ : ∃ m, fuel = m + 2 := ⟨fuel - 2, by omega⟩
  unfold runPS
  rw [e1]
  dsimp only
  rw [loopPS]
  by_cases hab : above cfg'.finalTol s.err
  swap
  · rw [stepPS_stop cfg' s hab]
    exact ⟨s, rfl, hsl.trans (min_le_left _ _)⟩
  obtain ⟨s', k', g1, g2, g3, g4, g5⟩ := stepPS_exact hE cfg' (show 0 < cfg.n by omega) hf0 hf1 hs0 hsR (len := cfg.n) le_rfl (Nat.le_succ _) hmt s e2 hab (by
    rcases hsec with hl | hl
    · exact Or.inl hl
    · refine Or.inr fun k => hl _ ?_
      rw [if_pos rfl]
      exact (ha2 k).trans (min_le_left _ _))
  rw [if_pos rfl] at g2
  have hsl' : ‖s'.latest - φ 0‖ ≤ min ε (cfg.finalTol / 2) := by rw [g3, g2.1, g2.2]; exact ha2 k'
  rw [g1]
  dsimp only
  rw [loopPS, stepPS_stop cfg' s']
  · exact ⟨s', rfl, hsl'.trans (min_le_left _ _)⟩
  · rintro ⟨x, hx, hlt⟩
    rw [g5] at hx
    rw [← Option.some.inj hx, e5] at hlt
    have h5 := norm_sub_le (s'.latest - φ 0) (s.latest - φ 0)
    rw [sub_sub_sub_cancel_right] at h5
    have hlt : cfg.finalTol < ‖s'.latest - s.latest‖ := hlt
    have h6 := min_le_right ε (cfg.finalTol / 2)
    linarith

/-- From any state with a full window the loop ends with success, if the least time is small enough. -/
theorem loopPS_exact {E : EgEnv (ι → ℂ)} {ccfg : CycCfg} {rand : ι → ℂ} {y d : ℝ → ι → ℂ} {R : ℝ}
    (hE : ExactEg E ccfg rand y d R) (cfg : EgCfg) (hn : 0 < cfg.n) (hf0 : 0 < cfg.factor) (hf1 : cfg.factor < 1)
    (hsafe : 0 < cfg.level ∨ ∀ a, E.dehomNorm a ≤ cfg.maxNorm) {z : ι → ℂ} {r : ℝ}
    (hr : ∀ τ, 0 < τ → τ < r → ∀ k, ‖E.approx k ((win cfg.factor τ (cfg.n + 1)).map fun t : ℝ => (t : ℂ))
      ((win cfg.factor τ (cfg.n + 1)).map y) - z‖ ≤ cfg.finalTol / 2) :
    ∀ (N : ℕ) (τ : ℝ) (s : PSt (ι → ℂ)), 0 < τ → τ < R → τ * cfg.factor ^ N < r →
      cfg.minTrack ≤ τ * cfg.factor ^ (N + cfg.n + 2) → OnWin cfg.factor y τ (cfg.n + 1) s →
      ∃ s', loopPS E cfg 0 (N + 3) s = .done .success s' := by
  have hstep : ∀ (τ : ℝ) (s : PSt (ι → ℂ)), 0 < τ → τ < R → cfg.minTrack ≤ τ * cfg.factor ^ (cfg.n + 1) →
      OnWin cfg.factor y τ (cfg.n + 1) s → above cfg.finalTol s.err →
      ∃ s' k, stepPS E cfg 0 s = .more s' ∧ OnWin cfg.factor y (τ * cfg.factor) (cfg.n + 1) s' ∧
        s'.latest = E.approx k s'.times s'.samples ∧ s'.prev = s'.latest ∧ s'.err = some ‖s'.latest - s.prev‖ := by
    intro τ s h0 h1 h2 h3 h4
    have := stepPS_exact hE cfg hn hf0 hf1 h0 h1 (by omega) le_rfl h2 s h3 h4 (hsafe.imp id fun h k => h _)
    rwa [if_neg (by omega)] at this
  have hpow : ∀ (τ : ℝ) (a b : ℕ), 0 < τ → a ≤ b → τ * cfg.factor ^ b ≤ τ * cfg.factor ^ a := fun τ a b h0 hab =>
    mul_le_mul_of_nonneg_left (pow_le_pow_of_le_one hf0.le hf1.le hab) h0.le
  intro N
  induction N with
  | zero =>
    intro τ s h0 hR hr0 hmt hw
    rw [pow_zero, mul_one] at hr0
    rw [loopPS]
    by_cases ha : above cfg.finalTol s.err
    swap
    · rw [stepPS_stop cfg s ha]; exact ⟨s, rfl⟩
    obtain ⟨s1, k1, a1, a2, a3, a4, a5⟩ := hstep τ s h0 hR (hmt.trans (hpow _ _ _ h0 (by omega))) hw ha
    rw [a1]
    dsimp only
    rw [loopPS]
    by_cases hb : above cfg.finalTol s1.err
    swap
    · rw [stepPS_stop cfg s1 hb]; exact ⟨s1, rfl⟩
    have h01 : 0 < τ * cfg.factor := by positivity
    have h02 : τ * cfg.factor < τ := by nlinarith
    have h03 : 0 < τ * cfg.factor * cfg.factor := by positivity
    have h04 : τ * cfg.factor * cfg.factor < τ * cfg.factor := by nlinarith
    obtain ⟨s2, k2, b1, b2, b3, b4, b5⟩ := hstep (τ * cfg.factor) s1 h01 (by linarith)
      (hmt.trans (le_of_eq (by ring))) a2 hb
    rw [b1]
    dsimp only
    rw [loopPS, stepPS_stop cfg s2]
    · exact ⟨s2, rfl⟩
    · rintro ⟨x, hx, hlt⟩
      rw [b5] at hx
      rw [← Option.some.inj hx, a4] at hlt
      have g1 : ‖s1.latest - z‖ ≤ cfg.finalTol / 2 := by
        rw [a3, a2.1, a2.2]; exact hr _ h01 (by linarith) k1
      have g2 : ‖s2.latest - z‖ ≤ cfg.finalTol / 2 := by
        rw [b3, b2.1, b2.2]; exact hr _ h03 (by linarith) k2
      have h5 := norm_sub_le (s2.latest - z) (s1.latest - z)
      rw [sub_sub_sub_cancel_right] at h5
      linarith
  | succ N ih =>
    intro τ s h0 hR hr0 hmt hw
    rw [loopPS]
    by_cases ha : above cfg.finalTol s.err
    swap
    · rw [stepPS_stop cfg s ha]; exact ⟨s, rfl⟩
    obtain ⟨s1, k1, a1, a2, -⟩ := hstep τ s h0 hR (hmt.trans (hpow _ _ _ h0 (by omega))) hw ha
    rw [a1]
    have h02 : τ * cfg.factor < τ := by nlinarith
    exact ih (τ * cfg.factor) s1 (by positivity) (by linarith) (lt_of_eq_of_lt (by ring) hr0)
      (hmt.trans (le_of_eq (by ring))) a2

/-- **C150, the part that holds, convergence**: from any start time at which the path is a fractional power series, followed
exactly and with the security checks not active, the endgame ends with success, if the least tracking time is small enough. -/
theorem C150_succeeds_partial {y d : ℝ → ι → ℂ} {φ : ℂ → ι → ℂ} {c : ℕ} {R : ℝ} (h : FracSeries y d φ c R) (cfg : EgCfg)
    (ccfg : CycCfg) (rand : ι → ℂ) (hcn : ccfg.n = cfg.n) (hcf : ccfg.factor = cfg.factor) (hn : 3 ≤ cfg.n)
    (hf0 : 0 < cfg.factor) (hf1 : cfg.factor < 1) (htop : 0 < ccfg.top) (hmc : 1 ≤ ccfg.maxCycle) (htol : 0 < cfg.finalTol)
    (start : ℝ) (hs0 : 0 < start) (hsR : start < R) :
    ∃ μ N, 0 < μ ∧ ∀ m ≤ μ, ∀ E, ExactEg E ccfg rand y d R → (0 < cfg.level ∨ ∀ a, E.dehomNorm a ≤ cfg.maxNorm) →
      ∃ s, runPS E { cfg with minTrack := m } start 0 (y start) N = .done .success s := by
  obtain ⟨r, hr, hR, h2⟩ := h.approx ccfg rand (by omega) (by rwa [hcf]) (by rwa [hcf]) htop hmc (cfg.n + 1) (by omega)
    (half_pos htol)
  rw [hcf] at h2
  obtain ⟨N, hN⟩ : ∃ N : ℕ, start * cfg.factor ^ N < r := by
    obtain ⟨N, hN⟩ := exists_pow_lt_of_lt_one (div_pos hr hs0) hf1
    exact ⟨N, by rw [lt_div_iff₀ hs0] at hN; linarith⟩
  refine ⟨start * cfg.factor ^ (N + cfg.n + 2), N + 4, by positivity, fun m hm E hE hsafe => ?_⟩
  set cfg' : EgCfg := { cfg with minTrack := m } with hcfg'
  obtain ⟨s, k, e1, e2, e3, e4, e5, e6⟩ := initPS_exact hE cfg' (show 0 < cfg.n by omega) hf0 hf1 hs0 hsR
  unfold runPS
  rw [e1]
  dsimp only
  rw [loopPS]
  by_cases hab : above cfg'.finalTol s.err
  swap
  · rw [stepPS_stop cfg' s hab]; exact ⟨s, rfl⟩
  obtain ⟨s', k', g1, g2, -⟩ := stepPS_exact hE cfg' (show 0 < cfg.n by omega) hf0 hf1 hs0 hsR (len := cfg.n) le_rfl (Nat.le_succ _)
    (hm.trans (mul_le_mul_of_nonneg_left (pow_le_pow_of_le_one hf0.le hf1.le (by omega)) hs0.le)) s e2 hab
    (hsafe.imp id fun h k => h _)
  rw [if_pos rfl] at g2
  rw [g1]
  exact loopPS_exact hE cfg' (show 0 < cfg.n by omega) hf0 hf1 hsafe (z := φ 0) (r := r)
    (fun τ h0 hτ k => approx_exact hE hf0 hf1 h0 (hτ.trans_le hR) (cfg.n + 1) (h2 τ h0 hτ) k) N start s' hs0 hsR hN hm g2

/-! ### An exact environment exists -/

/-- Tracking, refinement and extrapolation along a given path. -/
noncomputable def exactPS (ccfg : CycCfg) (rand : ι → ℂ) (y d : ℝ → ι → ℂ) : EgEnv (ι → ℂ) where
  track _ _ t' _ := (.success, y t'.re)
  refine _ x _ := (.success, x)
  approx _ ts xs := (approxAtT0 ccfg rand 0 ts xs (ts.map fun t => d t.re) 1).getD 0
  dist a b := some ‖a - b‖
  dehomNorm a := ‖a‖

theorem exactPS_exact (ccfg : CycCfg) (rand : ι → ℂ) (y d : ℝ → ι → ℂ) (R : ℝ) :
    ExactEg (exactPS ccfg rand y d) ccfg rand y d R where
  track k t t' _ _ _ := by simp [exactPS]
  refine k t _ _ := rfl
  approx k rs _ := ⟨1, fun a ha => by
    show (approxAtT0 ccfg rand 0 _ _ _ 1).getD 0 = a
    rw [List.map_map]
    have e : ((fun t : ℂ => d t.re) ∘ fun t : ℝ => (t : ℂ)) = d := by funext t; simp
    rw [e, ha]; rfl⟩
  dist _ _ := rfl

/-- The square root of `t`: a path with cycle number two. -/
noncomputable def rootPath (t : ℝ) : Unit → ℂ := fun _ => ((t ^ (1 / ((2 : ℕ) : ℝ)) : ℝ) : ℂ)
noncomputable def rootDeriv (t : ℝ) : Unit → ℂ := fun _ => ((1 / ((2 : ℕ) : ℝ) * t ^ (1 / ((2 : ℕ) : ℝ) - 1) : ℝ) : ℂ)

theorem rootPath_series : FracSeries rootPath rootDeriv (fun u _ => u) 2 1 where
  c_pos := by norm_num
  R_pos := one_pos
  analytic _ := analyticAt_id
  value t _ _ := rfl
  deriv t h0 _ := hasDerivAt_pi.mpr fun _ => (Real.hasDerivAt_rpow_const (Or.inl h0.ne')).ofReal_comp

noncomputable def psCfg : EgCfg := { n := 3, factor := 1 / 2, minTrack := 0, finalTol := 1 / 1000, level := 1, maxNorm := 10 }
noncomputable def psCyc : CycCfg := { n := 3, factor := 1 / 2, maxCycle := 6, amplification := 5, top := 1000 }

/-- Witness for `C150_accurate_partial` and `C150_succeeds_partial`: the square root, whose derivative is unbounded at 0. -/
example : (∃ (r : ℝ) (s : PSt (Unit → ℂ)), 0 < r ∧
      runPS (exactPS psCyc 1 rootPath rootDeriv) psCfg r 0 (rootPath r) 2 = .done .success s ∧ ‖s.latest‖ ≤ 1 / 1000000) ∧
    ∃ (m : ℝ) (N : ℕ) (s : PSt (Unit → ℂ)), 0 < m ∧
      runPS (exactPS psCyc 1 rootPath rootDeriv) { psCfg with minTrack := m } (1 / 2 : ℝ) 0 (rootPath (1 / 2)) N =
        .done .success s := by
  constructor
  · obtain ⟨r, hr, hr1, h⟩ := C150_accurate_partial rootPath_series psCfg psCyc 1 rfl rfl (by norm_num [psCfg]) (by norm_num [psCfg])
      (by norm_num [psCfg]) (by norm_num [psCyc]) (by norm_num [psCyc]) (by norm_num [psCfg]) (ε := 1 / 1000000) (by norm_num)
    obtain ⟨s, h1, h2⟩ := h _ (exactPS_exact _ _ _ _ _) (Or.inl (by norm_num [psCfg])) (r / 2) (by positivity) (by linarith) 0 (by
      show (0 : ℝ) ≤ r / 2 * (1 / 2) ^ 3
      positivity) 2 le_rfl
    refine ⟨r / 2, s, by positivity, h1, ?_⟩
    have : (fun _ : Unit => (0 : ℂ)) = 0 := rfl
    simpa [this] using h2
  · obtain ⟨μ, N, hμ, h⟩ := C150_succeeds_partial rootPath_series psCfg psCyc 1 rfl rfl (by norm_num [psCfg]) (by norm_num [psCfg])
      (by norm_num [psCfg]) (by norm_num [psCyc]) (by norm_num [psCyc]) (by norm_num [psCfg]) (1 / 2) (by norm_num) (by norm_num)
    obtain ⟨s, hs⟩ := h μ le_rfl _ (exactPS_exact _ _ _ _ _) (Or.inl (by norm_num [psCfg]))
    exact ⟨μ, N, s, hμ, hs⟩

/-! ### The full statement fails -/

/-- A path that vanishes, with its derivative, at the first four sample times. -/
noncomputable def flatPoly (t : ℂ) : ℂ := ((t - 1 / 2) * (t - 1 / 4) * (t - 1 / 8) * (t - 1 / 16)) ^ 2
noncomputable def flatPath (t : ℝ) : Unit → ℂ := fun _ => flatPoly t
noncomputable def flatDeriv (t : ℝ) : Unit → ℂ := fun _ => deriv flatPoly t

theorem flat_diff : Differentiable ℂ flatPoly := by unfold flatPoly; fun_prop

theorem flat_series : FracSeries flatPath flatDeriv (fun u _ => flatPoly u) 1 1 where
  c_pos := le_rfl
  R_pos := one_pos
  analytic _ := flat_diff.analyticAt 0
  value t _ _ := by funext; simp [flatPath]
  deriv t _ _ := hasDerivAt_pi.mpr fun _ => (flat_diff t).hasDerivAt.comp_ofReal

theorem flat_zero {t : ℝ} (h : t ∈ win (1 / 2) (1 / 2) 4) : flatPath t = 0 ∧ flatDeriv t = 0 := by
  have ht : ((t : ℂ) - 1 / 2) * ((t : ℂ) - 1 / 4) * ((t : ℂ) - 1 / 8) * ((t : ℂ) - 1 / 16) = 0 := by
    simp only [win, List.range_succ, List.range_zero, List.nil_append, List.cons_append, List.map_cons, List.map_nil,
      List.mem_cons, List.not_mem_nil, or_false] at h
    rcases h with rfl | rfl | rfl | rfl <;> norm_num
  refine ⟨by funext; show flatPoly t = 0; unfold flatPoly; rw [ht]; norm_num, ?_⟩
  funext
  have hd : DifferentiableAt ℂ (fun t : ℂ => (t - 1 / 2) * (t - 1 / 4) * (t - 1 / 8) * (t - 1 / 16)) (t : ℂ) := by fun_prop
  have := (hd.hasDerivAt.pow 2).deriv
  show deriv flatPoly (t : ℂ) = 0
  have e : flatPoly = fun t : ℂ => ((t - 1 / 2) * (t - 1 / 4) * (t - 1 / 8) * (t - 1 / 16)) ^ 2 := rfl
  rw [e]
  refine Eq.trans this ?_
  simp only [ht]
  simp

noncomputable def flatCfg : EgCfg := { n := 3, factor := 1 / 2, minTrack := 0, finalTol := 1 / 2 ^ 21, level := 1, maxNorm := 10 }

theorem flat_approx (len : ℕ) (hlen : 3 ≤ len) (hlen' : len ≤ 4) (old : ℕ) : ∃ a,
    approxAtT0 psCyc 1 0 ((win (1 / 2) (1 / 2) len).map fun t : ℝ => (t : ℂ)) ((win (1 / 2) (1 / 2) len).map flatPath)
      ((win (1 / 2) (1 / 2) len).map flatDeriv) old = some a ∧ ‖a - 0‖ ≤ 0 := by
  obtain ⟨K, δ₀, -, hδ, H⟩ := approx_of_close (ι := Unit) psCyc 1 (by norm_num [psCyc]) (by norm_num [psCyc])
    (by norm_num [psCyc]) (by norm_num [psCyc]) 1 len le_rfl hlen
  have hsub : ∀ t, t ∈ win (1 / 2) (1 / 2) len → t ∈ win (1 / 2) (1 / 2) 4 := by
    intro t ht
    obtain ⟨i, hi, rfl⟩ := List.mem_map.mp ht
    exact List.mem_map.mpr ⟨i, List.mem_range.mpr (by have := List.mem_range.mp hi; omega), rfl⟩
  have hmap : ∀ (l : List ℝ), (∀ t ∈ l, t ∈ win (1 / 2) (1 / 2) 4) → l.map flatPath = l.map fun _ => 0 := fun l hl =>
    List.map_congr_left fun t ht => (flat_zero (hl t ht)).1
  obtain ⟨a, h1, h2⟩ := H flatPath flatDeriv 0 (1 / 2) 0 old (by norm_num) le_rfl hδ.le
    (fun t ht => by rw [(flat_zero (hsub t ht)).1]; simp) (fun t ht => by rw [(flat_zero (hsub t ht)).2]; simp) (by
      intro ub hub
      obtain ⟨m, rfl⟩ : ∃ m, len = m + 3 := ⟨len - 3, by omega⟩
      have : boundOnCycle psCyc 1 ((win psCyc.factor (1 / 2) (m + 3)).map fun _ => (0 : Unit → ℂ)) = some ub := by
        rw [← hub]; exact congrArg _ (hmap _ hsub).symm
      rw [boundOnCycle_win psCyc 1 (fun _ => 0) (1 / 2) m] at this
      rw [← Option.some.inj this]
      simp [boundFrom, randSum])
  exact ⟨a, h1, by simpa using h2⟩

/-- **C150 fails**: two successive extrapolations agree exactly and both miss the limit by twice the tolerance. -/
theorem C150_refuted : ¬ C150_full := by
  intro H
  have hE := exactPS_exact psCyc 1 flatPath flatDeriv 1
  have h0 : (0 : ℝ) < 1 / 2 := by norm_num
  have h1 : (1 / 2 : ℝ) < 1 := by norm_num
  obtain ⟨s, k, e1, e2, e3, e4, e5, e6⟩ := initPS_exact hE flatCfg (by norm_num [flatCfg]) h0 h1 h0 h1
  have ha1 := approx_exact hE h0 h1 h0 h1 3 (flat_approx 3 le_rfl (by norm_num)) k
  have hs : s.latest = 0 := by
    rw [e4, e2.1, e2.2]
    exact sub_eq_zero.mp (norm_le_zero_iff.mp ha1)
  have hab : above flatCfg.finalTol s.err := ⟨1, e3, by norm_num [flatCfg]⟩
  obtain ⟨s', k', g1, g2, g3, g4, g5⟩ := stepPS_exact hE flatCfg (by norm_num [flatCfg]) h0 h1 h0 h1 (len := 3) le_rfl
    (by norm_num [flatCfg]) (by norm_num [flatCfg]) s e2 hab (Or.inl (by norm_num [flatCfg]))
  rw [if_pos (show 3 = flatCfg.n from rfl)] at g2
  have ha2 := approx_exact hE h0 h1 h0 h1 4 (flat_approx 4 (by norm_num) le_rfl) k'
  have hs' : s'.latest = 0 := by
    rw [g3, g2.1, g2.2]
    exact sub_eq_zero.mp (norm_le_zero_iff.mp ha2)
  have hrun : runPS (exactPS psCyc 1 flatPath flatDeriv) flatCfg (1 / 2 : ℝ) 0 (flatPath (1 / 2)) 2 = .done .success s' := by
    unfold runPS
    rw [e1]
    dsimp only
    rw [loopPS, g1]
    dsimp only
    rw [loopPS, stepPS_stop flatCfg s']
    rintro ⟨x, hx, hlt⟩
    rw [g5, hs', e5, hs] at hx
    rw [← Option.some.inj hx] at hlt
    norm_num [flatCfg] at hlt
  have := H Unit flatPath flatDeriv (fun u _ => flatPoly u) 1 1 flatCfg psCyc 1 _ (1 / 2) 2 s' flat_series rfl rfl
    (by norm_num [flatCfg]) (by norm_num [flatCfg]) (by norm_num [flatCfg]) (by norm_num [psCyc]) (by norm_num [psCyc]) hE h0 h1
    (by norm_num [flatCfg]) (by norm_num [flatCfg]) hrun
  rw [hs', zero_sub, norm_neg] at this
  have h2 := (norm_le_pi_norm (fun _ : Unit => flatPoly 0) ()).trans this
  have h3 : flatPoly 0 = ((1 / 2 ^ 20 : ℝ) : ℂ) := by unfold flatPoly; push_cast; norm_num
  rw [h3, Complex.norm_real] at h2
  norm_num [flatCfg] at h2

end B2.Endgame
