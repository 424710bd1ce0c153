/-
C98: the search for the cycle number; C99: the extrapolation is exact on fractional power series of low degree.
-/
import Verif.Endgame.CycleProof

namespace B2.Endgame
open Polynomial

variable {ι : Type} [Fintype ι]

/-! ## C98 -/

/-- C98, full statement: the cycle number found lies between 1 and `max_cycle_number` and minimises, over that range, the
distance between the latest sample and its prediction from the earlier ones. -/
def C98_full : Prop :=
  ∀ (ι : Type) [Fintype ι] (cfg : CycCfg) (rand : ι → ℂ) (t0 : ℂ) (times : List ℂ) (samples derivs : List (ι → ℂ))
    (old c : ℕ), 0 < cfg.maxCycle → 1 ≤ old → old ≤ cfg.maxCycle →
    cycleNumber cfg rand t0 times samples derivs old = some c → 1 ≤ c ∧ c ≤ cfg.maxCycle

/-- **C98, the part that holds**: with `ub` the computed bound, the cycle number is the smallest minimiser over `1 … ub`; if
no distance is below the largest number of the type it is left unchanged. -/
theorem C98_search_partial (cfg : CycCfg) (rand : ι → ℂ) (t0 : ℂ) (times : List ℂ) (samples derivs : List (ι → ℂ))
    (old c : ℕ) (h : cycleNumber cfg rand t0 times samples derivs old = some c) :
    ∃ ub, boundOnCycle cfg rand samples = some ub ∧
      let dist := residual t0 (numPts cfg samples.length) times samples derivs
      ((c = old ∧ ∀ b, 1 ≤ b → b ≤ ub → ∃ r, dist b = some r ∧ cfg.top ≤ r) ∨
        (1 ≤ c ∧ c ≤ ub ∧ ∃ r, dist c = some r ∧ r < cfg.top ∧
          (∀ b, 1 ≤ b → b ≤ ub → ∃ r', dist b = some r' ∧ r ≤ r') ∧
          ∀ b, 1 ≤ b → b < c → ∃ r', dist b = some r' ∧ r < r')) := by
  unfold cycleNumber at h
  by_cases hs : sizesOk cfg times samples derivs
  · rw [if_pos hs] at h
    cases hb : boundOnCycle cfg rand samples with
    | none => rw [hb] at h; cases h
    | some ub =>
      rw [hb] at h
      simp only [Option.bind_some, Option.map_eq_some_iff] at h
      obtain ⟨st, hst, rfl⟩ := h
      refine ⟨ub, rfl, ?_⟩
      dsimp only
      obtain ⟨h1, -, h3⟩ := searchLoop_spec _ _ _ _ hst
      rcases h3 with rfl | ⟨l, d, l', e, hd, hd2, hd3, hl⟩
      · exact Or.inl ⟨rfl, fun b hb1 hb2 => h1 b (mem_cands.mpr ⟨hb1, hb2⟩)⟩
      · have hm := mem_cands.mp (show d ∈ (List.range ub).map (· + 1) by rw [e]; simp)
        rw [hd2]
        exact Or.inr ⟨hm.1, hm.2, st.1, hd, hd3, fun b hb1 hb2 => h1 b (mem_cands.mpr ⟨hb1, hb2⟩),
          fun b hb1 hb2 => hl b (cands_split e b hb1 hb2)⟩
  · rw [if_neg hs] at h; cases h

/-- **C98, the bound**: it is 1, or at least `max_cycle_number` (which therefore acts as a minimum). -/
theorem C98_bound (cfg : CycCfg) (rand : ι → ℂ) (samples : List (ι → ℂ)) (ub : ℕ)
    (h : boundOnCycle cfg rand samples = some ub) : 3 ≤ samples.length ∧ (ub = 1 ∨ cfg.maxCycle ≤ ub) := by
  unfold boundOnCycle at h
  split at h
  · rename_i s2 s1 s0 r e
    refine ⟨?_, ?_⟩
    · have := congrArg List.length e
      simp at this
      omega
    · rw [← Option.some.inj h]
      unfold boundFrom
      dsimp only
      split_ifs
      · exact Or.inl rfl
      · exact Or.inl rfl
      · exact Or.inr (le_max_right _ _)
  · cases h

/-- **C98, the range**: if the projected differences of the last three samples shrink as those of a fractional power series
with cycle number `c` (by the factor `sample_factor^(1/c)` per step), then `c` is among the candidates. -/
theorem C98_range (cfg : CycCfg) (rand s0 s1 s2 : ι → ℂ) (samples : List (ι → ℂ)) (c : ℕ) (hc : 1 ≤ c)
    (hf0 : 0 < cfg.factor) (hf1 : cfg.factor < 1) (ha : 1 ≤ cfg.amplification)
    (h1 : randSum rand s0 s1 ≠ 0)
    (h : ‖randSum rand s1 s2 / randSum rand s0 s1‖ = cfg.factor ^ (1 / (c : ℝ))) :
    ∃ ub, boundOnCycle cfg rand (samples ++ [s0, s1, s2]) = some ub ∧ c ≤ ub ∧
      ub = max (c * cfg.amplification) cfg.maxCycle := by
  have hl : Real.log cfg.factor ≠ 0 := (Real.log_neg hf0 hf1).ne
  have hc' : (c : ℝ) ≠ 0 := by positivity
  have hpos : 0 < cfg.factor ^ (1 / (c : ℝ)) := Real.rpow_pos_of_pos hf0 _
  have h2 : randSum rand s1 s2 ≠ 0 := by
    intro hz
    rw [hz, zero_div, norm_zero] at h
    exact hpos.ne h
  have e : Real.log cfg.factor / Real.log ‖randSum rand s1 s2 / randSum rand s0 s1‖ = c := by
    rw [h, Real.log_rpow hf0]
    field_simp
  refine ⟨max (c * cfg.amplification) cfg.maxCycle, ?_, ?_, rfl⟩
  · unfold boundOnCycle
    rw [List.reverse_append]
    show some (boundFrom cfg (randSum rand s0 s1) (randSum rand s1 s2)) = _
    unfold boundFrom
    dsimp only
    rw [if_neg (by simp [h1, h2]), e, if_neg (by rw [not_lt]; exact_mod_cast hc)]
    have : round (c : ℝ) = (c : ℤ) := by exact_mod_cast round_natCast (α := ℝ) c
    rw [this]
    congr 1
  · exact le_max_of_le_left (by nlinarith)

/-! ## C99 -/

/-- C99, full statement: on samples of a fractional power series with cycle number `c` of degree below `2n`, extrapolation
with the cycle number `c` gives the value at `t0`. -/
def C99_full : Prop :=
  ∀ (ι : Type) [Fintype ι] (cfg : CycCfg) (rand : ι → ℂ) (t0 w : ℂ) (q : ι → ℂ[X]) (c : ℕ) (rs : List ℝ)
    (times : List ℂ) (samples derivs : List (ι → ℂ)) (old : ℕ), 0 < cfg.n → OnBranch q c t0 w rs times samples derivs →
    (∀ j, (q j).natDegree < 2 * cfg.n) → cycleNumber cfg rand t0 times samples derivs old = some c →
    approxAtT0 cfg rand t0 times samples derivs old = some fun j => (q j).eval 0

theorem sizes_of_cycle {cfg : CycCfg} {rand : ι → ℂ} {t0 : ℂ} {times : List ℂ} {samples derivs : List (ι → ℂ)}
    {old c : ℕ} (h : cycleNumber cfg rand t0 times samples derivs old = some c) : sizesOk cfg times samples derivs := by
  unfold cycleNumber at h
  by_contra hs
  rw [if_neg hs] at h; cases h

/-- **C99, the part that holds**: degree at most two (beyond, the interpolation is wrong, C46). -/
theorem C99_exact_partial (cfg : CycCfg) (rand : ι → ℂ) (t0 w : ℂ) (q : ι → ℂ[X]) (c : ℕ) (rs : List ℝ)
    (times : List ℂ) (samples derivs : List (ι → ℂ)) (old : ℕ) (hn : 0 < cfg.n)
    (hb : OnBranch q c t0 w rs times samples derivs) (hdeg : ∀ j, (q j).natDegree < 2 * cfg.n)
    (hdeg2 : ∀ j, (q j).natDegree ≤ 2) (hc : cycleNumber cfg rand t0 times samples derivs old = some c) :
    approxAtT0 cfg rand t0 times samples derivs old = some fun j => (q j).eval 0 := by
  obtain ⟨h1, h2, h3⟩ := sizes_of_cycle hc
  obtain ⟨p, hp, hh⟩ := hb.hermite cfg.n (times.length - cfg.n) hn (by omega) false (by simp) hdeg hdeg2
  unfold approxAtT0
  rw [hc, Option.bind_some, hp, Option.bind_some, hh 0, mul_zero]

theorem residual_some (t0 : ℂ) (num : ℕ) (times : List ℂ) (samples derivs : List (ι → ℂ)) (c : ℕ) (hc : 1 ≤ c)
    (hn : 0 < num) (h1 : num ≤ times.length) (h2 : num ≤ samples.length) (h3 : num ≤ derivs.length) :
    ∃ r, residual t0 num times samples derivs c = some r := by
  unfold residual toSPlane
  rw [if_neg (by omega), Option.bind_some]
  unfold hermite
  rw [if_pos ⟨hn, by simp; omega, h2, by simp; omega⟩]
  exact ⟨_, rfl⟩

/-- On a branch of cycle number `c` and low degree the latest sample is predicted exactly by the candidate `c`. -/
theorem OnBranch.residual {t0 w : ℂ} {q : ι → ℂ[X]} {c : ℕ} {rs : List ℝ} {times : List ℂ}
    {samples derivs : List (ι → ℂ)} (hb : OnBranch q c t0 w rs times samples derivs) (num : ℕ) (hn : 0 < num)
    (hl : num ≤ times.length) (hdeg : ∀ j, (q j).natDegree < 2 * num) (hdeg2 : ∀ j, (q j).natDegree ≤ 2) :
    residual t0 num times samples derivs c = some 0 := by
  obtain ⟨p, hp, hh⟩ := hb.hermite num 0 hn (by omega) true (by simp) hdeg hdeg2
  unfold Endgame.residual
  rw [hp, Option.bind_some, hh, Option.map_some]
  congr 1
  rw [norm_eq_zero, sub_eq_zero]
  obtain ⟨hc, hw, hpos, hnd, ht, hs, -, -⟩ := hb
  have hlr : times.length = rs.length := by rw [ht]; simp
  obtain ⟨r0, rest, rfl⟩ : ∃ r0 rest, rs = r0 :: rest := by
    cases rs with
    | nil => rw [List.length_nil] at hlr; omega
    | cons a l => exact ⟨a, l, rfl⟩
  have hr0 : 0 < r0 := hpos r0 (by simp)
  set rl := (r0 :: rest).getLast (by simp) with hrl
  have hrl0 : 0 < rl := hpos rl (List.getLast_mem _)
  have e1 : times.headD 0 = t0 + r0 * w := by rw [ht]; rfl
  have e2 : times.getLastD 0 = t0 + rl * w := by
    rw [ht, List.getLastD_eq_getLast?, List.getLast?_map, List.getLast?_eq_some_getLast (by simp)]
    rfl
  have e3 : samples.getLastD 0 = branch q c t0 w (t0 + rl * w) := by
    rw [hs, List.getLastD_eq_getLast?, List.getLast?_map, ht, List.getLast?_map, List.getLast?_eq_some_getLast (by simp)]
    rfl
  rw [e1, e2, e3]
  funext j
  have hr0' : (r0 : ℂ) ≠ 0 := by exact_mod_cast hr0.ne'
  have e4 : (t0 + rl * w - t0) / (t0 + r0 * w - t0) = ((rl / r0 : ℝ) : ℂ) := by
    push_cast
    rw [add_sub_cancel_left, add_sub_cancel_left]
    field_simp
  rw [e4, branch, ray_root t0 w hw rl hrl0 c, show (1 / (c : ℂ)) = ((1 / (c : ℝ) : ℝ) : ℂ) by push_cast; rfl,
    ← Complex.ofReal_cpow (by positivity), Real.div_rpow hrl0.le hr0.le]
  have hσ : ((r0 ^ (1 / (c : ℝ)) : ℝ) : ℂ) ≠ 0 := by
    exact_mod_cast (Real.rpow_pos_of_pos hr0 _).ne'
  congr 1
  simp only [List.getD_cons_zero]
  push_cast at hσ ⊢
  rw [mul_div_cancel₀ _ hσ]

/-- **C99, the cycle number**: on samples of a fractional power series with cycle number `c` within the search range and
degree at most two, the search returns a candidate not above `c` that predicts the latest sample exactly; if no smaller
candidate does so, it returns `c`, and the extrapolation is the value at `t0`. -/
theorem C99_found_partial (cfg : CycCfg) (rand : ι → ℂ) (t0 w : ℂ) (q : ι → ℂ[X]) (c ub : ℕ) (rs : List ℝ)
    (times : List ℂ) (samples derivs : List (ι → ℂ)) (old : ℕ) (hn : 2 ≤ cfg.n) (htop : 0 < cfg.top)
    (hlen : cfg.n ≤ times.length) (hb : OnBranch q c t0 w rs times samples derivs)
    (hdeg2 : ∀ j, (q j).natDegree ≤ 2) (hdeg : ∀ j, (q j).natDegree < 2 * (cfg.n - 1))
    (hub : boundOnCycle cfg rand samples = some ub) (hcub : c ≤ ub) :
    ∃ c', cycleNumber cfg rand t0 times samples derivs old = some c' ∧ 1 ≤ c' ∧ c' ≤ c ∧
      residual t0 (numPts cfg samples.length) times samples derivs c' = some 0 ∧
      ((∀ b, 1 ≤ b → b < c → residual t0 (numPts cfg samples.length) times samples derivs b ≠ some 0) →
        c' = c ∧ approxAtT0 cfg rand t0 times samples derivs old = some fun j => (q j).eval 0) := by
  have hls : samples.length = times.length := by rw [hb.samples_eq]; simp
  have hld := hb.derivs_len
  have hnp : cfg.n - 1 ≤ numPts cfg samples.length ∧ numPts cfg samples.length ≤ cfg.n := by
    unfold numPts; split_ifs <;> omega
  have hsz : sizesOk cfg times samples derivs := ⟨hls, by omega, by omega⟩
  have h0 := hb.residual (numPts cfg samples.length) (by omega) (by omega)
    (fun j => (hdeg j).trans_le (by omega)) hdeg2
  obtain ⟨st, hst⟩ := searchLoop_some (residual t0 (numPts cfg samples.length) times samples derivs)
    ((List.range ub).map (· + 1)) (cfg.top, old) (fun b hbm => residual_some _ _ _ _ _ _ (mem_cands.mp hbm).1 (by omega)
      (by omega) (by omega) (by omega))
  have hcyc : cycleNumber cfg rand t0 times samples derivs old = some st.2 := by
    unfold cycleNumber
    rw [if_pos hsz, hub, Option.bind_some, hst, Option.map_some]
  obtain ⟨ub', hub', hcase⟩ := C98_search_partial cfg rand t0 times samples derivs old st.2 hcyc
  obtain rfl : ub = ub' := by rw [hub] at hub'; exact Option.some.inj hub'
  dsimp only at hcase
  rcases hcase with ⟨-, hall⟩ | ⟨g1, g2, r, gr, gtop, gmin, gfirst⟩
  · obtain ⟨r, hr, hr2⟩ := hall c hb.c_pos hcub
    rw [h0] at hr
    rw [← Option.some.inj hr] at hr2
    linarith
  · obtain ⟨r', hr', hle⟩ := gmin c hb.c_pos hcub
    rw [h0] at hr'
    rw [← Option.some.inj hr'] at hle
    have hr0 : 0 ≤ r := by
      unfold residual at gr
      rw [Option.bind_eq_some_iff] at gr
      obtain ⟨p, -, gr⟩ := gr
      rw [Option.map_eq_some_iff] at gr
      obtain ⟨v, -, rfl⟩ := gr
      exact norm_nonneg _
    have hrz : r = 0 := le_antisymm hle hr0
    subst hrz
    have hle' : st.2 ≤ c := by
      by_contra hgt
      obtain ⟨r', hr', hlt⟩ := gfirst c hb.c_pos (by omega)
      rw [h0] at hr'
      rw [← Option.some.inj hr'] at hlt
      exact lt_irrefl _ hlt
    refine ⟨st.2, hcyc, g1, hle', gr, fun hno => ?_⟩
    have heq : st.2 = c := by
      by_contra hne
      exact hno st.2 g1 (by omega) gr
    refine ⟨heq, ?_⟩
    rw [heq] at hcyc
    exact C99_exact_partial cfg rand t0 w q c rs times samples derivs old (by omega) hb
      (fun j => (hdeg j).trans_le (by omega)) hdeg2 hcyc

/-! ## witnesses -/

/-- Samples of `s`, `s = t^(1/2)`, at the times 1, 1/4, 1/16. -/
noncomputable def tsE : List ℂ := [1, 1 / 4, 1 / 16]
noncomputable def xsE : List (Unit → ℂ) := [fun _ => 1, fun _ => 1 / 2, fun _ => 1 / 4]
noncomputable def dsE : List (Unit → ℂ) := [fun _ => 1 / 2, fun _ => 1, fun _ => 2]
noncomputable def cfgRoot : CycCfg := { n := 3, factor := 1 / 4, maxCycle := 1, amplification := 1, top := 1000 }

theorem sqrtE : ((1 / 4 : ℝ) ^ (1 / ((2 : ℕ) : ℝ))) = 1 / 2 := by
  rw [show (1 / 4 : ℝ) = (1 / 2) ^ (2 : ℕ) by norm_num, ← Real.rpow_natCast, ← Real.rpow_mul (by norm_num)]
  norm_num

theorem sqrtE' : ((1 / 16 : ℝ) ^ (1 / ((2 : ℕ) : ℝ))) = 1 / 4 := by
  rw [show (1 / 16 : ℝ) = (1 / 4) ^ (2 : ℕ) by norm_num, ← Real.rpow_natCast, ← Real.rpow_mul (by norm_num)]
  norm_num

theorem onBranchE : OnBranch (fun _ : Unit => (X : ℂ[X])) 2 0 1 [1, 1 / 4, 1 / 16] tsE xsE dsE := by
  have hd : ∀ r : ℝ, 0 < r → ∀ j : Unit, HasDerivAt (fun t => branch (fun _ : Unit => (X : ℂ[X])) 2 0 1 t j)
      (1 / 2 * (((r ^ (1 / ((2 : ℕ) : ℝ)) : ℝ) : ℂ) / r)) (r : ℂ) := by
    intro r hr j
    have h1 := (hasDerivAt_id (r : ℂ)).cpow_const (c := 1 / 2) (Or.inl (by simpa using hr))
    have e : (r : ℂ) ^ ((1 / 2 : ℂ) - 1) = (((r ^ (1 / ((2 : ℕ) : ℝ)) : ℝ) : ℂ) / r) := by
      rw [Complex.cpow_sub _ _ (by exact_mod_cast hr.ne'), Complex.cpow_one, Complex.ofReal_cpow hr.le]
      push_cast; rfl
    simp only [id_eq, e, mul_one] at h1
    refine h1.congr_of_eventuallyEq (Filter.Eventually.of_forall fun t => ?_)
    simp [branch]
  refine ⟨by norm_num, one_ne_zero, ?_, ?_, ?_, ?_, rfl, ?_⟩
  · intro r hr; simp at hr; rcases hr with rfl | rfl | rfl <;> norm_num
  · norm_num
  · simp [tsE]
  · have h1 : branch (fun _ : Unit => (X : ℂ[X])) 2 0 1 1 = fun _ => 1 := by funext; simp [branch]
    have h2 : branch (fun _ : Unit => (X : ℂ[X])) 2 0 1 (1 / 4) = fun _ => 1 / 2 := by
      funext
      have := ray_root 0 1 one_ne_zero (1 / 4) (by norm_num) 2
      rw [sqrtE] at this
      simp only [branch, eval_X]
      convert this using 2 <;> norm_num
    have h3 : branch (fun _ : Unit => (X : ℂ[X])) 2 0 1 (1 / 16) = fun _ => 1 / 4 := by
      funext
      have := ray_root 0 1 one_ne_zero (1 / 16) (by norm_num) 2
      rw [sqrtE'] at this
      simp only [branch, eval_X]
      convert this using 2 <;> norm_num
    simp only [tsE, xsE, List.map_cons, List.map_nil, h1, h2, h3]
  · intro k t d ht hdk j
    have hk : k < 3 := by
      by_contra hk
      rw [List.getElem?_eq_none (by simp [tsE]; omega)] at ht
      cases ht
    interval_cases k
    · obtain rfl : 1 = t := Option.some.inj ht
      obtain rfl : (fun _ => 1 / 2) = d := Option.some.inj hdk
      have := hd 1 one_pos j
      simpa using this
    · obtain rfl : 1 / 4 = t := Option.some.inj ht
      obtain rfl : (fun _ => 1) = d := Option.some.inj hdk
      have := hd (1 / 4) (by norm_num) j
      rw [sqrtE] at this
      convert this using 1 <;> norm_num
    · obtain rfl : 1 / 16 = t := Option.some.inj ht
      obtain rfl : (fun _ => 2) = d := Option.some.inj hdk
      have := hd (1 / 16) (by norm_num) j
      rw [sqrtE'] at this
      convert this using 1 <;> norm_num

/-- The bound on the example: 2, above `max_cycle_number = 1`. -/
theorem boundE : boundOnCycle cfgRoot (fun _ : Unit => 1) xsE = some 2 := by
  have h1 : randSum (fun _ : Unit => 1) (fun _ => 1) (fun _ => 1 / 2) = -1 / 2 := by simp [randSum]; norm_num
  have h2 : randSum (fun _ : Unit => 1) (fun _ => 1 / 2) (fun _ => 1 / 4) = -1 / 4 := by simp [randSum]; norm_num
  obtain ⟨ub, hub, -, he⟩ := C98_range cfgRoot (fun _ : Unit => 1) (fun _ => 1) (fun _ => 1 / 2) (fun _ => 1 / 4) [] 2
    (by norm_num) (by norm_num [cfgRoot]) (by norm_num [cfgRoot]) (by norm_num [cfgRoot]) (by rw [h1]; norm_num) (by
      rw [h1, h2, show cfgRoot.factor = 1 / 4 from rfl, sqrtE]
      norm_num)
  rw [show ([] ++ [fun _ : Unit => (1 : ℂ), fun _ => 1 / 2, fun _ => 1 / 4] : List (Unit → ℂ)) = xsE from rfl] at hub
  rw [hub, he]
  norm_num [cfgRoot]

/-- The candidate 1 does not predict the latest sample. -/
theorem residualE : residual 0 (numPts cfgRoot xsE.length) tsE xsE dsE 1 ≠ some 0 := by
  intro h
  have hn : numPts cfgRoot xsE.length = 2 := by norm_num [numPts, cfgRoot, xsE]
  rw [hn] at h
  unfold residual toSPlane at h
  simp [tsE, dsE, xsE, hermite, hermiteCore, hornerLoop, table, node] at h
  have h2 := congrFun (sub_eq_zero.mp h) ()
  simp at h2
  norm_num at h2

/-- **C98 fails**: `max_cycle_number` is not a maximum. With the value 1 the search returns 2. -/
theorem C98_refuted : ¬ C98_full := by
  intro H
  obtain ⟨c', h1, h2, h3, h4, h5⟩ := C99_found_partial cfgRoot (fun _ : Unit => 1) 0 1 (fun _ : Unit => (X : ℂ[X])) 2 2
    [1, 1 / 4, 1 / 16] tsE xsE dsE 1 (by norm_num [cfgRoot]) (by norm_num [cfgRoot]) (by norm_num [cfgRoot, tsE]) onBranchE
    (by simp) (by simp [cfgRoot]) boundE le_rfl
  have hc := (h5 (fun b hb hb2 => by
    obtain rfl : b = 1 := by omega
    exact residualE)).1
  have := (H Unit cfgRoot (fun _ => 1) 0 tsE xsE dsE 1 c' (by norm_num [cfgRoot]) le_rfl (by norm_num [cfgRoot]) h1).2
  rw [hc] at this
  norm_num [cfgRoot] at this

/-- Witness for `C98_search_partial`, `C99_found_partial`, `C99_exact_partial`: on the samples of `t^(1/2)` the cycle number 2 is
found and the extrapolation is 0. -/
example : cycleNumber cfgRoot (fun _ : Unit => 1) 0 tsE xsE dsE 1 = some 2 ∧
    approxAtT0 cfgRoot (fun _ : Unit => 1) 0 tsE xsE dsE 1 = some fun _ => 0 := by
  obtain ⟨c', h1, h2, h3, h4, h5⟩ := C99_found_partial cfgRoot (fun _ : Unit => 1) 0 1 (fun _ : Unit => (X : ℂ[X])) 2 2
    [1, 1 / 4, 1 / 16] tsE xsE dsE 1 (by norm_num [cfgRoot]) (by norm_num [cfgRoot]) (by norm_num [cfgRoot, tsE]) onBranchE
    (by simp) (by simp [cfgRoot]) boundE le_rfl
  obtain ⟨rfl, h6⟩ := h5 (fun b hb hb2 => by
    obtain rfl : b = 1 := by omega
    exact residualE)
  exact ⟨h1, by simpa using h6⟩

/-! ### C99 fails for cubics -/

noncomputable def tsQ : List ℂ := [1, 1 / 2, 1 / 4]
noncomputable def xsQ : List (Unit → ℂ) := [fun _ => 1, fun _ => 1 / 8, fun _ => 1 / 64]
noncomputable def dsQ : List (Unit → ℂ) := [fun _ => 3, fun _ => 3 / 4, fun _ => 3 / 16]
noncomputable def cfgCub : CycCfg := { n := 3, factor := 1 / 2, maxCycle := 6, amplification := 5, top := 1000 }

theorem onBranchQ : OnBranch (fun _ : Unit => (X ^ 3 : ℂ[X])) 1 0 1 [1, 1 / 2, 1 / 4] tsQ xsQ dsQ := by
  have hb : ∀ t : ℂ, branch (fun _ : Unit => (X ^ 3 : ℂ[X])) 1 0 1 t = fun _ => t ^ 3 := by
    intro t; funext; simp [branch]
  refine ⟨by norm_num, one_ne_zero, ?_, ?_, ?_, ?_, rfl, ?_⟩
  · intro r hr; simp at hr; rcases hr with rfl | rfl | rfl <;> norm_num
  · norm_num
  · simp [tsQ]
  · simp only [tsQ, xsQ, List.map_cons, List.map_nil, hb]
    norm_num
  · intro k t d ht hdk j
    have hd : HasDerivAt (fun t => branch (fun _ : Unit => (X ^ 3 : ℂ[X])) 1 0 1 t j) (3 * t ^ 2) t := by
      simp only [hb]
      simpa using hasDerivAt_pow 3 t
    have hk : k < 3 := by
      by_contra hk
      rw [List.getElem?_eq_none (by simp [tsQ]; omega)] at ht
      cases ht
    interval_cases k
    · obtain rfl : 1 = t := Option.some.inj ht
      obtain rfl : (fun _ => 3) = d := Option.some.inj hdk
      simpa using hd
    · obtain rfl : 1 / 2 = t := Option.some.inj ht
      obtain rfl : (fun _ => 3 / 4) = d := Option.some.inj hdk
      convert hd using 1; norm_num
    · obtain rfl : 1 / 4 = t := Option.some.inj ht
      obtain rfl : (fun _ => 3 / 16) = d := Option.some.inj hdk
      convert hd using 1; norm_num

theorem boundQ : boundOnCycle cfgCub (fun _ : Unit => 1) xsQ = some 1 := by
  have h1 : randSum (fun _ : Unit => 1) (fun _ => 1) (fun _ => 1 / 8) = -7 / 8 := by simp [randSum]; norm_num
  have h2 : randSum (fun _ : Unit => 1) (fun _ => 1 / 8) (fun _ => 1 / 64) = -7 / 64 := by simp [randSum]; norm_num
  show some (boundFrom cfgCub (randSum _ _ _) (randSum _ _ _)) = some 1
  rw [h1, h2]
  unfold boundFrom
  have e : ‖(-7 / 64 : ℂ) / (-7 / 8)‖ = (1 / 2 : ℝ) ^ 3 := by norm_num
  have hl : Real.log (1 / 2) ≠ 0 := (Real.log_neg (by norm_num) (by norm_num)).ne
  have e2 : Real.log cfgCub.factor / Real.log ‖(-7 / 64 : ℂ) / (-7 / 8)‖ = 1 / 3 := by
    rw [e, Real.log_pow, show cfgCub.factor = 1 / 2 from rfl]
    push_cast
    field_simp
  dsimp only
  rw [e2, if_neg (by norm_num), if_pos (by norm_num)]

theorem cycleQ : cycleNumber cfgCub (fun _ : Unit => 1) 0 tsQ xsQ dsQ 1 = some 1 := by
  have hsz : sizesOk cfgCub tsQ xsQ dsQ := by simp [sizesOk, cfgCub, tsQ, xsQ, dsQ]
  have hn : numPts cfgCub xsQ.length = 2 := by norm_num [numPts, cfgCub, xsQ]
  obtain ⟨r, hr⟩ := residual_some 0 2 tsQ xsQ dsQ 1 le_rfl (by norm_num) (by simp [tsQ]) (by simp [xsQ]) (by simp [dsQ])
  unfold cycleNumber
  rw [if_pos hsz, boundQ, Option.bind_some, hn]
  show ((searchLoop (residual 0 2 tsQ xsQ dsQ) [1] (cfgCub.top, 1)).map (·.2)) = some 1
  rw [searchLoop, hr]
  simp only [searchLoop, Option.map_some]
  split_ifs <;> rfl

/-- **C99 fails**: for three samples of `t^3` at 1, 1/2, 1/4 (cycle number 1, found) the extrapolation to 0 is not 0. -/
theorem C99_refuted : ¬ C99_full := by
  intro H
  have h := H Unit cfgCub (fun _ => 1) 0 1 (fun _ => X ^ 3) 1 [1, 1 / 2, 1 / 4] tsQ xsQ dsQ 1 (by norm_num [cfgCub]) onBranchQ
    (by simp [cfgCub]) cycleQ
  unfold approxAtT0 at h
  rw [cycleQ, Option.bind_some] at h
  unfold toSPlane at h
  simp [cfgCub, tsQ, dsQ, xsQ, hermite, hermiteCore, hornerLoop, table, node] at h
  have h2 := congrFun h ()
  simp at h2
  norm_num at h2

end B2.Endgame
