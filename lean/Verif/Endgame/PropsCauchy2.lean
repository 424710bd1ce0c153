/-
Cauchy endgame: C51 (the mean recovers the limit), C52 (circles).
-/
import Verif.Endgame.PropsCauchy
import Mathlib.RingTheory.RootsOfUnity.Complex
import Mathlib.Algebra.Polynomial.Eval.Degree
import Mathlib.Algebra.Field.GeomSum
import Mathlib.Algebra.BigOperators.Fin

set_option linter.unusedSimpArgs false

namespace B2.Endgame
open B2.Track (Code)
open Polynomial

variable {X : Type}

/-! ### C52: the circle -/

/-- **C52, times**: the `ii`-th time of a circle is the starting time turned about the target by `ii + 1` of `n` equal
parts of a full turn; the last is the starting time. -/
theorem C52_time (n : ℕ) (start target : ℂ) (ii : ℕ) (h : ii < n) :
    circleTime n start target ii =
      target + (start - target) * Complex.exp (2 * Real.pi * Complex.I * ((ii + 1 : ℕ) / n)) := by
  have hn : (n : ℂ) ≠ 0 := by exact_mod_cast (by omega : n ≠ 0)
  unfold circleTime
  split_ifs with hi
  · have : ((ii + 1 : ℕ) : ℂ) = n := by rw [hi]; congr 1; omega
    rw [this, div_self hn, mul_one, Complex.exp_two_pi_mul_I]
    ring
  · unfold polar
    rw [Real.arccos_neg_one]
    have h1 := Complex.norm_mul_exp_arg_mul_I (start - target)
    have h2 : (((((ii : ℝ) + 1) * 2 * Real.pi / n + Complex.arg (start - target) : ℝ) : ℂ) * Complex.I) =
        Complex.arg (start - target) * Complex.I + 2 * Real.pi * Complex.I * ((ii + 1 : ℕ) / n) := by
      push_cast
      ring
    rw [h2, Complex.exp_add, ← mul_assoc, h1]
    ring

theorem norm_exp_turn (a b : ℕ) : ‖Complex.exp (2 * Real.pi * Complex.I * ((a : ℂ) / b))‖ = 1 := by
  have : (2 * (Real.pi : ℂ) * Complex.I * ((a : ℂ) / b)) = ((2 * Real.pi * (a / b) : ℝ) : ℂ) * Complex.I := by
    push_cast; ring
  rw [this, Complex.norm_exp_ofReal_mul_I]

/-- **C52, circle**: a successful `CircleTrack` from whole loops appends exactly `n` times: equally spaced on the circle
about the target through the current time, all at its distance from the target, ending at the current time. -/
theorem C52_circle (E : CEnv X) (cfg : CCfg) (target : ℂ) (s s' : CSt X) (hn : 3 ≤ cfg.n) (hl : CLoops cfg.n s)
    (h : circleTrack E cfg target s = .done .success s') :
    ∃ t l, s.cT.getLast? = some t ∧ s'.cT = s.cT ++ l ∧ l.length = cfg.n ∧ s'.cX.length = s.cX.length + cfg.n ∧
      l.getLast? = some t ∧ (∀ u ∈ l, ‖u - target‖ = ‖t - target‖) ∧
      ∀ i, i < cfg.n →
        l[i]? = some (target + (t - target) * Complex.exp (2 * Real.pi * Complex.I * ((i + 1 : ℕ) / cfg.n))) := by
  obtain ⟨c, s1, t, e, h1, -, -, -, h5, h6, -⟩ := circleTrack_spec E cfg target s hn hl
  rw [h] at e
  cases e
  obtain ⟨h7, h8⟩ := h6 rfl
  have hget : ∀ i, i < cfg.n → ((List.range cfg.n).map (circleTime cfg.n t target))[i]? =
      some (target + (t - target) * Complex.exp (2 * Real.pi * Complex.I * ((i + 1 : ℕ) / cfg.n))) := by
    intro i hi
    rw [List.getElem?_map, List.getElem?_range hi, Option.map_some, C52_time _ _ _ _ hi]
  refine ⟨t, _, h5, h8, by simp, ?_, ?_, ?_, hget⟩
  · rw [h7.lenX, hl.lenX, h1]; ring
  · rw [List.getLast?_eq_getElem?, List.length_map, List.length_range, List.getElem?_map,
      List.getElem?_range (by omega), Option.map_some]
    simp [circleTime]
  · intro u hu
    rw [List.mem_map] at hu
    obtain ⟨i, hi, rfl⟩ := hu
    rw [C52_time _ _ _ _ (List.mem_range.1 hi), add_sub_cancel_left, norm_mul, norm_exp_turn, mul_one]

/-! ### C52: the number of loops -/

/-- **C52, full statement about loops**: when the loops close, their number is at most the configured maximum. -/
def C52_loops_full : Prop :=
  ∀ (X : Type) (E : CEnv X) (cfg : CCfg) (target : ℂ) (s s' : CSt X) (fuel : ℕ), 3 ≤ cfg.n → PSOk s →
    (initialLoops E cfg target fuel s = .done .success s' → s'.cyc ≤ cfg.failsafe) ∧
    (cauchySamples E cfg target s = .done .success s' → s'.cyc ≤ cfg.failsafe)

/-- **C52, loops, partial**: later loops respect the maximum; the initial loops may exceed it by one.  In both cases
success means that the first and the last sample are closer than the tracking tolerance and that the samples form that
many whole loops.  Missing: the bound for the initial loops, where it is false. -/
theorem C52_loops_partial (E : CEnv X) (cfg : CCfg) (target : ℂ) (s s' : CSt X) (fuel : ℕ) (hn : 3 ≤ cfg.n)
    (hs : PSOk s) :
    (initialLoops E cfg target fuel s = .done .success s' →
      1 ≤ s'.cyc ∧ s'.cyc ≤ cfg.failsafe + 1 ∧ s'.cX.length = s'.cyc * cfg.n + 1) ∧
    (cauchySamples E cfg target s = .done .success s' →
      1 ≤ s'.cyc ∧ s'.cyc ≤ cfg.failsafe ∧ s'.cX.length = s'.cyc * cfg.n + 1 ∧
        ∃ a b, s'.cX.head? = some a ∧ s'.cX.getLast? = some b ∧ below cfg.trackTol (E.dist a b)) := by
  constructor
  · intro h
    rcases initialLoops_spec E cfg target hn fuel s hs with ⟨s1, j, e, -⟩ | ⟨s1, j, e, -, -, -, h1, h2, h3⟩ |
      ⟨c, s1, e, hf⟩ <;> rw [h] at e <;> cases e
    · exact ⟨h2, h3, h1.lenX⟩
    · exact absurd rfl hf.1
  · intro h
    obtain ⟨c, s1, e, -, -, -, h1, -⟩ := samplesLoop_spec E cfg target hn _ (clearAndSeed_loops s hs cfg.n)
    unfold cauchySamples at h
    rw [h] at e
    cases e
    obtain ⟨h2, h3, h4, h5⟩ := h1 rfl
    exact ⟨by omega, h4, h2.lenX, h5⟩

/-- Samples count the steps taken; a loop counts as closed when exactly `3 * (F + 1)` steps lie between its ends. -/
noncomputable def stepEnv (F : ℕ) : CEnv ℕ where
  track := fun _ _ _ x => (.success, x + 1)
  refine := fun _ x _ => (.success, x)
  approx := fun _ _ _ => 0
  dist := fun a b => some (if b = a + 3 * (F + 1) then 0 else 1)
  dehomNorm := fun _ => 1
  polish := fun _ x _ => x
  mean := fun _ => 0
  cOverK := fun _ _ _ _ => 1
  lowRatio := fun _ _ => false
  sampNorm := fun _ => 0

/-- The default settings with `F` as the maximum number of loops. -/
noncomputable def ccfgL (F : ℕ) : CCfg :=
  { n := 3, factor := 1 / 2, minTrack := 1 / 10 ^ 100, finalTol := 1 / 10 ^ 11, level := 0, maxNorm := 10 ^ 4,
    failsafe := F, needed := 3, cycleCutoff := 1 / 10 ^ 8, ratioCutoff := 1 / 10 ^ 14, maxRatio := 1 / 2,
    trackTol := 1 / 10 ^ 5 }

theorem stepEnv_circle (F : ℕ) (s : CSt ℕ) (t : ℂ) (x a : ℕ) (hT : s.cT.getLast? = some t)
    (hX : s.cX.getLast? = some x) (ha : s.cX.head? = some a) :
    ∃ s', circleTrack (stepEnv F) (ccfgL F) 0 s = .done .success s' ∧ s'.cyc = s.cyc + 1 ∧
      s'.cT.getLast? = some t ∧ s'.cX.getLast? = some (x + 3) ∧ s'.cX.head? = some a := by
  unfold circleTrack
  rw [if_neg (by simp [ccfgL]), hT, hX]
  refine ⟨{ s with
      cT := s.cT ++ [circleTime 3 t 0 0] ++ [circleTime 3 t 0 1] ++ [circleTime 3 t 0 2],
      cX := s.cX ++ [x + 1] ++ [x + 1 + 1] ++ [x + 1 + 1 + 1], k := s.k + 1 + 1 + 1, cyc := s.cyc + 1 },
    ?_, rfl, ?_, ?_, ?_⟩
  · dsimp only
    congr 1
  · simp [ccfgL, circleLoop, stepEnv, circleTime]
  · simp [ccfgL, circleLoop, stepEnv]
  · simp [ccfgL, circleLoop, stepEnv, List.head?_append, ha]

theorem stepEnv_check (F : ℕ) (s : CSt ℕ) (t : ℂ) (x a : ℕ) (hT : s.cT.getLast? = some t)
    (hX : s.cX.getLast? = some x) (ha : s.cX.head? = some a) :
    (checkClosed (stepEnv F) (ccfgL F) s).1 = decide (x = a + 3 * (F + 1)) ∧
    (checkClosed (stepEnv F) (ccfgL F) s).2.cyc = s.cyc ∧
    (checkClosed (stepEnv F) (ccfgL F) s).2.cX = s.cX ∧ (checkClosed (stepEnv F) (ccfgL F) s).2.cT = s.cT := by
  unfold checkClosed
  match hcT : s.cT, hcX : s.cX with
  | [], _ => rw [hcT] at hT; cases hT
  | _ :: _, [] => rw [hcX] at hX; cases hX
  | u :: ts, y :: xs =>
    have hya : y = a := by rw [hcX] at ha; simpa using ha
    have hl : (y :: xs).getLast (by simp) = x := by
      rw [hcX, List.getLast?_eq_some_getLast (by simp)] at hX; simpa using hX
    dsimp only
    rw [hl, hya]
    have hb : below (ccfgL F).trackTol ((stepEnv F).dist a x) ↔ x = a + 3 * (F + 1) := by
      constructor
      · rintro ⟨r, h1, h2⟩
        by_contra hne
        simp only [stepEnv, hne, if_false, Option.some.injEq] at h1
        rw [← h1] at h2
        norm_num [ccfgL] at h2
      · intro h
        refine ⟨0, by simp [stepEnv, h], by norm_num [ccfgL]⟩
    by_cases hc : x = a + 3 * (F + 1)
    · rw [if_pos (hb.2 hc)]
      exact ⟨by simp [hc], rfl, by rw [hcX, hya], hcT⟩
    · rw [if_neg (fun h => hc (hb.1 h))]
      have hpol : ∀ k x t, (stepEnv F).polish k x t = x := fun _ _ _ => rfl
      have hlast : (a :: xs).getLast (by simp) = x := by rw [← hl]; congr 1; rw [hya]
      have hlist : (a :: xs).dropLast ++ [x] = a :: xs := by
        conv_rhs => rw [← List.dropLast_append_getLast (l := a :: xs) (by simp), hlast]
      have hxs : xs ≠ [] ∨ xs = [] := by tauto
      refine ⟨?_, rfl, ?_, rfl⟩
      · simp only [hpol, hlast, hlist, List.head_cons]
        rw [decide_eq_decide]
        exact hb
      · simp only [hpol, hlast, hlist]

theorem stepEnv_close (F a : ℕ) (t : ℂ) : ∀ m (s : CSt ℕ), F + 1 - s.cyc = m → s.cyc ≤ F + 1 →
    s.cT.getLast? = some t → s.cX.getLast? = some (a + 3 * s.cyc) → s.cX.head? = some a →
    ∃ s', closeLoop (stepEnv F) (ccfgL F) 0 s = .done .success s' ∧ s'.cyc = F + 1 := by
  intro m
  induction m with
  | zero =>
    intro s hm hc hT hX ha
    obtain ⟨h1, h2, -, -⟩ := stepEnv_check F s t _ a hT hX ha
    have hcy : s.cyc = F + 1 := by omega
    refine ⟨(checkClosed (stepEnv F) (ccfgL F) s).2, ?_, by rw [h2, hcy]⟩
    rw [closeLoop]
    dsimp only
    rw [if_pos (by rw [h1, hcy]; simp)]
  | succ m ih =>
    intro s hm hc hT hX ha
    obtain ⟨h1, h2, h3, h4⟩ := stepEnv_check F s t _ a hT hX ha
    obtain ⟨s1, e1, g1, g2, g3, g4⟩ := stepEnv_circle F { (checkClosed (stepEnv F) (ccfgL F) s).2 with cyc := s.cyc } t
      (a + 3 * s.cyc) a (by rw [← hT, ← h4]) (by rw [← hX, ← h3]) (by rw [← ha, ← h3])
    obtain ⟨s2, e2, k1⟩ := ih { s1 with cyc := s.cyc + 1 } (by simp only; omega) (by simp only; omega) g2
      (by simp only; rw [g3]; congr 1) g4
    refine ⟨s2, ?_, k1⟩
    rw [closeLoop]
    dsimp only
    rw [if_neg (by rw [h1]; simp; omega), if_neg (by simp only [ccfgL]; omega), e1]
    exact e2

/-- **C52 fails for the initial loops**: for every configured maximum `F` (250 by default) there are executions in which
the initial loops close after `F + 1` turns and this is reported as a success. -/
theorem C52_loops_refuted : ¬ C52_loops_full ∧
    ∀ F, ∃ s', initialLoops (stepEnv F) (ccfgL F) 0 1
      { psT := [1, 1 / 2, 1 / 4], psX := [0, 1, 2], cT := [], cX := [], cyc := 0, latest := 0, prev := 0,
        normPrev := none, normLatest := none, k := 0, hist := [] } = .done .success s' ∧ s'.cyc = F + 1 := by
  have key : ∀ F, ∃ s', initialLoops (stepEnv F) (ccfgL F) 0 1
      { psT := [1, 1 / 2, 1 / 4], psX := [0, 1, 2], cT := [], cX := [], cyc := 0, latest := 0, prev := 0,
        normPrev := none, normLatest := none, k := 0, hist := [] } = .done .success s' ∧ s'.cyc = F + 1 := by
    intro F
    obtain ⟨s1, e1, g1, g2, g3, g4⟩ := stepEnv_circle F (clearAndSeed
      { psT := [1, 1 / 2, 1 / 4], psX := [0, 1, 2], cT := [], cX := [], cyc := 0, latest := 0, prev := 0,
        normPrev := none, normLatest := none, k := 0, hist := [] }) (1 / 4) 2 2 rfl rfl rfl
    have hc : s1.cyc = 1 := g1
    obtain ⟨s2, e2, k1⟩ := stepEnv_close F 2 (1 / 4) _ s1 rfl (by omega) g2 (by rw [g3, hc]) g4
    refine ⟨s2, ?_, k1⟩
    rw [initialLoops, e1, andThen_ok, if_pos (flat_of_zero _ _ _ (fun _ => rfl) (by norm_num [ccfgL]) _)]
    exact e2
  refine ⟨fun h => ?_, key⟩
  obtain ⟨s', e, hc⟩ := key 250
  have := (h ℕ (stepEnv 250) (ccfgL 250) 0 _ s' 1 (by simp [ccfgL]) ⟨rfl, by simp⟩).1 e
  rw [hc] at this
  simp [ccfgL] at this

/-- One sample, at time `1/4`. -/
noncomputable def seed4 : CSt ℕ :=
  { psT := [], psX := [], cT := [1 / 4], cX := [2], cyc := 0, latest := 0, prev := 0, normPrev := none,
    normLatest := none, k := 0, hist := [] }

/-- A circle of three steps about zero through `1/4` satisfying the hypotheses of `C52_circle`. -/
example : (∃ s', circleTrack (stepEnv 250) (ccfgL 250) 0 seed4 = .done .success s') ∧ CLoops 3 seed4 := by
  obtain ⟨s1, e1, -⟩ := stepEnv_circle 250 seed4 (1 / 4) 2 2 rfl rfl rfl
  exact ⟨⟨s1, e1⟩, rfl, rfl⟩

/-! ### C51 -/

/-- The mean of a list of vectors: cauchy.hpp lines 949-953. -/
noncomputable def meanV {ι : Type} (l : List (ι → ℂ)) : ι → ℂ :=
  fun j => (l.map fun v => v j).sum / l.length

/-- The mean of a polynomial over `m` equally spaced points of a circle about zero is its value at zero, when its degree
is below `m`. -/
theorem mean_roots (p : ℂ[X]) (m : ℕ) (hm : p.natDegree < m) (s0 : ℂ) :
    (∑ i ∈ Finset.range m, p.eval (s0 * Complex.exp (2 * Real.pi * Complex.I / m) ^ i)) / m = p.eval 0 := by
  have hm0 : m ≠ 0 := by omega
  have hmc : (m : ℂ) ≠ 0 := by exact_mod_cast hm0
  have hprim := Complex.isPrimitiveRoot_exp m hm0
  set ζ := Complex.exp (2 * Real.pi * Complex.I / m) with hζ
  have h1 : ∀ i ∈ Finset.range m, p.eval (s0 * ζ ^ i) =
      ∑ k ∈ Finset.range m, p.coeff k * s0 ^ k * (ζ ^ k) ^ i := by
    intro i _
    rw [Polynomial.eval_eq_sum_range' hm]
    refine Finset.sum_congr rfl fun k _ => ?_
    rw [mul_pow, ← pow_mul, ← pow_mul, mul_comm i k]
    ring
  rw [Finset.sum_congr rfl h1, Finset.sum_comm]
  have h2 : ∀ k ∈ Finset.range m, (∑ i ∈ Finset.range m, p.coeff k * s0 ^ k * (ζ ^ k) ^ i) =
      if k = 0 then p.coeff 0 * m else 0 := by
    intro k hk
    rw [← Finset.mul_sum]
    split_ifs with h0
    · subst h0; simp
    · have hne : ζ ^ k ≠ 1 := hprim.pow_ne_one_of_pos_of_lt h0 (Finset.mem_range.1 hk)
      rw [geom_sum_eq hne, ← pow_mul, mul_comm k m, pow_mul, hprim.pow_eq_one]
      simp
  rw [Finset.sum_congr rfl h2, Finset.sum_ite_eq' (Finset.range m) 0]
  rw [if_pos (Finset.mem_range.2 (by omega)), mul_div_assoc, div_self hmc, mul_one, Polynomial.coeff_zero_eq_eval_zero]

/-- `s` turned `i` times by `1/m` of a full turn. -/
noncomputable def turn (m : ℕ) (s : ℂ) (i : ℕ) : ℂ := s * Complex.exp (2 * Real.pi * Complex.I / m) ^ i

theorem turn_turn (m : ℕ) (s : ℂ) (i j : ℕ) : turn m (turn m s i) j = turn m s (i + j) := by
  unfold turn; rw [pow_add]; ring

theorem turn_full (m : ℕ) (hm : m ≠ 0) (s : ℂ) : turn m s m = s := by
  unfold turn; rw [(Complex.isPrimitiveRoot_exp m hm).pow_eq_one, mul_one]

/-- The tracker and the refiner are exact on the path which, in terms of the local parameter `s` with
`t = target + s ^ c`, is the polynomial vector `x(s)`: tracking to the time reached by turning `s` by `1/(c n)` of a full
turn gives the point reached by that turn, and points on the path are not changed by refinement. -/
structure Ideal {ι : Type} (E : CEnv (ι → ℂ)) (c n : ℕ) (target : ℂ) (x : ι → ℂ[X]) : Prop where
  track : ∀ k (s : ℂ), E.track k (target + s ^ c) (target + turn (c * n) s 1 ^ c) (fun j => (x j).eval s) =
    (.success, fun j => (x j).eval (turn (c * n) s 1))
  refine : ∀ k (s : ℂ), (E.refine k (fun j => (x j).eval s) (target + s ^ c)).2 = fun j => (x j).eval s

/-- `m` circles in a row. -/
noncomputable def circles (E : CEnv X) (cfg : CCfg) (target : ℂ) : ℕ → CSt X → Res (CSt X)
  | 0, s => .done .success s
  | m + 1, s => (circles E cfg target m s).andThen (circleTrack E cfg target)

theorem circleTime_turn (c n : ℕ) (hc : 1 ≤ c) (target s : ℂ) (ii : ℕ) (h : ii < n) :
    circleTime n (target + s ^ c) target ii = target + turn (c * n) s (ii + 1) ^ c := by
  have hn : (n : ℂ) ≠ 0 := by exact_mod_cast (by omega : n ≠ 0)
  have hc' : (c : ℂ) ≠ 0 := by exact_mod_cast (by omega : c ≠ 0)
  rw [C52_time _ _ _ _ h, add_sub_cancel_left]
  unfold turn
  rw [mul_pow, ← Complex.exp_nat_mul, ← Complex.exp_nat_mul]
  congr 3
  push_cast
  field_simp

theorem circleLoop_ideal {ι : Type} (E : CEnv (ι → ℂ)) (c n : ℕ) (hc : 1 ≤ c) (target : ℂ) (x : ι → ℂ[X])
    (hE : Ideal E c n target x) (s0 : ℂ) : ∀ rem ii k ts xs, ii + rem = n →
    circleLoop E n (target + s0 ^ c) target rem ii k ts xs (target + turn (c * n) s0 ii ^ c)
        (fun j => (x j).eval (turn (c * n) s0 ii)) =
      (.success, ts ++ (List.range' (ii + 1) rem).map (fun i => target + turn (c * n) s0 i ^ c),
        xs ++ (List.range' (ii + 1) rem).map (fun i => fun j => (x j).eval (turn (c * n) s0 i)), k + rem) := by
  intro rem
  induction rem with
  | zero => intro ii k ts xs h; simp [circleLoop]
  | succ rem ih =>
    intro ii k ts xs h
    rw [circleLoop]
    have h1 := hE.track k (turn (c * n) s0 ii)
    rw [turn_turn] at h1
    rw [circleTime_turn c n hc target s0 ii (by omega), h1]
    dsimp only
    rw [if_pos rfl, ih (ii + 1) _ _ _ (by omega)]
    simp [List.range'_succ, Nat.add_assoc, Nat.add_comm]
    omega

theorem circles_ideal {ι : Type} (E : CEnv (ι → ℂ)) (cfg : CCfg) (c : ℕ) (hc : 1 ≤ c) (hn : 3 ≤ cfg.n) (target : ℂ)
    (x : ι → ℂ[X]) (hE : Ideal E c cfg.n target x) (s0 : ℂ) (s : CSt (ι → ℂ)) (hT : s.cT = [target + s0 ^ c])
    (hX : s.cX = [fun j => (x j).eval s0]) (hcyc : s.cyc = 0) : ∀ m,
    ∃ s', circles E cfg target m s = .done .success s' ∧ s'.cyc = m ∧
      s'.cT = (List.range (m * cfg.n + 1)).map (fun i => target + turn (c * cfg.n) s0 i ^ c) ∧
      s'.cX = (List.range (m * cfg.n + 1)).map (fun i => fun j => (x j).eval (turn (c * cfg.n) s0 i)) := by
  intro m
  induction m with
  | zero => exact ⟨s, rfl, hcyc, by simp [hT, turn], by simp [hX, turn]⟩
  | succ m ih =>
    obtain ⟨s1, e1, g1, g2, g3⟩ := ih
    have hl := circleLoop_ideal E c cfg.n hc target x hE (turn (c * cfg.n) s0 (m * cfg.n)) cfg.n 0 s1.k s1.cT s1.cX
      (by omega)
    have ht0 : turn (c * cfg.n) (turn (c * cfg.n) s0 (m * cfg.n)) 0 = turn (c * cfg.n) s0 (m * cfg.n) := by
      rw [turn_turn, Nat.add_zero]
    rw [ht0] at hl
    have hmap : ∀ {β : Type} (f : ℂ → β), (List.range (m * cfg.n + 1)).map (fun i => f (turn (c * cfg.n) s0 i)) ++
        (List.range' (0 + 1) cfg.n).map
          (fun i => f (turn (c * cfg.n) (turn (c * cfg.n) s0 (m * cfg.n)) i)) =
        (List.range ((m + 1) * cfg.n + 1)).map (fun i => f (turn (c * cfg.n) s0 i)) := by
      intro β f
      have : (m + 1) * cfg.n + 1 = (m * cfg.n + 1) + cfg.n := by ring
      rw [this, List.range_add (n := m * cfg.n + 1), List.map_append, List.map_map, List.range'_eq_map_range,
        List.map_map]
      congr 1
      refine List.map_congr_left fun i _ => ?_
      simp only [Function.comp]
      rw [turn_turn]
      congr 2
      omega
    refine ⟨{ s1 with
      cT := (List.range ((m + 1) * cfg.n + 1)).map (fun i => target + turn (c * cfg.n) s0 i ^ c)
      cX := (List.range ((m + 1) * cfg.n + 1)).map (fun i => fun j => (x j).eval (turn (c * cfg.n) s0 i))
      k := s1.k + cfg.n, cyc := s1.cyc + 1 }, ?_, by simp only [g1], rfl, rfl⟩
    rw [circles, e1, andThen_ok]
    unfold circleTrack
    have hTl : s1.cT.getLast? = some (target + turn (c * cfg.n) s0 (m * cfg.n) ^ c) := by
      rw [g2, List.range_succ, List.map_append]; simp
    have hXl : s1.cX.getLast? = some (fun j => (x j).eval (turn (c * cfg.n) s0 (m * cfg.n))) := by
      rw [g3, List.range_succ, List.map_append]; simp
    rw [if_neg (by omega), hTl, hXl]
    dsimp only
    rw [hl, g2, g3]
    dsimp only
    rw [hmap (fun z => target + z ^ c), hmap (fun z => fun j => (x j).eval z)]

theorem refineAll_ideal {ι : Type} (E : CEnv (ι → ℂ)) (c n : ℕ) (target : ℂ) (x : ι → ℂ[X])
    (hE : Ideal E c n target x) (l : List ℂ) : ∀ k,
    (refineAll E.toEgEnv k (l.map fun s => target + s ^ c) (l.map fun s => fun j => (x j).eval s)).2 =
      l.map fun s => fun j => (x j).eval s := by
  induction l with
  | nil => intro k; rfl
  | cons a l ih =>
    intro k
    simp only [List.map_cons]
    rw [refineAll]
    dsimp only
    split_ifs
    · rw [hE.refine, ih]
    · rw [hE.refine]

/-- **C51**: let the path be `x(s)` at time `target + s ^ c`, `x` a vector of polynomials of degree below `c n`, followed
exactly by the tracker.  Then going `c` times around the target in `n` steps each closes the loop, and the approximation
computed from the samples is exactly the limit `x(0)`. -/
theorem C51 {ι : Type} (E : CEnv (ι → ℂ)) (cfg : CCfg) (c : ℕ) (hc : 1 ≤ c) (hn : 3 ≤ cfg.n) (target : ℂ)
    (x : ι → ℂ[X]) (hdeg : ∀ j, (x j).natDegree < c * cfg.n) (hE : Ideal E c cfg.n target x)
    (hmean : E.mean = meanV) (s0 : ℂ) (s : CSt (ι → ℂ)) (hT : s.cT = [target + s0 ^ c])
    (hX : s.cX = [fun j => (x j).eval s0]) (hcyc : s.cyc = 0) :
    ∃ s', circles E cfg target c s = .done .success s' ∧ s'.cyc = c ∧ s'.cX.head? = s'.cX.getLast? ∧
      ∃ s'', cauchyApprox E cfg s' = .done .success s'' ∧ s''.latest = fun j => (x j).eval 0 := by
  have hm0 : c * cfg.n ≠ 0 := by
    have : 0 < c * cfg.n := Nat.mul_pos (by omega) (by omega)
    omega
  obtain ⟨s', e, g1, g2, g3⟩ := circles_ideal E cfg c hc hn target x hE s0 s hT hX hcyc c
  refine ⟨s', e, g1, ?_, { s' with
      cX := (refineAll E.toEgEnv s'.k s'.cT s'.cX).2, k := (refineAll E.toEgEnv s'.k s'.cT s'.cX).1
      latest := E.mean ((refineAll E.toEgEnv s'.k s'.cT s'.cX).2.take (s'.cyc * cfg.n))
      hist := s'.hist ++ [E.mean ((refineAll E.toEgEnv s'.k s'.cT s'.cX).2.take (s'.cyc * cfg.n))] }, ?_, ?_⟩
  · rw [g3, List.range_succ, List.map_append]
    simp only [List.map_cons, List.map_nil, List.getLast?_append, List.getLast?_singleton, Option.some_or]
    rw [turn_full _ hm0]
    obtain ⟨q, hq⟩ : ∃ q, c * cfg.n = q + 1 := ⟨c * cfg.n - 1, by omega⟩
    rw [hq, List.range_succ_eq_map]
    simp [turn]
  · unfold cauchyApprox
    rw [if_neg (by rw [g1, g3]; simp)]
  · dsimp only
    have hr := refineAll_ideal E c cfg.n target x hE ((List.range (c * cfg.n + 1)).map (turn (c * cfg.n) s0)) s'.k
    rw [List.map_map, List.map_map] at hr
    have hr' : (refineAll E.toEgEnv s'.k s'.cT s'.cX).2 = (List.range (c * cfg.n + 1)).map
        (fun i => fun j => (x j).eval (turn (c * cfg.n) s0 i)) := by
      rw [g2, g3]; exact hr
    rw [hr', hmean, g1, ← List.map_take, List.take_range, Nat.min_eq_left (by omega)]
    funext j
    unfold meanV
    rw [List.map_map, List.length_map, List.length_range, ← mean_roots (x j) (c * cfg.n) (hdeg j) s0]
    congr 1

/-- A tracker exact on the path `x(s) = s` at time `s ^ 2`, that is on the square root: every sixth of a turn of `s`. -/
noncomputable def sqrtEnv : CEnv (Unit → ℂ) where
  track := fun _ _ _ x => (.success, fun j => x j * Complex.exp (2 * Real.pi * Complex.I / (2 * 3 : ℕ)))
  refine := fun _ x _ => (.success, x)
  approx := fun _ _ _ => fun _ => 0
  dist := fun a b => some ‖a () - b ()‖
  dehomNorm := fun x => ‖x ()‖
  polish := fun _ x _ => x
  mean := meanV
  cOverK := fun _ _ _ _ => 1
  lowRatio := fun _ _ => false
  sampNorm := fun x => ‖x ()‖

theorem sqrtEnv_ideal : Ideal sqrtEnv 2 3 0 (fun _ => Polynomial.X) where
  track := fun k s => by simp [sqrtEnv, turn]
  refine := fun k s => rfl

/-- Two turns around zero on the square root, three steps each: the mean of the six samples is zero. -/
example (s0 : ℂ) : ∃ s', circles sqrtEnv ccfgD 0 2
    { psT := [], psX := [], cT := [0 + s0 ^ 2], cX := [fun _ => s0], cyc := 0, latest := fun _ => 7, prev := fun _ => 7,
      normPrev := none, normLatest := none, k := 0, hist := [] } = .done .success s' ∧ s'.cyc = 2 ∧
    s'.cX.head? = s'.cX.getLast? ∧
    ∃ s'', cauchyApprox sqrtEnv ccfgD s' = .done .success s'' ∧ s''.latest = fun _ => 0 := by
  have := C51 sqrtEnv ccfgD 2 (by norm_num) (by simp [ccfgD]) 0 (fun _ => Polynomial.X) (by simp [ccfgD]) sqrtEnv_ideal rfl
    s0 { psT := [], psX := [], cT := [0 + s0 ^ 2], cX := [fun _ => s0], cyc := 0, latest := fun _ => 7,
         prev := fun _ => 7, normPrev := none, normLatest := none, k := 0, hist := [] } rfl (by simp) rfl
  simpa using this

/-- **C51, wrong number of samples**: the approximation is refused exactly when the number of samples is not the cycle
number times `n`, plus one. -/
theorem C51_size (E : CEnv X) (cfg : CCfg) (s : CSt X) :
    (∃ s', cauchyApprox E cfg s = .done .success s') ↔ s.cX.length = s.cyc * cfg.n + 1 := by
  unfold cauchyApprox
  split_ifs with h
  · simp [h]
  · simpa using h

end B2.Endgame
