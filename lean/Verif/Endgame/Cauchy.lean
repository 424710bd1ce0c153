/-
Model of the Cauchy endgame, /repo/core/include/bertini2/endgames/cauchy.hpp.

Simplifications, all recorded at the definitions: exact arithmetic; what the tracker, the refiner and the
`c/k` estimate (which uses a random vector) return is arbitrary and may depend on how many calls were made
before; precision changes, observer notifications and the dimension / precision checks at the start of
`RunImpl` are left out.
-/
import Verif.Endgame.PS
import Mathlib.Analysis.SpecialFunctions.Complex.Arg

namespace B2.Endgame
open B2.Track (Code)

/-- What the Cauchy endgame calls, besides the members of `EgEnv` (of which `approx` is not used): the point left
by `Tracker::Refine` (its code is ignored, cauchy.hpp lines 634-635), the mean of a list of samples (lines 949-953),
the estimate of `c/k` from the first three samples (`ComputeCOverK`, lines 481-506), whether the ratio of the smaller
to the larger of two estimates is below `minimum_for_c_over_k_stabilization` (lines 533-545; an arbitrary relation
here, so it covers estimates that are not numbers), and the infinity norm of a sample. -/
structure CEnv (X : Type) extends EgEnv X where
  polish : ℕ → X → ℂ → X
  mean : List X → X
  cOverK : ℕ → X → X → X → ℝ
  lowRatio : ℝ → ℝ → Bool
  sampNorm : X → ℝ

/-- `EndgameConfig`, `SecurityConfig`, `CauchyConfig` (config.hpp lines 96-135) and the tracking tolerance. -/
structure CCfg extends EgCfg where
  failsafe : ℕ
  needed : ℕ
  cycleCutoff : ℝ
  ratioCutoff : ℝ
  maxRatio : ℝ
  trackTol : ℝ

/-- Data members used by the run: `pseg_times_`, `pseg_samples_`, `cauchy_times_`, `cauchy_samples_`,
`cycle_number_`, `final_approximation_`, `previous_approximation_`, and the locals `norm_of_dehom_prev` and
`norm_of_dehom_latest` (`none` while uninitialised).  `k` counts oracle calls; `hist` is a ghost: all
approximations computed so far. -/
structure CSt (X : Type) where
  psT : List ℂ
  psX : List X
  cT : List ℂ
  cX : List X
  cyc : ℕ
  latest : X
  prev : X
  normPrev : Option ℝ
  normLatest : Option ℝ
  k : ℕ
  hist : List X

variable {X : Type}

/-- Continue after `Success`. -/
def Res.andThen {S : Type} (r : Res S) (f : S → Res S) : Res S :=
  match r with
  | .done .success s => f s
  | .done c s => .done c s
  | .more s => .more s
  | .bad => .bad

/-- `std::polar` / `bertini::polar`. -/
noncomputable def polar (r θ : ℝ) : ℂ := r * Complex.exp (θ * Complex.I)

/-- The `ii`-th next time on the circle, cauchy.hpp lines 406-414.  `acos(-1)` is `Real.arccos (-1)`. -/
noncomputable def circleTime (n : ℕ) (start target : ℂ) (ii : ℕ) : ℂ :=
  if ii = n - 1 then start
  else polar ‖start - target‖ (((ii : ℝ) + 1) * 2 * Real.arccos (-1) / n + Complex.arg (start - target)) + target

/-- The loop of `CircleTrack`, cauchy.hpp lines 385-445. -/
noncomputable def circleLoop (E : CEnv X) (n : ℕ) (start target : ℂ) :
    ℕ → ℕ → ℕ → List ℂ → List X → ℂ → X → Code × List ℂ × List X × ℕ
  | 0, _, k, ts, xs, _, _ => (.success, ts, xs, k)
  | rem + 1, ii, k, ts, xs, t, x =>
    let t' := circleTime n start target ii
    let r := E.track k t t' x
    if r.1 = .success then
      circleLoop E n start target rem (ii + 1) (k + 1) (ts ++ [t']) (xs ++ [r.2]) t' r.2
    else (r.1, ts, xs, k + 1)

/-- `CircleTrack`, cauchy.hpp lines 368-448, followed by `IncrementCycleNumber(1)`, which every caller does before
looking at the code (lines 754-755, 781-782, 988-989).  `.bad`: `ValidateConfigs` throws for fewer than three sample
points (lines 340-348), or `back()` of an empty container. -/
noncomputable def circleTrack (E : CEnv X) (cfg : CCfg) (target : ℂ) (s : CSt X) : Res (CSt X) :=
  if cfg.n < 3 then .bad
  else
    match s.cT.getLast?, s.cX.getLast? with
    | some t, some x =>
      let r := circleLoop E cfg.n t target cfg.n 0 s.k s.cT s.cX t x
      .done r.1 { s with cT := r.2.1, cX := r.2.2.1, k := r.2.2.2, cyc := s.cyc + 1 }
    | _, _ => .bad

/-- `CheckClosedLoop`, cauchy.hpp lines 616-643: compare first and last sample, otherwise refine both in place and
compare again.  On empty containers (`front()` is undefined behaviour; never happens) the model answers `false`. -/
noncomputable def checkClosed (E : CEnv X) (cfg : CCfg) (s : CSt X) : Bool × CSt X :=
  match s.cT, s.cX with
  | t :: ts, x :: xs =>
    if below cfg.trackTol (E.dist x ((x :: xs).getLast (by simp))) then (true, s)
    else
      let x' := E.polish s.k x t
      let l1 := x' :: xs
      let y' := E.polish (s.k + 1) (l1.getLast (by simp [l1])) ((t :: ts).getLast (by simp))
      let l2 := l1.dropLast ++ [y']
      let s' := { s with cX := l2, k := s.k + 2 }
      (decide (below cfg.trackTol (E.dist (l2.head (by simp [l2])) y')), s')
  | _, _ => (false, s)

/-- `RatioEGOperatingZoneTest`, cauchy.hpp lines 667-705.  `norm` of a complex number is the squared modulus. -/
noncomputable def zoneTest (E : CEnv X) (cfg : CCfg) (target : ℂ) (s : CSt X) : Prop :=
  (∃ t, s.cT.head? = some t ∧ ‖t - target‖ ^ 2 < cfg.ratioCutoff) ∨
  (let norms := (s.cX.take cfg.n).map E.sampNorm
   let mx := norms.foldl max 0
   let mn := norms.foldl min (10 ^ 300)
   ¬ (cfg.finalTol < mn ∧ cfg.finalTol < mx ∧ mn / mx < cfg.maxRatio ∧ cfg.finalTol < mx - mn))

/-- The next time used by `AdvanceTime`, cauchy.hpp line 1025. -/
noncomputable def nextTimeC (f : ℝ) (target t : ℂ) : ℂ := (target - t) * (f : ℂ) + t

/-- `AdvanceTime` with `RotateOntoPS`, cauchy.hpp lines 793-803, 1014-1044. -/
noncomputable def advanceC (E : CEnv X) (cfg : CCfg) (target : ℂ) (s : CSt X) : Res (CSt X) :=
  match s.psT.getLast?, s.psX.getLast? with
  | some t, some x =>
    let t' := nextTimeC cfg.factor target t
    if ‖t' - target‖ < cfg.minTrack then .done .minTrackTimeReached s
    else
      let r := E.track s.k t t' x
      if r.1 ≠ .success then .done r.1 { s with k := s.k + 1 }
      else .done .success { s with psT := s.psT.tail ++ [t'], psX := s.psX.tail ++ [r.2], k := s.k + 1 }
  | _, _ => .bad

/-- `ClearAndSeedCauchyData`, cauchy.hpp lines 806-817, with `CycleNumber(0)`.  On empty containers (undefined
behaviour; never happens) the Cauchy data is left empty. -/
def clearAndSeed (s : CSt X) : CSt X :=
  { s with cT := s.psT.getLast?.toList, cX := s.psX.getLast?.toList, cyc := 0 }

/-- The inner loop of `InitialCauchyLoops`, cauchy.hpp lines 763-785.  The cycle number is written again with the
value it already has, so that the recursion is seen to be well founded. -/
noncomputable def closeLoop (E : CEnv X) (cfg : CCfg) (target : ℂ) (s : CSt X) : Res (CSt X) :=
  let q := checkClosed E cfg s
  if q.1 then .done .success q.2
  else if cfg.failsafe < s.cyc then .done .cycleNumTooHigh q.2
  else
    match circleTrack E cfg target { q.2 with cyc := s.cyc } with
    | .done .success s' => closeLoop E cfg target { s' with cyc := s.cyc + 1 }
    | r => r
termination_by cfg.failsafe + 1 - s.cyc
decreasing_by omega

open Classical in
/-- `InitialCauchyLoops`, cauchy.hpp lines 733-788, with at most `fuel` turns of the outer loop (`.more` when they
are used up). -/
noncomputable def initialLoops (E : CEnv X) (cfg : CCfg) (target : ℂ) : ℕ → CSt X → Res (CSt X)
  | 0, s => .more s
  | fuel + 1, s =>
    (circleTrack E cfg target (clearAndSeed s)).andThen fun s1 =>
      if zoneTest E cfg target s1 then closeLoop E cfg target s1
      else (advanceC E cfg target s1).andThen (initialLoops E cfg target fuel)

/-- `ComputeCOverK` (cauchy.hpp lines 482-507) on the current samples; `none` when there are fewer than three (assertion). -/
noncomputable def ckOf (E : CEnv X) (s : CSt X) : Option ℝ :=
  match s.psX with
  | a :: b :: c :: _ => some (E.cOverK s.k a b c)
  | _ => none

/-- `CheckForCOverKStabilization`, cauchy.hpp lines 525-548: only the first `num_needed_for_stabilization` entries are
compared. -/
def stable (E : CEnv X) (needed : ℕ) (l : List ℝ) : Bool :=
  let m := l.take needed
  (m.zip m.tail).all fun p => !E.lowRatio p.1 p.2

/-- The `for` loop of `GetIntoEGZone`, cauchy.hpp lines 880-886. -/
noncomputable def zoneFor (E : CEnv X) (cfg : CCfg) (target : ℂ) :
    ℕ → List ℝ → CSt X → (List ℝ → CSt X → Res (CSt X)) → Res (CSt X)
  | 0, l, s, f => f l s
  | rem + 1, l, s, f =>
    (advanceC E cfg target s).andThen fun s1 =>
      match ckOf E s1 with
      | none => .bad
      | some c => zoneFor E cfg target rem (l ++ [c]) { s1 with k := s1.k + 1 } f

open Classical in
/-- The `while` loop of `GetIntoEGZone`, cauchy.hpp lines 890-900, with at most `fuel` turns. -/
noncomputable def zoneWhile (E : CEnv X) (cfg : CCfg) (target : ℂ) : ℕ → List ℝ → CSt X → Res (CSt X)
  | 0, _, s => .more s
  | fuel + 1, l, s =>
    if stable E cfg.needed l = false ∧ ∃ t, s.psT.getLast? = some t ∧ cfg.cycleCutoff < ‖t - target‖ then
      (advanceC E cfg target s).andThen fun s1 =>
        match ckOf E s1 with
        | none => .bad
        | some c => zoneWhile E cfg target fuel (l.tail ++ [c]) { s1 with k := s1.k + 1 }
    else .done .success s

/-- `GetIntoEGZone`, cauchy.hpp lines 862-905. -/
noncomputable def intoZone (E : CEnv X) (cfg : CCfg) (start target : ℂ) (x0 : X) (fuel : ℕ) (s : CSt X) :
    Res (CSt X) :=
  let r := initialSamples E.toEgEnv cfg.toEgCfg start target x0 s.k
  let s1 := { s with psT := r.2.1, psX := r.2.2.1, k := r.2.2.2 }
  if r.1 ≠ .success then .done r.1 s1
  else
    match ckOf E s1 with
    | none => .bad
    | some c => zoneFor E cfg target cfg.needed [c] { s1 with k := s1.k + 1 } (zoneWhile E cfg target fuel)

/-- `ComputeCauchyApproximationOfXAtT0`, cauchy.hpp lines 923-957: throws unless there are exactly
`cycle * n + 1` samples; refines all; averages all but the last. -/
noncomputable def cauchyApprox (E : CEnv X) (cfg : CCfg) (s : CSt X) : Res (CSt X) :=
  if s.cX.length ≠ s.cyc * cfg.n + 1 then .bad
  else
    let q := refineAll E.toEgEnv s.k s.cT s.cX
    let a := E.mean (q.2.take (s.cyc * cfg.n))
    .done .success { s with cX := q.2, k := q.1, latest := a, hist := s.hist ++ [a] }

/-- The loop of `ComputeCauchySamples`, cauchy.hpp lines 985-1001.  The cycle number is written again with the value
it already has. -/
noncomputable def samplesLoop (E : CEnv X) (cfg : CCfg) (target : ℂ) (s : CSt X) : Res (CSt X) :=
  if s.cyc < cfg.failsafe then
    match circleTrack E cfg target s with
    | .done .success s' =>
      let q := checkClosed E cfg s'
      if q.1 then .done .success q.2 else samplesLoop E cfg target { q.2 with cyc := s.cyc + 1 }
    | r => r
  else .done .cycleNumTooHigh s
termination_by cfg.failsafe - s.cyc
decreasing_by omega

/-- `ComputeCauchySamples`, cauchy.hpp lines 978-1003. -/
noncomputable def cauchySamples (E : CEnv X) (cfg : CCfg) (target : ℂ) (s : CSt X) : Res (CSt X) :=
  samplesLoop E cfg target (clearAndSeed s)

/-- The middle of the `do` loop of `RunImpl`, cauchy.hpp lines 1114-1133: the convergence test, then the security
test, which is made when `level` is not zero.  `Sum.inl` means "return". -/
noncomputable def judge (E : CEnv X) (cfg : CCfg) (s : CSt X) : Res (CSt X) ⊕ CSt X :=
  if below cfg.finalTol (E.dist s.latest s.prev) then .inl (.done .success s)
  else if cfg.level ≠ 0 then
    let nl := E.dehomNorm s.latest
    match s.normPrev with
    | none => .inl .bad
    | some np =>
      if cfg.maxNorm < np ∧ cfg.maxNorm < nl then .inl (.done .securityMaxNormReached { s with normLatest := some nl })
      else .inr { s with normLatest := some nl }
  else .inr s

/-- The `do` loop of `RunImpl`, cauchy.hpp lines 1104-1149, with at most `fuel` turns.  Copying the uninitialised
`norm_of_dehom_latest` (line 1136) copies `none`. -/
noncomputable def loopC (E : CEnv X) (cfg : CCfg) (target : ℂ) : ℕ → CSt X → Res (CSt X)
  | 0, s => .more s
  | fuel + 1, s =>
    (cauchyApprox E cfg s).andThen fun s1 =>
      match judge E cfg s1 with
      | .inl r => r
      | .inr s2 =>
        (advanceC E cfg target { s2 with prev := s2.latest, normPrev := s2.normLatest }).andThen fun s3 =>
          (cauchySamples E cfg target s3).andThen (loopC E cfg target fuel)

/-- `CauchyEndgame::RunImpl`, cauchy.hpp lines 1068-1153. -/
noncomputable def runC (E : CEnv X) (cfg : CCfg) (start target : ℂ) (x0 : X) (fuel : ℕ) : Res (CSt X) :=
  let s0 : CSt X := { psT := [], psX := [], cT := [], cX := [], cyc := 0, latest := x0, prev := x0, normPrev := none,
                      normLatest := none, k := 0, hist := [] }
  (intoZone E cfg start target x0 fuel s0).andThen fun s1 =>
    (initialLoops E cfg target fuel s1).andThen fun s2 =>
      loopC E cfg target fuel
        (if cfg.level ≤ 0 then { s2 with normPrev := some (E.dehomNorm s2.prev) } else s2)

end B2.Endgame
