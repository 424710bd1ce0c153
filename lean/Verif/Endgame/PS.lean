/-
Model of the driver of the power-series endgame: `EndgameBase::ComputeInitialSamples`,
`RefineAllSamples` (/repo/core/include/bertini2/endgames/base_endgame.hpp), and
`PowerSeriesEndgame::AdvanceTime`, `RunImpl` (/repo/core/include/bertini2/endgames/powerseries.hpp).

Simplifications, all recorded at the definitions: exact arithmetic; what the tracker, the refiner and
the extrapolation return is arbitrary (an oracle that may also depend on how many calls were made
before, so any history dependence is covered); precision changes and observer notifications are left out.
-/
import Verif.Track.Newton
import Mathlib.Analysis.Complex.Norm

namespace B2.Endgame
open B2.Track (Code)

/-- What the endgame calls: `TrackPath` (from time, to time, start sample), `RefineSample` (sample, time),
the extrapolation from the current times and samples (`ComputeApproximationOfXAtT0` after
`ComputeAllDerivatives`; always `Success`, powerseries.hpp 531-546), the infinity norm of a difference
(`none` when it is not a number: the derivatives come from an unchecked LU solve, powerseries.hpp line 461,
and the interpolation divides by time differences), and the infinity norm of the dehomogenized point.  The
first argument counts the calls made so far. -/
structure EgEnv (X : Type) where
  track : ℕ → ℂ → ℂ → X → Code × X
  refine : ℕ → X → ℂ → Code × X
  approx : ℕ → List ℂ → List X → X
  dist : X → X → Option ℝ
  dehomNorm : X → ℝ

/-- `EndgameConfig` and `SecurityConfig`, /repo/core/include/bertini2/endgames/config.hpp lines 96-115. -/
structure EgCfg where
  n : ℕ
  factor : ℝ
  minTrack : ℝ
  finalTol : ℝ
  level : ℤ
  maxNorm : ℝ

/-- Data members used by the run: `times_`, `samples_`, `final_approximation_`, `previous_approximation_`,
`approximate_error_` and the local `norm_of_dehom_of_prev_approx` (`none` while uninitialised).  `k` counts
oracle calls.  Two ghost fields, not in the code: `hist`, all approximations computed so far, and `acc`, all
sample times accepted so far (oldest first). -/
structure PSt (X : Type) where
  times : List ℂ
  samples : List X
  latest : X
  prev : X
  err : Option ℝ
  normPrev : Option ℝ
  k : ℕ
  hist : List X
  acc : List ℂ

/-- Result of a run: finished with a code, still in the loop, or undefined behaviour / exception. -/
inductive Res (S : Type)
  | done (c : Code) (s : S)
  | more (s : S)
  | bad

variable {X : Type}

/-- `e > tol` on floating-point numbers: false when `e` is not a number. -/
def above (tol : ℝ) (e : Option ℝ) : Prop := ∃ r, e = some r ∧ tol < r

/-- `e < tol` on floating-point numbers: false when `e` is not a number. -/
def below (tol : ℝ) (e : Option ℝ) : Prop := ∃ r, e = some r ∧ r < tol

noncomputable instance (tol : ℝ) (e : Option ℝ) : Decidable (above tol e) := Classical.propDecidable _
noncomputable instance (tol : ℝ) (e : Option ℝ) : Decidable (below tol e) := Classical.propDecidable _

/-- The next sample time used by `ComputeInitialSamples` (base_endgame.hpp line 362) and by the power-series
`AdvanceTime` (powerseries.hpp line 577): `(t + target) * sample_factor`. -/
noncomputable def nextTimePS (f : ℝ) (target t : ℂ) : ℂ := (t + target) * (f : ℂ)

/-- The loop of `ComputeInitialSamples`, base_endgame.hpp lines 360-370.  `rem` iterations are left, `t`, `x`
are `times[ii-1]`, `samples[ii-1]`.  On a failed track the new time and whatever the tracker left in the new
sample stay in the containers. -/
noncomputable def initialLoop (E : EgEnv X) (cfg : EgCfg) (target : ℂ) :
    ℕ → ℕ → List ℂ → List X → ℂ → X → Code × List ℂ × List X × ℕ
  | 0, k, ts, xs, _, _ => (.success, ts, xs, k)
  | rem + 1, k, ts, xs, t, x =>
    let t' := nextTimePS cfg.factor target t
    let r := E.track k t t' x
    if r.1 = .success then
      initialLoop E cfg target rem (k + 1) (ts ++ [t']) (xs ++ [r.2]) t' r.2
    else (r.1, ts ++ [t'], xs ++ [r.2], k + 1)

/-- `ComputeInitialSamples`, base_endgame.hpp lines 342-373. -/
noncomputable def initialSamples (E : EgEnv X) (cfg : EgCfg) (start target : ℂ) (x0 : X) (k : ℕ) :
    Code × List ℂ × List X × ℕ :=
  initialLoop E cfg target (cfg.n - 1) k [start] [x0] start x0

/-- `RefineAllSamples`, base_endgame.hpp lines 169-191: refine in place, stop at the first failure.  The
returned code is ignored by all callers, so it is not modelled. -/
def refineAll (E : EgEnv X) : ℕ → List ℂ → List X → ℕ × List X
  | k, t :: ts, x :: xs =>
    let r := E.refine k x t
    if r.1 = .success then
      let q := refineAll E (k + 1) ts xs
      (q.1, r.2 :: q.2)
    else (k + 1, r.2 :: xs)
  | k, _, xs => (k, xs)

/-- `AdvanceTime`, powerseries.hpp lines 566-621.  `none`: `back()` of an empty container. -/
noncomputable def advancePS (E : EgEnv X) (cfg : EgCfg) (target : ℂ) (s : PSt X) :
    Option (Code × PSt X) :=
  match s.times.getLast?, s.samples.getLast? with
  | some t, some x =>
    let t' := nextTimePS cfg.factor target t
    if ‖t' - target‖ < cfg.minTrack then some (.minTrackTimeReached, s)
    else
      let r := E.track s.k t t' x
      if r.1 ≠ .success then some (r.1, { s with k := s.k + 1 })
      else
        let q := E.refine (s.k + 1) r.2 t'
        let times := s.times ++ [t']
        let samples := s.samples ++ [q.2]
        if q.1 ≠ .success then
          some (q.1, { s with times := times, samples := samples, k := s.k + 2 })
        else if cfg.n + 1 < times.length then
          some (.success, { s with times := times.tail, samples := samples.tail, k := s.k + 2,
                                    acc := s.acc ++ [t'] })
        else
          some (.success, { s with times := times, samples := samples, k := s.k + 2,
                                    acc := s.acc ++ [t'] })
  | _, _ => none

/-- After a successful advance: refine all samples, extrapolate, measure.  powerseries.hpp lines 703-717. -/
noncomputable def extrapolatePS (E : EgEnv X) (s : PSt X) : PSt X :=
  let q := refineAll E s.k s.times s.samples
  let a := E.approx q.1 s.times q.2
  { s with samples := q.2, k := q.1 + 1, latest := a, err := E.dist a s.prev, hist := s.hist ++ [a] }

/-- One turn of `while (approx_error > FinalTolerance())`, powerseries.hpp lines 696-736. -/
noncomputable def stepPS (E : EgEnv X) (cfg : EgCfg) (target : ℂ) (s : PSt X) : Res (PSt X) :=
  if above cfg.finalTol s.err then
    match advancePS E cfg target s with
    | none => .bad
    | some (c, s1) =>
      if c ≠ .success then .done c s1
      else
        let s2 := extrapolatePS E s1
        if cfg.level ≤ 0 then
          if cfg.maxNorm < E.dehomNorm s2.latest then
            match s2.normPrev with
            | none => .bad
            | some np =>
              if cfg.maxNorm < np then .done .securityMaxNormReached s2
              else .more { s2 with normPrev := some (E.dehomNorm s2.latest), prev := s2.latest }
          else .more { s2 with normPrev := some (E.dehomNorm s2.latest), prev := s2.latest }
        else .more { s2 with prev := s2.latest }
  else .done .success s

/-- At most `fuel` turns of the loop. -/
noncomputable def loopPS (E : EgEnv X) (cfg : EgCfg) (target : ℂ) : ℕ → PSt X → Res (PSt X)
  | 0, s => .more s
  | fuel + 1, s =>
    match stepPS E cfg target s with
    | .more s' => loopPS E cfg target fuel s'
    | r => r

/-- `RunImpl` up to the loop, powerseries.hpp lines 641-692: initial samples, first approximation, error set
to 1.  The dimension check that throws is left out (sizes are not modelled). -/
noncomputable def initPS (E : EgEnv X) (cfg : EgCfg) (start target : ℂ) (x0 : X) : Res (PSt X) :=
  let r := initialSamples E cfg start target x0 0
  if r.1 ≠ .success then
    .done r.1 { times := r.2.1, samples := r.2.2.1, latest := x0, prev := x0, err := none, normPrev := none,
                k := r.2.2.2, hist := [], acc := r.2.1 }
  else
    let q := refineAll E r.2.2.2 r.2.1 r.2.2.1
    let a := E.approx q.1 r.2.1 q.2
    .more { times := r.2.1, samples := q.2, latest := a, prev := a, err := some 1,
            normPrev := if cfg.level ≤ 0 then some (E.dehomNorm a) else none,
            k := q.1 + 1, hist := [a], acc := r.2.1 }

/-- `PowerSeriesEndgame::RunImpl`, powerseries.hpp lines 641-741, with at most `fuel` turns of the loop. -/
noncomputable def runPS (E : EgEnv X) (cfg : EgCfg) (start target : ℂ) (x0 : X) (fuel : ℕ) : Res (PSt X) :=
  match initPS E cfg start target x0 with
  | .more s => loopPS E cfg target fuel s
  | r => r

end B2.Endgame
