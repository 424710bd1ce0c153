/-
Model of the notifications of the endgames: approximations, convergence and failures
(/repo/core/include/bertini2/endgames/events.hpp, powerseries.hpp 566-741, cauchy.hpp 733-788, 862-905, 978-1153).

On top of the runs of `PS.lean` and `Cauchy.lean`: for each function, what is sent while it runs.  Left out: the
notifications of progress (`SampleRefined`, `CircleAdvanced`, `TimeAdvanced`, `ClosedLoop`, `InEGOperatingZone`) and of
changes of precision.
-/
import Verif.Endgame.Cauchy

namespace B2.Endgame
open B2.Track (Code)

variable {X : Type}

/-- The notifications, endgames/events.hpp: `ApproximatedRoot` (with the `FinalApproximation` an observer sees),
`Converged`, and those derived from `EndgameFailure`. -/
inductive EgEv (X : Type)
  | approximated (x : X)
  | converged
  | minTrackTime
  | refiningFailed
  | cycleNumTooHigh
  | maxNorm
  | failure

/-- Then what `g` sends, if `r` is a success. -/
def Res.thenNotes {S : Type} (r : Res S) (g : S → List (EgEv X)) : List (EgEv X) :=
  match r with
  | .done .success s => g s
  | _ => []

/-! ### The power series endgame -/

/-- `AdvanceTime`, powerseries.hpp 566-621. -/
noncomputable def advanceNotesPS (E : EgEnv X) (cfg : EgCfg) (target : ℂ) (s : PSt X) : List (EgEv X) :=
  match s.times.getLast?, s.samples.getLast? with
  | some t, some x =>
    let t' := nextTimePS cfg.factor target t
    if ‖t' - target‖ < cfg.minTrack then [.minTrackTime]
    else
      let r := E.track s.k t t' x
      if r.1 ≠ .success then []
      else if (E.refine (s.k + 1) r.2 t').1 ≠ .success then [.refiningFailed]
      else []
  | _, _ => []

/-- One turn of the loop and the way out, powerseries.hpp 696-739. -/
noncomputable def stepNotesPS (E : EgEnv X) (cfg : EgCfg) (target : ℂ) (s : PSt X) : List (EgEv X) :=
  if above cfg.finalTol s.err then
    advanceNotesPS E cfg target s ++
      match advancePS E cfg target s with
      | none => []
      | some (c, s1) =>
        if c ≠ .success then [.failure]
        else
          let s2 := extrapolatePS E s1
          .approximated s2.latest ::
            if cfg.level ≤ 0 ∧ cfg.maxNorm < E.dehomNorm s2.latest ∧ (∃ np, s2.normPrev = some np ∧ cfg.maxNorm < np)
            then [.maxNorm] else []
  else [.converged]

/-- At most `fuel` turns of the loop. -/
noncomputable def loopNotesPS (E : EgEnv X) (cfg : EgCfg) (target : ℂ) : ℕ → PSt X → List (EgEv X)
  | 0, _ => []
  | fuel + 1, s =>
    stepNotesPS E cfg target s ++
      match stepPS E cfg target s with
      | .more s' => loopNotesPS E cfg target fuel s'
      | _ => []

/-- `PowerSeriesEndgame::RunImpl`, powerseries.hpp 641-741. -/
noncomputable def runNotesPS (E : EgEnv X) (cfg : EgCfg) (start target : ℂ) (x0 : X) (fuel : ℕ) : List (EgEv X) :=
  match initPS E cfg start target x0 with
  | .more s => loopNotesPS E cfg target fuel s
  | _ => [.failure]

/-! ### The Cauchy endgame -/

/-- `AdvanceTime`, cauchy.hpp 1014-1044: only a failed track is announced. -/
noncomputable def advanceNotesC (E : CEnv X) (cfg : CCfg) (target : ℂ) (s : CSt X) : List (EgEv X) :=
  match s.psT.getLast?, s.psX.getLast? with
  | some t, some x =>
    let t' := nextTimeC cfg.factor target t
    if ‖t' - target‖ < cfg.minTrack then []
    else if (E.track s.k t t' x).1 ≠ .success then [.failure]
    else []
  | _, _ => []

open Classical in
/-- `InitialCauchyLoops`, cauchy.hpp 733-788: `CircleTrack` (368-448) and a cycle number that is too high are not
announced. -/
noncomputable def initialNotesC (E : CEnv X) (cfg : CCfg) (target : ℂ) : ℕ → CSt X → List (EgEv X)
  | 0, _ => []
  | fuel + 1, s =>
    (circleTrack E cfg target (clearAndSeed s)).thenNotes fun s1 =>
      if zoneTest E cfg target s1 then []
      else advanceNotesC E cfg target s1 ++
        (advanceC E cfg target s1).thenNotes (initialNotesC E cfg target fuel)

/-- The `for` loop of `GetIntoEGZone`, cauchy.hpp 880-886. -/
noncomputable def zoneForNotes (E : CEnv X) (cfg : CCfg) (target : ℂ) :
    ℕ → List ℝ → CSt X → (List ℝ → CSt X → List (EgEv X)) → List (EgEv X)
  | 0, l, s, f => f l s
  | rem + 1, l, s, f =>
    advanceNotesC E cfg target s ++ (advanceC E cfg target s).thenNotes fun s1 =>
      match ckOf E s1 with
      | none => []
      | some c => zoneForNotes E cfg target rem (l ++ [c]) { s1 with k := s1.k + 1 } f

open Classical in
/-- The `while` loop of `GetIntoEGZone`, cauchy.hpp 890-900. -/
noncomputable def zoneWhileNotes (E : CEnv X) (cfg : CCfg) (target : ℂ) : ℕ → List ℝ → CSt X → List (EgEv X)
  | 0, _, _ => []
  | fuel + 1, l, s =>
    if stable E cfg.needed l = false ∧ ∃ t, s.psT.getLast? = some t ∧ cfg.cycleCutoff < ‖t - target‖ then
      advanceNotesC E cfg target s ++ (advanceC E cfg target s).thenNotes fun s1 =>
        match ckOf E s1 with
        | none => []
        | some c => zoneWhileNotes E cfg target fuel (l.tail ++ [c]) { s1 with k := s1.k + 1 }
    else []

/-- `GetIntoEGZone`, cauchy.hpp 862-905: failing initial samples are not announced. -/
noncomputable def zoneNotes (E : CEnv X) (cfg : CCfg) (start target : ℂ) (x0 : X) (fuel : ℕ) (s : CSt X) :
    List (EgEv X) :=
  let r := initialSamples E.toEgEnv cfg.toEgCfg start target x0 s.k
  let s1 := { s with psT := r.2.1, psX := r.2.2.1, k := r.2.2.2 }
  if r.1 ≠ .success then []
  else
    match ckOf E s1 with
    | none => []
    | some c => zoneForNotes E cfg target cfg.needed [c] { s1 with k := s1.k + 1 } (zoneWhileNotes E cfg target fuel)

/-- `ComputeCauchySamples`, cauchy.hpp 978-1003: a cycle number that is too high is announced, a failed `CircleTrack` is
not. -/
noncomputable def samplesNotes (E : CEnv X) (cfg : CCfg) (target : ℂ) (s : CSt X) : List (EgEv X) :=
  if s.cyc < cfg.failsafe then
    match circleTrack E cfg target s with
    | .done .success s' =>
      let q := checkClosed E cfg s'
      if q.1 then [] else samplesNotes E cfg target { q.2 with cyc := s.cyc + 1 }
    | _ => []
  else [.cycleNumTooHigh]
termination_by cfg.failsafe - s.cyc
decreasing_by omega

/-- The middle of the loop, cauchy.hpp 1117-1135. -/
noncomputable def judgeNotes (E : CEnv X) (cfg : CCfg) (s : CSt X) : List (EgEv X) :=
  .approximated s.latest ::
    if below cfg.finalTol (E.dist s.latest s.prev) then [.converged]
    else if cfg.level ≠ 0 ∧ ∃ np, s.normPrev = some np ∧ cfg.maxNorm < np ∧ cfg.maxNorm < E.dehomNorm s.latest
    then [.maxNorm] else []

/-- The `do` loop of `RunImpl`, cauchy.hpp 1104-1149. -/
noncomputable def loopNotesC (E : CEnv X) (cfg : CCfg) (target : ℂ) : ℕ → CSt X → List (EgEv X)
  | 0, _ => []
  | fuel + 1, s =>
    (cauchyApprox E cfg s).thenNotes fun s1 =>
      judgeNotes E cfg s1 ++
        match judge E cfg s1 with
        | .inl _ => []
        | .inr s2 =>
          let s3 := { s2 with prev := s2.latest, normPrev := s2.normLatest }
          advanceNotesC E cfg target s3 ++ (advanceC E cfg target s3).thenNotes fun s4 =>
            samplesNotes E cfg target (clearAndSeed s4) ++
              (cauchySamples E cfg target s4).thenNotes (loopNotesC E cfg target fuel)

/-- `CauchyEndgame::RunImpl`, cauchy.hpp 1068-1153. -/
noncomputable def runNotesC (E : CEnv X) (cfg : CCfg) (start target : ℂ) (x0 : X) (fuel : ℕ) : List (EgEv X) :=
  let s0 : CSt X := { psT := [], psX := [], cT := [], cX := [], cyc := 0, latest := x0, prev := x0, normPrev := none,
                      normLatest := none, k := 0, hist := [] }
  zoneNotes E cfg start target x0 fuel s0 ++
    (intoZone E cfg start target x0 fuel s0).thenNotes fun s1 =>
      initialNotesC E cfg target fuel s1 ++
        (initialLoops E cfg target fuel s1).thenNotes fun s2 =>
          loopNotesC E cfg target fuel
            (if cfg.level ≤ 0 then { s2 with normPrev := some (E.dehomNorm s2.prev) } else s2)

end B2.Endgame
