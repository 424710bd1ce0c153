import Verif.Alg.ZeroDim

/-!
# Settings of a zero-dimensional solve

`ZeroDim` keeps settings of its own (`detail::Configured`, `detail/configured.hpp:88-110`), its midpath checker,
tracker and endgame have theirs. This file has the functions that write them (`zero_dim_solve.hpp:341-417`, `485-505`;
`trackers/base_tracker.hpp:171-218`, `344-348`) and the places where `Solve` reads them (`zero_dim_solve.hpp:520-821`).
-/

namespace B2.Alg.Conf

open B2.Alg

/-- `TolerancesConfig`, `nag_algorithms/common/config.hpp:57-69`. -/
structure Tol where
  before : ℝ
  during : ℝ
  final : ℝ
  trunc : ℝ

/-- `PostProcessingConfig`, `config.hpp:120-128`. -/
structure Post where
  real : ℝ
  finite : ℝ
  same : ℝ

/-- `ZeroDimConfig`, `config.hpp:130-141`; names of variables are numbers. -/
structure ZD where
  prec : ℕ
  attempts : ℕ
  start : ℂ
  bdry : ℂ
  target : ℂ
  name : ℕ

/-- Settings of a tracker: predictor, `tracking_tolerance_`, `path_truncation_threshold_`, and its configurations for
stepping, Newton's method and precision (numbers that stand for these). -/
structure Tr where
  predictor : ℕ
  tol : ℝ
  trunc : ℝ
  stepping : ℕ
  newton : ℕ
  precision : ℕ

/-- Settings of the endgame: `EndgameConfig::final_tolerance` (`endgames/config.hpp:114`) and all others. -/
structure Eg where
  final : ℝ
  other : ℕ

/-- All settings of a solver: the four configurations of `ZeroDim` (`AutoRetrackConfig` has one member), those of its
midpath checker (one member), tracker and endgame, and the name of the path variable of its homotopy. -/
structure Settings where
  tol : Tol
  post : Post
  zd : ZD
  retrack : ℝ
  mid : ℝ
  tr : Tr
  eg : Eg
  path : ℕ

/-- The default values: of the configurations, the predictor, stepping and Newton configurations, the precision
configuration made from the homotopy, and of the endgame. -/
structure Dflt where
  tol : Tol
  post : Post
  zd : ZD
  retrack : ℝ
  mid : ℝ
  predictor : ℕ
  stepping : ℕ
  newton : ℕ
  precision : ℕ
  eg : Eg

/-- What tracker, endgame and start system compute. `track`: number of the call, settings, start and end time, start
point; `endgame`: number of the call, settings of tracker and endgame, start and end time, start point; `start`: ambient
precision and index. -/
structure Low (d : ℕ) where
  start : ℕ → ℕ → Pt d
  track : ℕ → Tr → ℂ → ℂ → Pt d → B2.Track.Code × Pt d
  endgame : ℕ → Tr → Eg → ℂ → ℂ → Pt d → B2.Track.Code × Pt d

variable {d : ℕ}

/-- A solver: settings, and the results of `ZeroDim.lean`. -/
structure St (d : ℕ) where
  c : Settings
  z : ZSt d

/-- The calls of the tracker and the endgame with the settings they have at the time: `Solve` sets the tracking
tolerance (`zero_dim_solve.hpp:595`, `691`, `698`) and passes times and ambient precision (`593-632`, `731-736`). -/
def env (L : Low d) (c : Settings) : ZEnv d where
  start i := L.start c.zd.prec i
  track k t x := L.track k { c.tr with tol := t } c.zd.start c.zd.bdry x
  endgame k x := L.endgame k { c.tr with tol := c.tol.during } c.eg c.zd.bdry c.zd.target x

/-- The settings `Solve` reads itself: `zero_dim_solve.hpp:581`, `595` (tolerance), `midpath_check.hpp:121-124`,
`zero_dim_solve.hpp:811`, `661`, `690`. -/
def cfg (c : Settings) : ZCfg where
  newtonBefore := c.tol.before
  midTol := c.mid
  postTol := c.post.same
  maxAttempts := c.zd.attempts
  shrink := c.retrack

open Classical in
/-- `Solve`. `SetTrackingTolerance` throws (`none`) unless the tolerance is positive, `base_tracker.hpp:202-206`: before
the endgame, on retracking, and before the endgames. Tolerances are exact, so the second and later retracking
tolerances are positive when the first is. The tracker keeps the last tolerance. -/
noncomputable def solveOp (N : ℕ) (L : Low d) (s : St d) : Option (St d) :=
  if s.c.tol.before ≤ 0 then none
  else
    let E := env L s.c
    let z1 := recheck E (cfg s.c) (trackBefore N E (cfg s.c) (setup N (cfg s.c) s.z))
    if ¬ z1.checker.passed ∧ 0 < s.c.zd.attempts ∧ s.c.tol.before * s.c.retrack ≤ 0 then none
    else if s.c.tol.during ≤ 0 then none
    else some ⟨{ s.c with tr := { s.c.tr with tol := s.c.tol.during } }, solve N E (cfg s.c) s.z⟩

/-- Calls of a program: `Set` of each configuration, `SetMidpath`, `SetToEndgame`, the setters of the tracker (through
`GetTracker()`), the four parts of `DefaultSetup`, `Solve`. -/
inductive Op
  | tol (t : Tol)
  | post (p : Post)
  | zd (z : ZD)
  | retrack (f : ℝ)
  | mid (m : ℝ)
  | eg (e : Eg)
  | trTol (t : ℝ)
  | trTrunc (t : ℝ)
  | trPredictor (p : ℕ)
  | trStepping (n : ℕ)
  | trNewton (n : ℕ)
  | trPrecision (n : ℕ)
  | defaultSettings
  | defaultSystem
  | defaultTracker
  | defaultMidpath
  | solve

open Classical in
/-- One call; `none`: it throws. -/
noncomputable def Op.run (D : Dflt) (N : ℕ) (L : Low d) (s : St d) : Op → Option (St d)
  | .tol t => some { s with c := { s.c with tol := t } }
  | .post p => some { s with c := { s.c with post := p } }
  | .zd z => some { s with c := { s.c with zd := z } }
  | .retrack f => some { s with c := { s.c with retrack := f } }
  -- `zero_dim_solve.hpp:400-403`
  | .mid m => some { s with c := { s.c with mid := m } }
  -- `zero_dim_solve.hpp:496-500`
  | .eg e => some { s with c := { s.c with eg := e } }
  -- `base_tracker.hpp:202-218`
  | .trTol t => if t ≤ 0 then none else some { s with c := { s.c with tr := { s.c.tr with tol := t } } }
  | .trTrunc t => if t ≤ 0 then none else some { s with c := { s.c with tr := { s.c.tr with trunc := t } } }
  | .trPredictor p => some { s with c := { s.c with tr := { s.c.tr with predictor := p } } }
  | .trStepping n => some { s with c := { s.c with tr := { s.c.tr with stepping := n } } }
  | .trNewton n => some { s with c := { s.c with tr := { s.c.tr with newton := n } } }
  | .trPrecision n => some { s with c := { s.c with tr := { s.c.tr with precision := n } } }
  -- `zero_dim_solve.hpp:363-376`
  | .defaultSettings => some { s with c := { s.c with tol := D.tol, post := D.post, zd := D.zd, retrack := D.retrack } }
  -- `zero_dim_solve.hpp:352-356`
  | .defaultSystem => some { s with c := { s.c with path := s.c.zd.name } }
  -- `zero_dim_solve.hpp:408-417`, `base_tracker.hpp:171-189`
  | .defaultTracker => if s.c.tol.before ≤ 0 then none else
      some { s with c := { s.c with tr := ⟨D.predictor, s.c.tol.before, s.c.tol.trunc, D.stepping, D.newton, D.precision⟩ } }
  -- `zero_dim_solve.hpp:392-395`; the new checker has no crossed paths
  | .defaultMidpath => some ⟨{ s.c with mid := D.mid }, { s.z with checker := Checker.fresh }⟩
  | .solve => solveOp N L s

/-- A program. -/
noncomputable def runOps (D : Dflt) (N : ℕ) (L : Low d) (s : St d) : List Op → Option (St d)
  | [] => some s
  | o :: os => (o.run D N L s).bind fun s' => runOps D N L s' os

/-- After the constructor, which calls `DefaultSetup` (`zero_dim_solve.hpp:341-347`). -/
def init (D : Dflt) : St d where
  c := ⟨D.tol, D.post, D.zd, D.retrack, D.mid, ⟨D.predictor, D.tol.before, D.tol.trunc, D.stepping, D.newton, D.precision⟩,
    D.eg, D.zd.name⟩
  z := ZSt.init d

end B2.Alg.Conf
