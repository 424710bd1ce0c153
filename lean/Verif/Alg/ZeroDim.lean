/-
Model of the zero-dimensional solver's `Solve`, /repo/core/include/bertini2/nag_algorithms/zero_dim_solve.hpp.

The tracker and the endgame are arbitrary functions, which may answer differently at every call.  Precision handling,
observers and the metadata that is only copied from the tracker or the endgame are not modelled.
-/
import Verif.Alg.Midpath

namespace B2.Alg
open B2.Track (Code)

/-- Tracker, endgame and start system.  The first argument numbers the calls. -/
structure ZEnv (d : ℕ) where
  start : ℕ → Pt d
  /-- `TrackPath`, zero_dim_solve.hpp lines 627: tracking tolerance and start point to success code and result. -/
  track : ℕ → ℝ → Pt d → Code × Pt d
  /-- `Run` and `FinalApproximation` of the endgame, zero_dim_solve.hpp lines 736-738. -/
  endgame : ℕ → Pt d → Code × Pt d

/-- Settings: nag_algorithms/common/config.hpp lines 70-146. -/
structure ZCfg where
  newtonBefore : ℝ
  midTol : ℝ
  postTol : ℝ
  maxAttempts : ℕ
  shrink : ℝ

/-- `SolutionMetaData`, zero_dim_solve.hpp lines 109-146: the fields that are computed by the solver itself. -/
structure Meta where
  pathIndex : ℕ
  pre : Code
  post : Code
  mult : ℤ

/-- A default-constructed record, zero_dim_solve.hpp lines 115-140 (`path_index` has no initial value there). -/
def Meta.default : Meta := { pathIndex := 0, pre := .neverStarted, post := .neverStarted, mult := 1 }

/-- Calls to the tracker (with path number and tolerance) and to the endgame (with path number and boundary point). -/
inductive Ev (d : ℕ)
  | before (i : ℕ) (tol : ℝ)
  | endgame (i : ℕ) (x : Pt d)

/-- The data members of `ZeroDim`, zero_dim_solve.hpp lines 826-848, with the number of calls and their log. -/
structure ZSt (d : ℕ) where
  md : List Meta
  bdry : List (Bdry d)
  sols : List (Pt d)
  checker : Checker
  tol : ℝ
  k : ℕ
  log : List (Ev d)

/-- After construction. -/
def ZSt.init (d : ℕ) : ZSt d :=
  { md := [], bdry := [], sols := [], checker := Checker.fresh, tol := 0, k := 0, log := [] }

variable {d : ℕ}

/-- `std::vector::resize`. -/
def resize {α : Type} (n : ℕ) (x : α) (l : List α) : List α := l.take n ++ List.replicate (n - l.length) x

/-- `PreSolveSetup`, zero_dim_solve.hpp lines 573-582.  The default point is an empty vector; it is never read. -/
def setup (N : ℕ) (cfg : ZCfg) (s : ZSt d) : ZSt d :=
  { s with md := resize N Meta.default s.md, bdry := resize N ⟨fun _ => 0, .neverStarted⟩ s.bdry,
           sols := resize N (fun _ => 0) s.sols, tol := cfg.newtonBefore }

/-- `TrackSinglePathBeforeEG`, zero_dim_solve.hpp lines 611-653, with the tracking tolerance the tracker has at the time.  Indexing out of
range, undefined in C++, does nothing in the model; `C56` shows that it does not happen. -/
def trackSingle (E : ZEnv d) (tol : ℝ) (s : ZSt d) (i : ℕ) : ZSt d :=
  let r := E.track s.k tol (E.start i)
  { s with md := s.md.modify i fun m => { m with pathIndex := i, pre := r.1 }
           bdry := s.bdry.set i ⟨r.2, r.1⟩
           k := s.k + 1
           log := s.log ++ [.before i tol] }

/-- `TrackBeforeEG`, zero_dim_solve.hpp lines 591-605. -/
def trackBefore (N : ℕ) (E : ZEnv d) (cfg : ZCfg) (s : ZSt d) : ZSt d :=
  (List.range N).foldl (trackSingle E cfg.newtonBefore) s

/-- `MidpathResolve` with `ShrinkMidpathTolerance`, zero_dim_solve.hpp lines 670-692. -/
def resolve (E : ZEnv d) (cfg : ZCfg) (s : ZSt d) : ZSt d :=
  let tol := s.tol * cfg.shrink
  ((s.checker.crossed.filter Crossed.rerun).map Crossed.index).foldl (trackSingle E tol) { s with tol := tol }

/-- `midpath_.Check(...)`, zero_dim_solve.hpp lines 658, 664. -/
noncomputable def recheck (E : ZEnv d) (cfg : ZCfg) (s : ZSt d) : ZSt d :=
  { s with checker := check cfg.midTol s.bdry E.start s.checker }

/-- The loop of `EGBoundaryAction`, zero_dim_solve.hpp lines 660-666; the first argument is the number of attempts left. -/
noncomputable def resolveLoop (E : ZEnv d) (cfg : ZCfg) : ℕ → ZSt d → ZSt d
  | 0, s => s
  | n + 1, s => if s.checker.passed then s else resolveLoop E cfg n (recheck E cfg (resolve E cfg s))

/-- `EGBoundaryAction`, zero_dim_solve.hpp lines 656-667. -/
noncomputable def boundary (E : ZEnv d) (cfg : ZCfg) (s : ZSt d) : ZSt d :=
  resolveLoop E cfg cfg.maxAttempts (recheck E cfg s)

/-- The body of the loop in `TrackDuringEG`, zero_dim_solve.hpp lines 700-708, and `TrackSinglePathDuringEG`, lines 712-776. -/
def duringSingle (E : ZEnv d) (s : ZSt d) (i : ℕ) : ZSt d :=
  match s.md[i]?, s.bdry[i]? with
  | some m, some b =>
    if m.pre ≠ .success then s
    else
      let r := E.endgame s.k b.pt
      { s with sols := s.sols.set i r.2
               md := s.md.modify i fun m => { m with post := r.1 }
               k := s.k + 1
               log := s.log ++ [.endgame i b.pt] }
  | _, _ => s

/-- `TrackDuringEG`, zero_dim_solve.hpp lines 695-709. -/
def trackDuring (N : ℕ) (E : ZEnv d) (s : ZSt d) : ZSt d := (List.range N).foldl (duringSingle E) s

/-- `(a - b).norm()`, zero_dim_solve.hpp line 811, the Euclidean norm. -/
noncomputable def dist2 (a b : Pt d) : ℝ := Real.sqrt (∑ i, ‖a i - b i‖ ^ 2)

/-- Is entry `i` successful: zero_dim_solve.hpp lines 803, 808. -/
def okAt (md : List Meta) (i : ℕ) : Bool :=
  match md[i]? with
  | some m => decide (m.post = .success)
  | none => false

open Classical in
/-- The comparison on zero_dim_solve.hpp line 811. -/
noncomputable def sameAt (tol : ℝ) (sols : List (Pt d)) (i j : ℕ) : Bool :=
  match sols[i]?, sols[j]? with
  | some a, some b => decide (dist2 a b < tol)
  | _, _ => false

/-- `++multiplicity`, zero_dim_solve.hpp lines 815-816. -/
def bump (md : List Meta) (i : ℕ) : List Meta := md.modify i fun m => { m with mult := m.mult + 1 }

/-- `ComputeMultiplicities`, zero_dim_solve.hpp lines 797-821.  The vector `multiplicity_indices` is local to the function and discarded. -/
noncomputable def multiplicities (N : ℕ) (cfg : ZCfg) (s : ZSt d) : ZSt d :=
  { s with md := (List.range N).foldl (fun md i =>
      if okAt md i then
        (List.range' (i + 1) (N - (i + 1))).foldl (fun md j =>
          if okAt md j then
            if sameAt cfg.postTol s.sols i j then bump (bump md i) j else md
          else md) md
      else md) s.md }

/-- `Solve`, zero_dim_solve.hpp lines 524-538, with `N` start points. -/
noncomputable def solve (N : ℕ) (E : ZEnv d) (cfg : ZCfg) (s : ZSt d) : ZSt d :=
  multiplicities N cfg (trackDuring N E (boundary E cfg (trackBefore N E cfg (setup N cfg s))))

/-- States after any number of calls to `Solve` of an object with `N` start points; settings, tracker and endgame may be
changed between calls. -/
inductive Reach (N : ℕ) : ZSt d → Prop
  | init : Reach N (ZSt.init d)
  | solve (E : ZEnv d) (cfg : ZCfg) (s : ZSt d) : Reach N s → Reach N (solve N E cfg s)

end B2.Alg
