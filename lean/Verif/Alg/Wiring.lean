import Mathlib.Data.List.Basic

/-!
# How a `ZeroDim` object, its tracker and its endgame refer to each other

`nag_algorithms/zero_dim_solve.hpp`, `nag_algorithms/common/policies.hpp` (policy `RefToGiven`),
`trackers/base_tracker.hpp`, `endgames/prec_base.hpp`. Systems are numbered objects of the user. A tracker refers to
the system it tracks and shares, through `std::shared_ptr`, a predictor and a corrector.
-/

namespace B2.Alg.Wire

/-- What is known of the user's systems: numbers of functions and variables, number of start points (of those that
are start systems), whether `ConsistencyCheck` (`zero_dim_solve.hpp:329-338`) accepts it as target; of predictors:
`predict::Order` (`predict.hpp`) and the default. -/
structure Env where
  dims : ℕ → ℕ × ℕ
  count : ℕ → ℕ
  valid : ℕ → Bool
  order : ℕ → ℕ
  dflt : ℕ
  newton : ℕ

/-- A predictor and a corrector, held by a tracker through `predictor_` and `corrector_`
(`base_tracker.hpp:573-576`), which are created, copied and resized together: the method, the sizes of their
workspaces (`explicit_predictors.hpp:357-370`, `newton_corrector.hpp:105-115`), the corrector's settings. The two
pointers are one cell here. -/
structure Cell where
  method : ℕ
  dims : ℕ × ℕ
  settings : ℕ
  deriving DecidableEq

/-- Trackers: the user's own, and the member `tracker_` of `ZeroDim` object `z` (`zero_dim_solve.hpp:839`). -/
inductive TId
  | user (n : ℕ)
  | member (z : ℕ)
  deriving DecidableEq

/-- A tracker, `base_tracker.hpp:555-585`: `tracked_system_`, `predictor_` and `corrector_`, `predictor_order_`, its
copy of the Newton configuration. -/
structure Tracker where
  sys : ℕ
  cell : ℕ
  order : ℕ
  newton : ℕ
  deriving DecidableEq

/-- A `ZeroDim` object: target, start system and homotopy (`policies.hpp:276-279`), `num_start_points_`
(`zero_dim_solve.hpp:828`), the tracker its endgame refers to (`prec_base.hpp:95`). -/
structure Solver where
  target : ℕ
  start : ℕ
  homotopy : ℕ
  numStart : ℕ
  egTracker : TId
  deriving DecidableEq

/-- All objects; `next` is the first cell not yet made. -/
structure Heap where
  cells : ℕ → Cell
  next : ℕ
  trackers : TId → Option Tracker
  solvers : ℕ → Option Solver

/-- No objects. -/
def Heap.empty : Heap := ⟨fun _ => ⟨0, (0, 0), 0⟩, 0, fun _ => none, fun _ => none⟩

def Heap.setCell (h : Heap) (c : ℕ) (x : Cell) : Heap := { h with cells := Function.update h.cells c x }

def Heap.setTr (h : Heap) (i : TId) (t : Tracker) : Heap := { h with trackers := Function.update h.trackers i (some t) }

def Heap.setSolver (h : Heap) (z : ℕ) (s : Solver) : Heap := { h with solvers := Function.update h.solvers z (some s) }

/-- `Tracker(sys)`, `base_tracker.hpp:156-161`: a new predictor and corrector. -/
def newTracker (e : Env) (i : TId) (sys : ℕ) (h : Heap) : Heap :=
  { (h.setCell h.next ⟨e.dflt, e.dims sys, e.newton⟩).setTr i ⟨sys, h.next, e.order e.dflt, e.newton⟩ with
    next := h.next + 1 }

/-- Copy assignment of trackers: memberwise, so the shared pointers are copied. -/
def assignTracker (dst src : TId) (h : Heap) : Option Heap :=
  (h.trackers src).map fun t => h.setTr dst t

/-- `SetPredictor`, `base_tracker.hpp:344-348`. -/
def setPredictor (e : Env) (i : TId) (m : ℕ) (h : Heap) : Option Heap :=
  (h.trackers i).map fun t => (h.setCell t.cell { h.cells t.cell with method := m }).setTr i { t with order := e.order m }

/-- `SetSystem`, `base_tracker.hpp:363-368`. -/
def setSystem (e : Env) (i : TId) (s : ℕ) (h : Heap) : Option Heap :=
  (h.trackers i).map fun t => (h.setCell t.cell { h.cells t.cell with dims := e.dims s }).setTr i { t with sys := s }

/-- `Setup`, `base_tracker.hpp:171-189`: the predictor, then the corrector's settings and the tracker's own copy of
them. Tolerances and step sizes are fields of the tracker alone and are left out. -/
def setupTracker (e : Env) (i : TId) (m newton : ℕ) (h : Heap) : Option Heap :=
  (setPredictor e i m h).bind fun h =>
    (h.trackers i).map fun t => (h.setCell t.cell { h.cells t.cell with settings := newton }).setTr i { t with newton := newton }

/-- `DefaultSystemSetup`, `zero_dim_solve.hpp:352-356`, with `RefToGiven::SystemSetup` (`policies.hpp:316-317`), which
does nothing. -/
def defaultSystemSetup (e : Env) (z : ℕ) (h : Heap) : Option Heap :=
  (h.solvers z).map fun s => h.setSolver z { s with numStart := e.count s.start }

/-- `DefaultTrackerSetup`, `zero_dim_solve.hpp:408-417`. -/
def defaultTrackerSetup (e : Env) (z : ℕ) (h : Heap) : Option Heap :=
  (h.solvers z).bind fun s =>
    (setSystem e (.member z) s.homotopy h).bind (setupTracker e (.member z) e.dflt e.newton)

/-- `DefaultSetup`, `zero_dim_solve.hpp:341-347`; settings and midpath checker left out. -/
def defaultSetup (e : Env) (z : ℕ) (h : Heap) : Option Heap :=
  (defaultSystemSetup e z h).bind (defaultTrackerSetup e z)

/-- `ZeroDim(target, start, hom)`, `zero_dim_solve.hpp:306-311`, with `RefToGiven(target, start, hom)`
(`policies.hpp:289-294`): the tracker is made on the target, the endgame on the tracker; then `ConsistencyCheck`,
which throws, and `DefaultSetup`. -/
def construct (e : Env) (z t k hm : ℕ) (h : Heap) : Option Heap :=
  if e.valid t then
    defaultSetup e z ((newTracker e (.member z) t h).setSolver z ⟨t, k, hm, 0, .member z⟩)
  else none

/-- `SetTracker`, `zero_dim_solve.hpp:428-432`: copy assignment, then the endgame refers to the member
(`prec_base.hpp:63-66`). -/
def setTracker (z : ℕ) (src : TId) (h : Heap) : Option Heap :=
  (assignTracker (.member z) src h).bind fun h =>
    (h.solvers z).map fun s => h.setSolver z { s with egTracker := .member z }

/-- `SetEndgame`, `zero_dim_solve.hpp:461-464`, with an endgame that refers to the tracker `i`: memberwise copy. -/
def setEndgame (z : ℕ) (i : TId) (h : Heap) : Option Heap :=
  (h.solvers z).map fun s => h.setSolver z { s with egTracker := i }

/-- The implicit copy constructor of `ZeroDim` (none is declared or deleted, `zero_dim_solve.hpp:239-320`):
memberwise. -/
def copySolver (z' z : ℕ) (h : Heap) : Option Heap :=
  (assignTracker (.member z') (.member z) h).bind fun h =>
    (h.solvers z).map fun s => h.setSolver z' s

/-- The setters of the policy, `policies.hpp:94-113`. -/
def setTarget (z i : ℕ) (h : Heap) : Option Heap :=
  (h.solvers z).map fun s => h.setSolver z { s with target := i }

def setStart (z i : ℕ) (h : Heap) : Option Heap :=
  (h.solvers z).map fun s => h.setSolver z { s with start := i }

def setHomotopy (z i : ℕ) (h : Heap) : Option Heap :=
  (h.solvers z).map fun s => h.setSolver z { s with homotopy := i }

/-- What a program does with these objects. -/
inductive Op
  | newTracker (n sys : ℕ)
  | assignTracker (dst src : TId)
  | setPredictor (i : TId) (m : ℕ)
  | setSystem (i : TId) (s : ℕ)
  | setupTracker (i : TId) (m newton : ℕ)
  | construct (z t k hm : ℕ)
  | defaultSetup (z : ℕ)
  | setTracker (z : ℕ) (src : TId)
  | setEndgame (z : ℕ) (i : TId)
  | copySolver (z' z : ℕ)
  | setTarget (z i : ℕ)
  | setStart (z i : ℕ)
  | setHomotopy (z i : ℕ)

/-- One call; `none` when it throws, or an object it needs was not made. -/
def Op.run (e : Env) : Op → Heap → Option Heap
  | .newTracker n s => fun h => some (Wire.newTracker e (.user n) s h)
  | .assignTracker d s => Wire.assignTracker d s
  | .setPredictor i m => Wire.setPredictor e i m
  | .setSystem i s => Wire.setSystem e i s
  | .setupTracker i m n => Wire.setupTracker e i m n
  | .construct z t k hm => Wire.construct e z t k hm
  | .defaultSetup z => Wire.defaultSetup e z
  | .setTracker z s => Wire.setTracker z s
  | .setEndgame z i => Wire.setEndgame z i
  | .copySolver z' z => Wire.copySolver z' z
  | .setTarget z i => Wire.setTarget z i
  | .setStart z i => Wire.setStart z i
  | .setHomotopy z i => Wire.setHomotopy z i

/-- A program. -/
def runOps (e : Env) : List Op → Heap → Option Heap
  | [], h => some h
  | o :: os, h => (o.run e h).bind (runOps e os)

/-! ### What the user can see -/

/-- `GetSystem()` of a tracker, `base_tracker.hpp:373-376`. -/
def getSystem (h : Heap) (i : TId) : Option ℕ := (h.trackers i).map Tracker.sys

/-- `GetPredictor()`, `base_tracker.hpp:354-357`. -/
def getPredictor (h : Heap) (i : TId) : Option ℕ := (h.trackers i).map fun t => (h.cells t.cell).method

end B2.Alg.Wire
