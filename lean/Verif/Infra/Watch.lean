/-
Model of several observable objects (trackers, endgames, the zero-dimensional solver) and the observers attached to them:
`Observable`, /repo/core/include/bertini2/detail/observable.hpp 44-112, and `AnyObserver`, `MultiObserver`,
detail/observer.hpp 48-119.

Objects and observers are identified by their addresses; that the address of a destroyed one may be used again is left
out, and observers do not change the lists while they are notified (that is `Observer.lean`).
-/
import Verif.Infra.Observer

namespace B2.Infra

/-- What a program does to observable objects `o` and observers `a`. -/
inductive Act
  /-- construct the object `o` -/
  | create (o : ℕ)
  /-- construct the object `d` as a copy of `s`, or from `std::move(s)` -/
  | copy (s d : ℕ)
  /-- `d = s`, or `d = std::move(s)` -/
  | assign (s d : ℕ)
  | add (o a : ℕ)
  | rem (o a : ℕ)
  /-- the observer `a` is destroyed -/
  | destroy (a : ℕ)
  deriving DecidableEq

/-- The lists `current_watchers_` of all objects, and the observers destroyed so far. -/
structure Watch where
  watchers : ℕ → List ℕ
  dead : List ℕ

/-- The list of one object is replaced. -/
def Watch.put (w : Watch) (o : ℕ) (l : List ℕ) : Watch :=
  { w with watchers := fun p => if p = o then l else w.watchers p }

/-- One action.  `Observable` declares its destructor (observable.hpp 48), so it has the implicit copy constructor and copy
assignment and no move operations: copying and moving an object both copy the vector of references (110-112).
`~AnyObserver` (observer.hpp 57) tells nobody. -/
def watchStep (w : Watch) : Act → Watch
  | .create o => w.put o []
  | .copy s d => w.put d (w.watchers s)
  | .assign s d => w.put d (w.watchers s)
  | .add o a => w.put o (addObs (w.watchers o) a)
  | .rem o a => w.put o (remObs (w.watchers o) a)
  | .destroy a => { w with dead := a :: w.dead }

/-- The state after the actions `h`, of which the last comes first. -/
def watchRun : List Act → Watch
  | [] => ⟨fun _ => [], []⟩
  | x :: h => watchStep (watchRun h) x

/-- `NotifyObservers` of the object `o`, observable.hpp 88-101: the observers whose `Observe` is called, in order; `none` is
undefined behaviour, the use of a reference to a destroyed observer. -/
def deliver (w : Watch) (o : ℕ) : Option (List ℕ) :=
  if (w.watchers o).any (fun a => decide (a ∈ w.dead)) then none else some (w.watchers o)

/-- An observer: a plain one, or a `MultiObserver` with its components `observers_`, observer.hpp 96-117. -/
inductive Obs
  | plain (a : ℕ)
  | multi (a : ℕ) (parts : List Obs)

mutual
/-- The plain observers that see the event when `Observe` of an observer is called; a `MultiObserver` passes it to its
components in order (observer.hpp 106-111). -/
def Obs.sees : Obs → List ℕ
  | .plain a => [a]
  | .multi _ ps => seesAll ps

/-- The loop `for_each` over the components. -/
def seesAll : List Obs → List ℕ
  | [] => []
  | p :: ps => p.sees ++ seesAll ps
end

end B2.Infra
