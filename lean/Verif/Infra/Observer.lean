/-
Model of `Observable`, /repo/core/include/bertini2/detail/observable.hpp lines 44-112.
An observer is identified by its address, a natural number.
-/
import Mathlib.Data.List.Basic

namespace B2.Infra

/-- Calls that change the list of watchers. -/
inductive Op
  | add (a : ℕ)
  | rem (a : ℕ)
  deriving DecidableEq

/-- `AddObserver`, observable.hpp lines 55-61. -/
def addObs (l : List ℕ) (a : ℕ) : List ℕ := if a ∈ l then l else l ++ [a]

/-- `RemoveObserver`, observable.hpp lines 66-77: remove-erase. -/
def remObs (l : List ℕ) (a : ℕ) : List ℕ := l.filter fun b => b ≠ a

/-- One call. -/
def applyOp (l : List ℕ) : Op → List ℕ
  | .add a => addObs l a
  | .rem a => remObs l a

/-- A history of calls on a new observable. -/
def runOps (h : List Op) : List ℕ := h.foldl applyOp []

/-- The calls an observer makes on the observable while it is being notified; `none` when one of them changes the vector
that is being traversed: erasing or inserting invalidates the end iterator of the range-based `for`, and going on is
undefined behaviour. -/
def during (l : List ℕ) : List Op → Option Unit
  | [] => some ()
  | o :: os => if applyOp l o = l then during l os else none

/-- The loop of `NotifyObservers`, observable.hpp lines 88-101, over the remaining watchers of `l`: the observers that received the
event, in order; `none` is undefined behaviour.  `act a` are the calls observer `a` makes on the observable. -/
def notifyLoop (act : ℕ → List Op) (l : List ℕ) : List ℕ → Option (List ℕ)
  | [] => some []
  | a :: rest =>
    match during l (act a) with
    | none => none
    | some () =>
      match notifyLoop act l rest with
      | none => none
      | some r => some (a :: r)

/-- `NotifyObservers`, observable.hpp lines 88-101. -/
def notify (act : ℕ → List Op) (l : List ℕ) : Option (List ℕ) := notifyLoop act l l

/-! What an implementation does whose `erase` shifts elements down in place and whose iterators are plain pointers. -/

/-- The storage and the size of the vector after removing `a` from the first `size` slots: the kept elements are moved
down, the slots behind them keep their old contents. -/
def rawRemove (mem : List ℕ) (size a : ℕ) : List ℕ × ℕ :=
  let kept := (mem.take size).filter fun b => b ≠ a
  (kept ++ mem.drop kept.length, kept.length)

/-- The loop with the pointers fixed at its start: `n` slots left, the next one is slot `i`.  `self a` tells whether
observer `a` removes itself. -/
def rawLoop (self : ℕ → Bool) : ℕ → ℕ → List ℕ → ℕ → List ℕ
  | 0, _, _, _ => []
  | n + 1, i, mem, size =>
    match mem[i]? with
    | none => []
    | some a =>
      let m := if self a then rawRemove mem size a else (mem, size)
      a :: rawLoop self n (i + 1) m.1 m.2

/-- The deliveries of one notification. -/
def rawNotify (self : ℕ → Bool) (l : List ℕ) : List ℕ := rawLoop self l.length 0 l l.length

end B2.Infra
