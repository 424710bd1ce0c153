/-
Model of the object pool and of the witness set:
/repo/core/include/bertini2/pool/pool.hpp lines 64-115,
/repo/core/include/bertini2/nag_datatypes/witness_set.hpp lines 56-235.
-/
import Mathlib.Data.List.Basic
import Mathlib.Data.List.Count

namespace B2.Infra

/-- The pool: `held_data_`.  An entry is a shared pointer to an object (identified by a number) or a null pointer left by
a move; `fresh` is the next object to be allocated; `leaked` the objects allocated without an owner. -/
structure PoolSt where
  held : List (Option ℕ) := []
  fresh : ℕ := 0
  leaked : List ℕ := []

/-- `use_count`: owners in the pool and `out x` owners elsewhere; a null pointer has none. -/
def useCount (out : ℕ → ℕ) (held : List (Option ℕ)) : Option ℕ → ℕ
  | none => 0
  | some x => held.count (some x) + out x

/-- `Make`, pool.hpp lines 93-101: two objects are constructed; the first is never owned; the second goes into the pool and is
returned. -/
def poolMake (s : PoolSt) : PoolSt × ℕ :=
  ({ held := s.held ++ [some (s.fresh + 1)], fresh := s.fresh + 2, leaked := s.fresh :: s.leaked }, s.fresh + 1)

/-- `PtrAdd`, pool.hpp lines 85-90. -/
def poolPtrAdd (s : PoolSt) (p : Option ℕ) : PoolSt := { s with held := s.held ++ [p] }

/-- `std::remove_if` as called by `PurgeCache`, pool.hpp lines 103-107, from position `i` on: entries to be kept are moved to
position `res`, a moved-from entry is null; moving overwrites, the vector is not shortened.  The predicate looks at the
use count at that moment. -/
def purgeLoop (out : ℕ → ℕ) : ℕ → ℕ → ℕ → List (Option ℕ) → List (Option ℕ)
  | 0, _, _, mem => mem
  | n + 1, i, res, mem =>
    match mem[i]? with
    | none => mem
    | some e =>
      if useCount out mem e = 1 then purgeLoop out n (i + 1) res mem
      else if res = i then purgeLoop out n (i + 1) (res + 1) mem
      else purgeLoop out n (i + 1) (res + 1) ((mem.set res e).set i none)

/-- `PurgeCache`, pool.hpp lines 103-107: the iterator returned by `std::remove_if` is discarded, nothing is erased. -/
def purge (out : ℕ → ℕ) (held : List (Option ℕ)) : List (Option ℕ) := purgeLoop out held.length 0 0 held

/-- The outcome of an access. -/
inductive Access (α : Type)
  | ok (x : α)
  | throws
  | undef
  deriving DecidableEq

/-- `WitnessSet::GetPoint`, witness_set.hpp lines 160-170: throws for `ind > Degree()`; `points_[ind]` is undefined behaviour for
`ind = Degree()`. -/
def getPoint {α : Type} (points : List α) (ind : ℕ) : Access α :=
  if points.length < ind then .throws
  else match points[ind]? with
    | some x => .ok x
    | none => .undef

/-- `WitnessSet::IsConsistent`, witness_set.hpp lines 225-228: subtraction of `size_t` values, compared with an `unsigned`. -/
def isConsistent (vars funcs dim : ℕ) : Bool := (vars + 2 ^ 64 - funcs) % 2 ^ 64 == dim

end B2.Infra
