import Mathlib.Data.List.Forall2
import Mathlib.Data.List.Induction
import Mathlib.Tactic.Ring
import Mathlib.Tactic.Linarith

/-!
# `IndexToSubscript`

Code: `core/include/bertini2/system/start/utility.hpp:58-81`. The integer type is unbounded here (the
code uses `unsigned long long`/`size_t`; products above `2^64` wrap).
-/

namespace B2.Start

/-- The vector `k`, utility.hpp lines 63-65: `k[0]` is `acc`, `k[ii+1] = k[ii]*dimensions[ii]`. -/
def strides : ℕ → List ℕ → List ℕ
  | _, [] => []
  | acc, d :: ds => acc :: strides (acc * d) ds

/-- The loop of utility.hpp lines 72-78, which runs from the last position to the first: its argument is `k`
reversed, and its result is `subscripts` reversed. -/
def subscriptLoop : ℕ → List ℕ → List ℕ
  | _, [] => []
  | index, k :: ks => (index - index % k) / k :: subscriptLoop (index % k) ks

/-- `IndexToSubscript(index, dimensions)`. An empty dimension list is undefined behaviour
(`dimensions.size()-1` wraps, `back()` of an empty vector): `none`, as is the exception of utility.hpp line 69. -/
def indexToSubscript (index : ℕ) (dims : List ℕ) : Option (List ℕ) :=
  match (strides 1 dims).getLast?, dims.getLast? with
  | some k, some d =>
    if index ≥ k * d then none else some (subscriptLoop index (strides 1 dims).reverse).reverse
  | _, _ => none

end B2.Start
