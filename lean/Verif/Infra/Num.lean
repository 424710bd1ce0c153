/-
Model of small numeric pieces:
`pow`, /repo/core/include/bertini2/double_extensions.hpp lines 88-115;
random units, /repo/core/include/bertini2/random.hpp lines 215-261 and num_traits.hpp lines 198-222;
the check of an LU decomposition, /repo/core/include/bertini2/eigen_extensions.hpp lines 352-445;
linear slices, /repo/core/include/bertini2/system/slice.hpp lines 60-330.
Arithmetic is exact.
-/
import Mathlib.Analysis.Complex.Basic
import Mathlib.Algebra.Field.Defs

namespace B2.Infra

/-- The do-while loop of `pow`, double_extensions.hpp lines 103-110: `p >>= 1` until it is zero. -/
def powLoop {K : Type} [Field K] (p : ℕ) (result sq : K) : K :=
  if p / 2 = 0 then (if p % 2 = 1 then result * sq else result)
  else powLoop (p / 2) (if p % 2 = 1 then result * sq else result) (sq * sq)
termination_by p
decreasing_by omega

/-- `pow` for a non-negative exponent, double_extensions.hpp lines 92-113. -/
def powNonneg {K : Type} [Field K] (z : K) (n : ℕ) : K :=
  if n = 0 then 1 else if n = 1 then z else if n = 2 then z * z else if n = 3 then z * z * z else powLoop n 1 z

/-- `pow(z, power)`, double_extensions.hpp lines 88-115.  `none`: the negation of the most negative `int` overflows (undefined behaviour), or
the inverse of zero is needed (not a number). -/
def powInt {K : Type} [Field K] [DecidableEq K] (z : K) (n : ℤ) : Option K :=
  if n < 0 then
    if n = -2 ^ 31 then none
    else if z = 0 then none
    else some (powNonneg (1 / z) (-n).toNat)
  else some (powNonneg z n.toNat)

/-- `multiprecision::rand_unit` (random.hpp 215-219) and `RandomUnitAssign` (252-261): a random number divided by the
square root of its absolute value. -/
noncomputable def randUnitMp (z : ℂ) : ℂ := z / (Real.sqrt ‖z‖ : ℝ)

/-- `RandomUnit<dbl_complex>`, num_traits.hpp 209-216. -/
noncomputable def randUnitDbl (z : ℂ) : ℂ := z / (‖z‖ : ℝ)

/-- `MatrixSuccessCode`. -/
inductive MSC
  | success
  | largeChange
  | smallValue
  deriving DecidableEq

/-- `IsSmallValue`, eigen_extensions.hpp 352-357; `eps` is `NumTraits<T>::epsilon()`. -/
noncomputable def isSmall (eps : ℝ) (x : ℂ) : Bool := decide (‖x‖ ≤ eps * 100)

/-- `IsLargeChange`, eigen_extensions.hpp lines 389-398; `dummy` is `NumTraits<T>::dummy_precision()`. -/
noncomputable def isLarge (dummy : ℝ) (num den : ℂ) : Bool := decide (1 / dummy ≤ ‖num / den‖)

/-- The loop of `LUPartialPivotDecompositionSuccessful`, eigen_extensions.hpp lines 425-436, from row `ii` down to row 1.  `d` is the diagonal
of the matrix. -/
noncomputable def luLoop (eps dummy : ℝ) (d : ℕ → ℂ) : ℕ → Option MSC
  | 0 => none
  | ii + 1 =>
    if isSmall eps (d (ii + 1)) then some .smallValue
    else if isLarge dummy (d ii) (d (ii + 1)) then some .largeChange
    else luLoop eps dummy d ii

/-- `LUPartialPivotDecompositionSuccessful`, eigen_extensions.hpp lines 416-445, for a matrix with `n + 1` rows (the function asserts that the
matrix is not empty). -/
noncomputable def luCheck (eps dummy : ℝ) (d : ℕ → ℂ) (n : ℕ) : MSC :=
  match luLoop eps dummy d n with
  | some c => c
  | none => if isSmall eps (d 0) then .smallValue else .success

/-! Linear slices. -/

/-- `LinearSlice`: the coefficient matrix by rows, the constants, the number of variables, the dimension, whether it is
homogeneous.  Simplified: the working copies in double and multiple precision are one exact copy. -/
structure Slice (K : Type) where
  coeffs : List (List K)
  consts : List K
  nvars : ℕ
  dim : ℕ
  hom : Bool

/-- Rows of the transposed matrix; `c` is the number of columns. -/
def transpose {K : Type} (m : List (List K)) (c : ℕ) : List (List K) :=
  (List.range c).map fun j => m.filterMap fun r => r[j]?

/-- `LinearSlice::Make`, slice.hpp lines 228-310.  `gen r c` is the random matrix with `r` rows and `c` columns, in the orthogonal
case replaced by the factor `q r c` of its QR factorisation (of the same shape); `cst n` are random constants.  The
constructor (line 214) makes the vector of constants of length `dim`; the assertions at the end (lines 302-310) are
failures (`none`). -/
def makeSlice {K : Type} (gen q : ℕ → ℕ → List (List K)) (cst : ℕ → List K) (zero : K) (nvars dim : ℕ)
    (hom orth : Bool) : Option (Slice K) :=
  let mindim := min dim nvars
  let maxdim := max dim nvars
  let m := if orth then (if dim < nvars then transpose (q maxdim mindim) mindim else q maxdim mindim) else gen dim nvars
  let c := if hom then List.replicate dim zero else cst dim
  if m.length ≠ dim then none
  else if ¬ (∀ r ∈ m, r.length = nvars) then none
  else if hom then (if c.length = 0 then some ⟨m, c, nvars, dim, hom⟩ else none)
  else if c.length = dim then some ⟨m, c, nvars, dim, hom⟩ else none

/-- Dot product. -/
def dotL {K : Type} [Field K] (r x : List K) : K := (List.zipWith (· * ·) r x).sum

/-- `LinearSlice::Eval`, slice.hpp lines 102-120.  `none`: sizes that do not match. -/
def evalSlice {K : Type} [Field K] (s : Slice K) (x : List K) : Option (List K) :=
  if ∀ r ∈ s.coeffs, r.length = x.length then
    if s.hom then some (s.coeffs.map fun r => dotL r x)
    else if s.consts.length = s.coeffs.length then
      some (List.zipWith (· + ·) (s.coeffs.map fun r => dotL r x) s.consts)
    else none
  else none

/-- `LinearSlice::Jacobian`, slice.hpp lines 125-141. -/
def jacSlice {K : Type} (s : Slice K) : List (List K) := s.coeffs

/-- What `serialize`, slice.hpp lines 320-328, writes: coefficients and variables (and the precision). -/
def saveSlice {K : Type} (s : Slice K) : List (List K) × ℕ := (s.coeffs, s.nvars)

/-- Loading into a default-constructed slice (slice.hpp lines 187-203): dimension 0, no constants, not homogeneous. -/
def loadSlice {K : Type} (a : List (List K) × ℕ) : Slice K := ⟨a.1, [], a.2, 0, false⟩

end B2.Infra
