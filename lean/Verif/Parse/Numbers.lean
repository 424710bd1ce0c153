import Verif.Parse.Config
import Verif.Parse.Print

/-!
# Reading and writing numbers in the classic format

Code: `MpfrFloatParser`, `MpfrComplexParser` and the functions `classic::parse` for `mpfr_float` and `mpfr_complex`,
/repo/core/include/bertini2/io/parsing/number_parsers.hpp lines 36-125, 176-232; `generators::Classic::generate` for
`mpfr_float` and `mpfr_complex`, /repo/core/include/bertini2/io/generators.hpp lines 138-174.

Simplifications: the value of a text is the exact decimal number, the rounding to the binary precision of the result is
not modelled (the number of digits of that precision is).  The library function `str()` that the generators call is
modelled from its documented format: shortest of fixed or scientific notation, see `strOf`.  The parsers for `double` are
in Doubles.lean.
-/

namespace B2.Parse.Numbers

open B2.Parse B2.Parse.Config

/-- A number of a given precision (decimal digits). -/
structure Fl where
  val : ℚ
  prec : ℕ
  deriving DecidableEq

/-- `LowestMultiplePrecision`, num_traits.hpp lines 137-140. -/
def lowest : ℕ := 20

/-- `MpfrFloatParser`, number_parsers.hpp lines 52-68: `number_string_`, then the number is made from the text with at
least as many digits as the text has characters.  `dflt` is the default precision.  Two minus signs pass the rule
`integer_string_` and make the constructor throw (`.err`). -/
def mpfrFloat (dflt : ℕ) (s : List Char) : V Fl :=
  match numP s with
  | .fail => .fail
  | .err => .err
  | .ok v r => .ok ⟨v, max ((skip s).length - r.length) (max dflt lowest)⟩ r

/-- `MpfrComplexParser`, number_parsers.hpp lines 100-117: two numbers in sequence; the precision is the larger one. -/
def mpfrComplex (dflt : ℕ) (s : List Char) : V (Fl × Fl) :=
  match mpfrFloat dflt s with
  | .fail => .fail
  | .err => .err
  | .ok a r =>
    match mpfrFloat dflt r with
    | .fail => .fail
    | .err => .err
    | .ok b r' => .ok (⟨a.val, max a.prec b.prec⟩, ⟨b.val, max a.prec b.prec⟩) r'

/-- What a call of `parse` does: returns false, throws, returns true with a value. -/
inductive Out (α : Type)
  | no
  | throws
  | yes (a : α)
  deriving DecidableEq

/-- `phrase_parse` followed by `if (!r || first != last) return false`, number_parsers.hpp lines 188-200, 219-230.  The
trailing white space is skipped by `phrase_parse`. -/
def whole {α : Type} : V α → Out α
  | .fail => .no
  | .err => .throws
  | .ok a r => if skip r = [] then .yes a else .no

/-- `classic::parse` for `mpfr_float`, number_parsers.hpp lines 176-200. -/
def parseFloat (dflt : ℕ) (s : List Char) : Out Fl := whole (mpfrFloat dflt s)

/-- `classic::parse` for `mpfr_complex`, number_parsers.hpp lines 207-230. -/
def parseComplex (dflt : ℕ) (s : List Char) : Out (Fl × Fl) := whole (mpfrComplex dflt s)

/-! ### Writing -/

/-- A finite number as the library prints it: zero, or sign, digits `d₀d₁…` and exponent, meaning `± d₀.d₁… · 10^e`. -/
inductive Dec
  | zero
  | num (neg : Bool) (ds : List Char) (e : ℤ)
  deriving DecidableEq

/-- Without trailing zeros. -/
def trim (ds : List Char) : List Char := (ds.reverse.dropWhile fun c => c = '0').reverse

/-- The exponent, at least two digits. -/
def expDigits (n : ℕ) : List Char := if n < 10 then '0' :: showNat n else showNat n

/-- Sign, digits and exponent as text: trailing zeros are dropped; fixed notation when the exponent is at least -4 and less
than `lim`, otherwise scientific notation with a sign before the exponent. -/
def fmt (lim : ℕ) (neg : Bool) (ds : List Char) (e : ℤ) : List Char :=
  let t := trim ds
  let body :=
    if -4 ≤ e ∧ e < lim then
      if e < 0 then '0' :: '.' :: (List.replicate (-1 - e).toNat '0' ++ t)
      else if t.length ≤ e.toNat + 1 then t ++ List.replicate (e.toNat + 1 - t.length) '0'
      else t.take (e.toNat + 1) ++ '.' :: t.drop (e.toNat + 1)
    else
      (if 1 < t.length then t.take 1 ++ '.' :: t.drop 1 else t) ++
        'e' :: ((if e < 0 then '-' else '+') :: expDigits e.natAbs)
  if neg then '-' :: body else body

/-- `str()` without arguments, called on generators.hpp lines 151 and 170: fixed notation when the exponent is less than
the number of digits (or 16 if that is more). -/
def strOf : Dec → List Char
  | .zero => ['0']
  | .num neg ds e => fmt (max ds.length 16) neg ds e

/-- `Classic::generate` for `mpfr_float`, generators.hpp lines 138-153. -/
def genFloat (x : Dec) : List Char := strOf x

/-- `Classic::generate` for `mpfr_complex`, generators.hpp lines 157-172. -/
def genComplex (x y : Dec) : List Char := strOf x ++ ' ' :: strOf y

end B2.Parse.Numbers
