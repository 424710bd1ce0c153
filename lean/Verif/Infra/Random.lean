/-
Model of the random numbers: /repo/core/include/bertini2/random.hpp and /repo/core/src/basics/random.cpp.

The generators are `mt19937` with the default seed, one per function and number of digits (they are `static` in the templates); what
they give is a parameter: `int d k` is the `k`-th draw of a newly made `uniform_int_distribution` for `d` digits, and `real t k`
the `k`-th draw of the distribution of `RandomMp<t>`.  Boost's distributions themselves are not modelled, only their ranges.
-/
import Mathlib.Data.Real.Basic
import Mathlib.Data.Rat.Defs

namespace B2.Infra.Rnd

/-- The bound given to `uniform_int_distribution`, random.hpp lines 52 and 65: `mpz_int(1) << digits*1000L/301L`. -/
def bound (digits : ℕ) : ℤ := 2 ^ (digits * 1000 / 301)

/-- What the newly seeded generators give. -/
structure Source where
  int : ℕ → ℕ → ℤ
  real : ℕ → ℕ → ℝ

/-- The distributions keep within their bounds: `uniform_int_distribution(-b, b)` includes both, `uniform_real_distribution(0,1)`. -/
structure Source.Ok (g : Source) : Prop where
  int : ∀ d k, -(bound d) ≤ g.int d k ∧ g.int d k ≤ bound d
  real : ∀ t k, 0 ≤ g.real t k ∧ g.real t k ≤ 1

/-- The state: how many draws each of the static generators has made, and the default precision. -/
structure St where
  intPos : ℕ → ℕ
  ratPos : ℕ → ℕ
  mpPos : ℕ → ℕ
  dp : ℕ

/-- A result, or an exception; with the state after it. -/
inductive Out (α : Type) where
  | ok (a : α) (s : St)
  | throw (s : St)

/-- A number with its precision. -/
structure Mp where
  val : ℝ
  prec : ℕ

/-- A complex number with its precision. -/
structure MpC where
  re : ℝ
  im : ℝ
  prec : ℕ

/-- `n` more draws from the generator for `d`. -/
def adv (f : ℕ → ℕ) (d n : ℕ) : ℕ → ℕ := fun e => if e = d then f e + n else f e

/-- `RandomInt<digits>`, random.hpp lines 46-54. -/
def randomInt (g : Source) (d : ℕ) (s : St) : Out ℤ :=
  .ok (g.int d (s.intPos d)) { s with intPos := adv s.intPos d 1 }

/-- `RandomRat<digits>`, random.hpp lines 60-67: `mpq_rational(ui(mt),ui(mt))`, which throws when the denominator is zero.  The
arguments are evaluated in unspecified order; here the numerator is drawn first. -/
def randomRat (g : Source) (d : ℕ) (s : St) : Out ℚ :=
  let n := g.int d (s.ratPos d)
  let q := g.int d (s.ratPos d + 1)
  let s' := { s with ratPos := adv s.ratPos d 2 }
  if q = 0 then .throw s' else .ok (n / q) s'

/-- `k` calls of `RandomInt<d>` in a row. -/
def ints (g : Source) (d : ℕ) : ℕ → St → List ℤ
  | 0, _ => []
  | k + 1, s => match randomInt g d s with
    | .ok a s' => a :: ints g d k s'
    | .throw s' => ints g d k s'

/-- `k` calls of `RandomRat<d>` in a row; `none` where one throws. -/
def rats (g : Source) (d : ℕ) : ℕ → St → List (Option ℚ)
  | 0, _ => []
  | k + 1, s => match randomRat g d s with
    | .ok a s' => some a :: rats g d k s'
    | .throw s' => none :: rats g d k s'

/-- At the start of the program, with default precision `dp`. -/
def St.init (dp : ℕ) : St := ⟨fun _ => 0, fun _ => 0, fun _ => 0, dp⟩

/-- The lengths for which `RandomMp(num_digits)` instantiates the template, random.cpp lines 44-75, in the order of the `if`s. -/
def lengths : List ℕ :=
  [50, 100, 200, 400, 800, 1600, 3200, 6400, 8000, 10000, 12000, 14000, 16000, 18000, 20000, 40000]

/-- The chain of `if`s, random.cpp lines 44-77 and 104-137. -/
def pick (n : ℕ) : Option ℕ := lengths.find? fun t => n ≤ t

/-- `RandomMp(num_digits)`, random.cpp lines 40-80.  `rnd p` rounds to `p` digits (`a.precision(num_digits)`, line 78). -/
def randomMp (g : Source) (rnd : ℕ → ℝ → ℝ) (n : ℕ) (s : St) : Out Mp :=
  match pick n with
  | none => .throw s
  | some t => .ok ⟨rnd n (g.real t (s.mpPos t)), n⟩ { s with mpPos := adv s.mpPos t 1 }

/-- `RandomMp(a, b, num_digits)`, random.cpp lines 100-140, with random.hpp lines 109-113: `(right-left)*RandomMp<length>()+left`.  Each
operation rounds to the precision `w` in which boost works there. -/
def randomMpIn (g : Source) (rnd : ℕ → ℝ → ℝ) (w : ℕ) (a b : ℝ) (n : ℕ) (s : St) : Out Mp :=
  match pick n with
  | none => .throw s
  | some t => .ok ⟨rnd n (rnd w (rnd w (rnd w (b - a) * g.real t (s.mpPos t)) + a)), n⟩ { s with mpPos := adv s.mpPos t 1 }

/-- `RandomReal(num_digits)` and `RandomRealAssign`, random.hpp lines 167-195: the default precision is set, and restored at the end. -/
def randomReal (g : Source) (rnd : ℕ → ℝ → ℝ) (w : ℕ) (n : ℕ) (s : St) : Out MpC :=
  match randomMpIn g rnd w (-1) 1 n { s with dp := n } with
  | .throw s' => .throw s'
  | .ok x s' => .ok ⟨x.val, 0, n⟩ { s' with dp := s.dp }

/-- `rand()`, random.hpp lines 206-209: at the default precision.  (The order in which the parts are drawn is unspecified; here the
real part is first.) -/
def rand (g : Source) (rnd : ℕ → ℝ → ℝ) (w : ℕ) (s : St) : Out MpC :=
  match randomMpIn g rnd w (-1) 1 s.dp s with
  | .throw s' => .throw s'
  | .ok x s' =>
    match randomMpIn g rnd w (-1) 1 s.dp s' with
    | .throw s'' => .throw s''
    | .ok y s'' => .ok ⟨x.val, y.val, s.dp⟩ s''

/-- `rand_assign`, `RandomComplexAssign`, `RandomComplex(num_digits)`, random.hpp lines 226-249. -/
def randomComplex (g : Source) (rnd : ℕ → ℝ → ℝ) (n : ℕ) (s : St) : Out MpC :=
  match randomMp g rnd n { s with dp := n } with
  | .throw s' => .throw s'
  | .ok x s' =>
    match randomMp g rnd n s' with
    | .throw s'' => .throw s''
    | .ok y s'' => .ok ⟨x.val, y.val, n⟩ { s'' with dp := s.dp }

end B2.Infra.Rnd
