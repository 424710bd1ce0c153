import Verif.Parse.Numbers

/-!
# Reading and writing numbers in double precision

Code: `generators::Classic::generate` for `double` and `std::complex<double>` and `generators::CPlusPlus::generate` for
`std::complex<double>`, /repo/core/include/bertini2/io/generators.hpp lines 75-85, 109-146, 206-226; `classic::parse` and
`cplusplus::parse` for `double` and `std::complex<double>`,
/repo/core/include/bertini2/io/parsing/number_parsers.hpp lines 125-172, 236-286.

Simplifications: the value of a text is the exact decimal number; the rounding between the 53 bits of a double and the
digits of the text is not modelled.  `qi::double_` and `karma::real_generator` of the library are modelled from their
documented grammar; the refusal of numbers outside the range of a double is not modelled.
-/

namespace B2.Parse.Doubles

open B2.Parse B2.Parse.Config

/-- The value of a double: a number, an infinity, not a number.  The two zeros are not distinguished (they compare
equal). -/
inductive Val
  | fin (x : ℚ)
  | inf (neg : Bool)
  | nan (neg : Bool)
  deriving DecidableEq

/-! ### `qi::double_` -/

/-- The optional sign, `+` or `-` (`parse_sign`). -/
def sign : List Char → Bool × List Char
  | '-' :: r => (true, r)
  | '+' :: r => (false, r)
  | s => (false, s)

/-- `parse_nan`, `parse_inf` of the library: the words in any case; `nan` takes a parenthesised text with it, `inf` the
letters `inity`. -/
def word (neg : Bool) (s : List Char) : Option (Val × List Char) :=
  match eatNoCase ['n', 'a', 'n'] s with
  | some ('(' :: r) =>
    match r.dropWhile (fun c => decide (c ≠ ')')) with
    | [] => none
    | _ :: r' => some (.nan neg, r')
  | some r => some (.nan neg, r)
  | none =>
    match eatNoCase ['i', 'n', 'f'] s with
    | none => none
    | some r =>
      match eatNoCase ['i', 'n', 'i', 't', 'y'] r with
      | some r' => some (.inf neg, r')
      | none => some (.inf neg, r)

/-- The exponent with its sign; without digits nothing is taken (`parse_exp`, `parse_exp_n`). -/
def expo (s : List Char) : ℤ × List Char :=
  match s with
  | c :: r =>
    if c = 'e' ∨ c = 'E' then
      if (sign r).2.takeWhile isDigit = [] then (0, s)
      else (if (sign r).1 then -(natOf ((sign r).2.takeWhile isDigit) : ℤ) else natOf ((sign r).2.takeWhile isDigit),
        (sign r).2.dropWhile isDigit)
    else (0, s)
  | [] => (0, s)

/-- The value of sign, digits before and after the point and exponent. -/
def value (neg : Bool) (a b : List Char) (e : ℤ) : ℚ :=
  (if neg then -1 else 1) * ((natOf (a ++ b) : ℚ) / 10 ^ b.length * (10 : ℚ) ^ e)

/-- The number after its sign: digits, an optional point with digits, an optional exponent; at least one digit. -/
def body (neg : Bool) (s : List Char) : Option (Val × List Char) :=
  match s.dropWhile isDigit with
  | '.' :: r =>
    if s.takeWhile isDigit = [] ∧ r.takeWhile isDigit = [] then none
    else some (.fin (value neg (s.takeWhile isDigit) (r.takeWhile isDigit) (expo (r.dropWhile isDigit)).1),
      (expo (r.dropWhile isDigit)).2)
  | r =>
    if s.takeWhile isDigit = [] then none
    else some (.fin (value neg (s.takeWhile isDigit) [] (expo r).1), (expo r).2)

/-- What follows the sign: the words are tried when there is no digit. -/
def unsigned (neg : Bool) (s : List Char) : Option (Val × List Char) :=
  if s.takeWhile isDigit = [] then
    match word neg s with
    | some x => some x
    | none => body neg s
  else body neg s

/-- `qi::double_` with the white space before it. -/
def dbl (s : List Char) : Option (Val × List Char) := unsigned (sign (skip s)).1 (sign (skip s)).2

/-! ### The parsers -/

/-- `if (!r || first != last) return false` after `phrase_parse`, which skips the white space at the end. -/
def whole {α : Type} : Option (α × List Char) → Option α
  | none => none
  | some (a, r) => if skip r = [] then some a else none

/-- `classic::parse` and `cplusplus::parse` for `double`, number_parsers.hpp lines 125-147, 238-260.  `none`: returns
false. -/
def readReal (s : List Char) : Option Val := whole (dbl s)

/-- The grammar of `classic::parse` for `std::complex<double>`, number_parsers.hpp lines 158-166: a number and an optional
number, or a number.  The imaginary part starts at 0. -/
def classicRule (s : List Char) : Option ((Val × Val) × List Char) :=
  match dbl s with
  | some (x, r) =>
    match dbl r with
    | some (y, r') => some ((x, y), r')
    | none => some ((x, .fin 0), r)
  | none =>
    match dbl s with
    | some (x, r) => some ((x, .fin 0), r)
    | none => none

/-- `classic::parse` for `std::complex<double>`, number_parsers.hpp lines 149-172. -/
def readClassic (s : List Char) : Option (Val × Val) := whole (classicRule s)

/-- The first alternative of `cplusplus::parse`, number_parsers.hpp lines 275-276, with the variables `rN`, `iN` that its
actions assign even when it fails later. -/
def parenRule (s : List Char) : (Val × Val) × Option (List Char) :=
  match eat '(' s with
  | none => ((.fin 0, .fin 0), none)
  | some r =>
    match dbl r with
    | none => ((.fin 0, .fin 0), none)
    | some (x, r) =>
      match (eat ',' r).bind dbl with
      | some (y, r') => ((x, y), eat ')' r')
      | none => ((x, .fin 0), eat ')' r)

/-- The grammar of `cplusplus::parse`, number_parsers.hpp lines 274-278: the first alternative or a number, whose action
assigns `rN` only. -/
def cppRule (s : List Char) : Option ((Val × Val) × List Char) :=
  match parenRule s with
  | (v, some r) => some (v, r)
  | (v, none) =>
    match dbl s with
    | some (x, r) => some ((x, v.2), r)
    | none => none

/-- `cplusplus::parse` for `std::complex<double>`, number_parsers.hpp lines 263-286. -/
def readCpp (s : List Char) : Option (Val × Val) := whole (cppRule s)

/-! ### The generators -/

/-- A double as `karma::real_generator` in scientific format sees it: sign, digits before and after the point, exponent. -/
inductive Dbl
  | fin (neg : Bool) (a b : List Char) (e : ℤ)
  | inf (neg : Bool)
  | nan (neg : Bool)
  deriving DecidableEq

/-- The double compares equal to zero. -/
def Dbl.zero : Dbl → Bool
  | .fin _ a b _ => natOf (a ++ b) = 0
  | _ => false

/-- The minus sign. -/
def minus (neg : Bool) (s : List Char) : List Char := if neg then '-' :: s else s

/-- `full_prec_d`, generators.hpp lines 75-85, 103-106: scientific format; zero has no sign, a positive exponent neither; the
exponent has at least two digits. -/
def text : Dbl → List Char
  | .fin neg a b e =>
    minus (neg && !(Dbl.fin neg a b e).zero) (a ++ '.' :: (b ++ 'e' :: minus (decide (e < 0)) (Numbers.expDigits e.natAbs)))
  | .inf neg => minus neg ['i', 'n', 'f']
  | .nan neg => minus neg ['n', 'a', 'n']

/-- The integer 0 given as data on generators.hpp line 124. -/
def zeroDbl : Dbl := .fin false ['0'] ['0'] 0

/-- `Classic::generate` for `std::complex<double>`, generators.hpp lines 129-146. -/
def writeClassic (x y : Dbl) : List Char := text x ++ ' ' :: text y

/-- `Classic::generate` for `double`, generators.hpp lines 109-126: the data are the number and 0. -/
def writeReal (x : Dbl) : List Char := writeClassic x zeroDbl

/-- `CPlusPlus::generate` for `std::complex<double>`, generators.hpp lines 206-226: parentheses unless the imaginary part
is 0. -/
def writeCpp (x y : Dbl) : List Char :=
  if y.zero then text x else '(' :: (text x ++ ',' :: ' ' :: (text y ++ [')']))

end B2.Parse.Doubles
