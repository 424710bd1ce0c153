import Verif.Tree.Syntax

/-!
# The expression parser

Code: `FunctionParser`, /repo/core/include/bertini2/io/parsing/function_rules.hpp lines 137-303;
the number rules, /repo/core/include/bertini2/io/parsing/number_rules.hpp lines 62-165.

The grammar is written with Boost.Spirit Qi: ordered choice `|` without backtracking into a chosen
alternative, sequence `>>`, expectation `>` (a mismatch after it makes the whole parse fail), and a
skipper that removes white space before every token.

Simplifications: values of numbers are exact (`Float` holds the decimal value); an integer literal
with an exponent or two minus signs throws in the number library; literals of several digits starting
with 0 (which the library reads as octal) are not modelled and count as failures.
-/

namespace B2.Parse

open B2

/-- `ascii::space`. -/
def isSpace (c : Char) : Bool :=
  c = ' ' || c = '\t' || c = '\n' || c = '\r' || c = Char.ofNat 11 || c = Char.ofNat 12

/-- `char_('0','9')`. -/
def isDigit (c : Char) : Bool := decide ('0' ≤ c ∧ c ≤ '9')

/-- `qi::alpha` (ASCII). -/
def isAlpha (c : Char) : Bool := decide (('a' ≤ c ∧ c ≤ 'z') ∨ ('A' ≤ c ∧ c ≤ 'Z'))

/-- `qi::alnum` (ASCII). -/
def isAlnum (c : Char) : Bool := isAlpha c || isDigit c

/-- The skipper. -/
def skip (s : List Char) : List Char := s.dropWhile isSpace

/-- A character literal, with skipping before it. -/
def eat (c : Char) (s : List Char) : Option (List Char) :=
  match skip s with
  | [] => none
  | d :: r => if d = c then some r else none

/-- A string literal at the beginning of the text. -/
def eatStr : List Char → List Char → Option (List Char)
  | [], s => some s
  | _ :: _, [] => none
  | k :: ks, d :: r => if d = k then eatStr ks r else none

/-- Result of a rule: no match; the parse as a whole fails (expectation not met, or an exception);
match with the rest of the text. -/
inductive R
  | fail
  | err
  | ok (n : Node) (rest : List Char)

/-- The known symbols (`encountered_symbols`): names and their nodes. -/
abbrev Table := List (List Char × Node)

/-- `qi::symbols`: the longest name that the text starts with. -/
def longest : Table → List Char → Option (List Char × Node)
  | [], _ => none
  | (k, n) :: T, s =>
    if (eatStr k s).isSome then
      match longest T s with
      | some (k', n') => if k.length < k'.length then some (k', n') else some (k, n)
      | none => some (k, n)
    else longest T s

/-- Value of a string of digits. -/
def natOf (ds : List Char) : ℕ := ds.foldl (fun a c => 10 * a + (c.toNat - '0'.toNat)) 0

/-- Optional `'-'` without skipping. -/
def optMinus : List Char → Bool × List Char
  | '-' :: r => (true, r)
  | s => (false, s)

/-- `exponent_notation_`, number_rules.hpp 140-153. -/
def expo (s : List Char) : Option (ℤ × List Char) :=
  match s with
  | [] => none
  | c :: r =>
    if c = 'e' ∨ c = 'E' then
      let m := optMinus r
      let ds := m.2.takeWhile isDigit
      if ds = [] then none
      else some ((if m.1 then -(natOf ds : ℤ) else natOf ds), m.2.dropWhile isDigit)
    else none

/-- `long_number_string_`, number_rules.hpp 93-129: optional minus, digits with a point among or
around them, optional exponent. -/
def longNum (s : List Char) : Option (ℚ × List Char) :=
  let m := optMinus s
  let a := m.2.takeWhile isDigit
  match m.2.dropWhile isDigit with
  | '.' :: r =>
    let b := r.takeWhile isDigit
    let r' := r.dropWhile isDigit
    if a = [] ∧ b = [] then none
    else
      let v : ℚ := (if m.1 then -1 else 1) * (natOf (a ++ b) : ℚ) / 10 ^ b.length
      match expo r' with
      | some (x, r'') => some (v * (10 : ℚ) ^ x, r'')
      | none => some (v, r')
  | _ => none

/-- `integer_string_` with `number_with_no_point_`, number_rules.hpp 86-91, 131-137, and the
construction of the `Integer` node. -/
def intNum (s : List Char) : R :=
  let m := optMinus s
  let m' := optMinus m.2
  let ds := m'.2.takeWhile isDigit
  let r := m'.2.dropWhile isDigit
  if ds = [] then .fail
  else if m.1 ∧ m'.1 then .err
  else if (expo r).isSome then .err
  else if ds.head? = some '0' ∧ ds ≠ ['0'] then .err
  else .ok (.int (if m.1 ∨ m'.1 then -(natOf ds : ℤ) else natOf ds)) r

/-- `number_`, function_rules.hpp 236-239; the number rules have no skipper, white space is skipped
before them only. -/
def number (s : List Char) : R :=
  match longNum (skip s) with
  | some (v, r) => .ok (.float v 0) r
  | none => intNum (skip s)

/-- `symbol_`, function_rules.hpp 220-225. -/
def symbol (T : Table) (s : List Char) : R :=
  match longest T (skip s) with
  | some (k, n) => .ok n ((skip s).drop k.length)
  | none => number s

/-- `!qi::alnum` fails on this text: the next token starts with a letter or digit. -/
def nextAlnum (s : List Char) : Bool :=
  match skip s with
  | [] => false
  | c :: _ => isAlnum c

/-- The functions known to the grammar, function_rules.hpp 199-204. -/
inductive Fn
  | sin | cos | tan | exp | log | sqrt
  deriving DecidableEq

/-- Keyword. -/
def Fn.name : Fn → List Char
  | .sin => ['s', 'i', 'n']
  | .cos => ['c', 'o', 's']
  | .tan => ['t', 'a', 'n']
  | .exp => ['e', 'x', 'p']
  | .log => ['l', 'o', 'g']
  | .sqrt => ['s', 'q', 'r', 't']

/-- Node made by the semantic action. -/
def Fn.app : Fn → Node → Node
  | .sin => .sin
  | .cos => .cos
  | .tan => .tan
  | .exp => .exp
  | .log => .log
  | .sqrt => .sqrt

/-- First keyword of the list that the text starts with. -/
def keyword : List Fn → List Char → Option (Fn × List Char)
  | [], _ => none
  | f :: fs, s =>
    match eatStr f.name s with
    | some r => some (f, r)
    | none => keyword fs s

/-- The keywords in the order of the alternatives. -/
def allFns : List Fn := [.sin, .cos, .tan, .exp, .log, .sqrt]

/-- `_val += _1`, `_val -= _1`: arithmetic.hpp 1100-1105, 1175-1180. -/
def sum2 (f : Bool) (a b : Node) : Node := .sum (.cons true a (.cons f b .nil))

/-- `_val *= _1`, `_val /= _1`: arithmetic.hpp 1302-1343, 1345-1365 (for operands that are not
integer powers; the parser makes none). -/
def mult2 (f : Bool) (a b : Node) : Node := .mult (.cons true a (.cons f b .nil))

mutual
/-- `expression_`, function_rules.hpp 163-169.  Here and below the tests on lengths only serve to
show termination; they always succeed (`expr_consumes`). -/
def expr (T : Table) (s : List Char) : R :=
  match term T s with
  | .ok n r => if _h : r.length < s.length then addLoop T n r else .err
  | x => x
termination_by (s.length, 7)
/-- The loop `*( '+' > term_ | '-' > term_ )`. -/
def addLoop (T : Table) (n : Node) (s : List Char) : R :=
  match eat '+' s with
  | some r =>
    if _h : r.length < s.length then
      match term T r with
      | .ok m r' => if _h' : r'.length < s.length then addLoop T (sum2 true n m) r' else .err
      | _ => .err
    else .err
  | none =>
    match eat '-' s with
    | some r =>
      if _h : r.length < s.length then
        match term T r with
        | .ok m r' => if _h' : r'.length < s.length then addLoop T (sum2 false n m) r' else .err
        | _ => .err
      else .err
    | none => .ok n s
termination_by (s.length, 6)
/-- `term_`, function_rules.hpp 171-177. -/
def term (T : Table) (s : List Char) : R :=
  match factor T s with
  | .ok n r => if _h : r.length < s.length then mulLoop T n r else .err
  | x => x
termination_by (s.length, 5)
/-- The loop `*( '*' > factor_ | '/' > factor_ )`. -/
def mulLoop (T : Table) (n : Node) (s : List Char) : R :=
  match eat '*' s with
  | some r =>
    if _h : r.length < s.length then
      match factor T r with
      | .ok m r' => if _h' : r'.length < s.length then mulLoop T (mult2 true n m) r' else .err
      | _ => .err
    else .err
  | none =>
    match eat '/' s with
    | some r =>
      if _h : r.length < s.length then
        match factor T r with
        | .ok m r' => if _h' : r'.length < s.length then mulLoop T (mult2 false n m) r' else .err
        | _ => .err
      else .err
    | none => .ok n s
termination_by (s.length, 4)
/-- `factor_`, function_rules.hpp 179-189. -/
def factor (T : Table) (s : List Char) : R :=
  match elem T s with
  | .ok n r => if _h : r.length < s.length then powLoop T n r else .err
  | x => x
termination_by (s.length, 3)
/-- The loop `*( '^' > exp_elem_ )`. -/
def powLoop (T : Table) (n : Node) (s : List Char) : R :=
  match eat '^' s with
  | some r =>
    if _h : r.length < s.length then
      match elem T r with
      | .ok m r' => if _h' : r'.length < s.length then powLoop T (.pow n m) r' else .err
      | _ => .err
    else .err
  | none => .ok n s
termination_by (s.length, 2)
/-- `exp_elem_`, function_rules.hpp 191-205. -/
def elem (T : Table) (s : List Char) : R :=
  match symbol T s with
  | .err => .err
  | .ok n r => if nextAlnum r then elemAlt T s else .ok n r
  | .fail => elemAlt T s
termination_by (s.length, 1)
/-- The alternatives of `exp_elem_` after the first. -/
def elemAlt (T : Table) (s : List Char) : R :=
  match eat '(' s with
  | some r =>
    if _h : r.length < s.length then
      match expr T r with
      | .ok n r' =>
        match eat ')' r' with
        | some r'' => .ok n r''
        | none => .err
      | _ => .err
    else .err
  | none =>
  match eat '-' s with
  | some r =>
    if _h : r.length < s.length then
      match expr T r with
      | .ok n r' => .ok (.neg n) r'
      | _ => .err
    else .err
  | none =>
  match eat '+' s with
  | some r =>
    if _h : r.length < s.length then
      match expr T r with
      | .ok n r' => .ok n r'
      | _ => .err
    else .err
  | none =>
  match keyword allFns (skip s) with
  | some (f, r) =>
    match eat '(' r with
    | some r1 =>
      if _h : r1.length < s.length then
        match expr T r1 with
        | .ok n r' =>
          match eat ')' r' with
          | some r'' => .ok (f.app n) r''
          | none => .err
        | _ => .err
      else .err
    | none => .err
  | none => .fail
termination_by (s.length, 0)
end

/-- `parse`, function_parsers.hpp 41-65: the text must be consumed completely (trailing white space
is skipped by `phrase_parse`).  The root rule wraps the result in a `Function` node, which is omitted
here. -/
def parse (T : Table) (s : List Char) : Option Node :=
  match expr T s with
  | .ok n r => if skip r = [] then some n else none
  | _ => none

end B2.Parse
