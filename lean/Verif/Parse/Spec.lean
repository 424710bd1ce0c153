import Verif.Parse.Grammar

/-!
# The usual syntax of expressions

A grammar for expressions with the usual precedence, written as a relation between texts and nodes.
It does not mention the parser.
-/

namespace B2.Parse

open B2

/-- White space. -/
def Ws (w : List Char) : Prop := ∀ c ∈ w, isSpace c = true

/-- Digits. -/
def Digits (ds : List Char) : Prop := ∀ c ∈ ds, isDigit c = true

/-- A decimal numeral: digits, no leading zero unless it is `0`. -/
def Numeral (ds : List Char) : Prop := ds ≠ [] ∧ Digits ds ∧ (ds.head? = some '0' → ds = ['0'])

/-- The text does not start like a number. -/
def NoNumber (s : List Char) : Prop := ∀ c, s.head? = some c → isDigit c = false ∧ c ≠ '.' ∧ c ≠ '-'

/-- `Conv T full lit level text node`: the text denotes the node.

Levels: 4 atoms (numbers, names, parentheses, functions), 3 powers, 2 products, 1 sums without
leading minus, 0 expressions.  A leading minus applies to the term that follows it.  White space is
allowed before every token.  With `full = false` nothing may follow a term with a leading minus
(except a closing parenthesis or the end), and that term does not start with a number.  With
`lit = true` negative integer literals are atoms as well. -/
inductive Conv (T : Table) (full lit : Bool) : ℕ → List Char → Node → Prop
  | int (w ds) : Ws w → Numeral ds → Conv T full lit 4 (w ++ ds) (.int (natOf ds))
  | neglit (w ds) : lit = true → Ws w → Numeral ds → Conv T full lit 4 (w ++ '-' :: ds) (.int (-(natOf ds : ℤ)))
  | dec (w a b) : Ws w → Digits a → Digits b → ¬ (a = [] ∧ b = []) →
      Conv T full lit 4 (w ++ (a ++ '.' :: b)) (.float ((natOf (a ++ b) : ℚ) / 10 ^ b.length) 0)
  | decExp (w a b e) (m : Bool) (ds) : Ws w → Digits a → Digits b → ¬ (a = [] ∧ b = []) → (e = 'e' ∨ e = 'E') →
      ds ≠ [] → Digits ds →
      Conv T full lit 4 (w ++ (a ++ '.' :: (b ++ e :: (if m then '-' :: ds else ds))))
        (.float ((natOf (a ++ b) : ℚ) / 10 ^ b.length * (10 : ℚ) ^ (if m then -(natOf ds : ℤ) else (natOf ds : ℤ))) 0)
  | sym (w name n) : Ws w → (name, n) ∈ T → Conv T full lit 4 (w ++ name) n
  | paren (w s w' n) : Ws w → Ws w' → Conv T full lit 0 s n → Conv T full lit 4 (w ++ '(' :: (s ++ (w' ++ [')']))) n
  | fn (f : Fn) (w w1 s w' n) : Ws w → Ws w1 → Ws w' → Conv T full lit 0 s n →
      Conv T full lit 4 (w ++ (f.name ++ (w1 ++ '(' :: (s ++ (w' ++ [')']))))) (f.app n)
  | pow (a w b x y) : Ws w → Conv T full lit 3 a x → Conv T full lit 4 b y →
      Conv T full lit 3 (a ++ (w ++ '^' :: b)) (.pow x y)
  | mul (a w b x y) : Ws w → Conv T full lit 2 a x → Conv T full lit 3 b y →
      Conv T full lit 2 (a ++ (w ++ '*' :: b)) (mult2 true x y)
  | div (a w b x y) : Ws w → Conv T full lit 2 a x → Conv T full lit 3 b y →
      Conv T full lit 2 (a ++ (w ++ '/' :: b)) (mult2 false x y)
  | add (a w b x y) : Ws w → Conv T full lit 1 a x → Conv T full lit 2 b y →
      Conv T full lit 1 (a ++ (w ++ '+' :: b)) (sum2 true x y)
  | sub (a w b x y) : Ws w → Conv T full lit 1 a x → Conv T full lit 2 b y →
      Conv T full lit 1 (a ++ (w ++ '-' :: b)) (sum2 false x y)
  | neg (w s n) : Ws w → (full = true ∨ NoNumber s) → Conv T full lit 2 s n → Conv T full lit 0 (w ++ '-' :: s) (.neg n)
  | negAdd (a w b x y) : full = true → Ws w → Conv T full lit 0 a x → Conv T full lit 2 b y →
      Conv T full lit 0 (a ++ (w ++ '+' :: b)) (sum2 true x y)
  | negSub (a w b x y) : full = true → Ws w → Conv T full lit 0 a x → Conv T full lit 2 b y →
      Conv T full lit 0 (a ++ (w ++ '-' :: b)) (sum2 false x y)
  | up (k s n) : k < 4 → Conv T full lit (k + 1) s n → Conv T full lit k s n

/-- Characters of names. -/
def isNameChar (c : Char) : Bool := isAlnum c || c = '[' || c = ']' || c = '_'

/-- A symbol table as the system parser builds it: distinct names starting with a letter; in addition
no name is that of a function of the grammar. -/
structure Good (T : Table) : Prop where
  names : ∀ k n, (k, n) ∈ T → (∃ c r, k = c :: r ∧ isAlpha c = true) ∧ ∀ c ∈ k, isNameChar c = true
  inj : ∀ k n n', (k, n) ∈ T → (k, n') ∈ T → n = n'
  nofn : ∀ k n, (k, n) ∈ T → ∀ f : Fn, k ≠ f.name

end B2.Parse
