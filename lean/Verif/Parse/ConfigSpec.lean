import Verif.Parse.Config
import Verif.Parse.PropsParse

/-!
# Specification of configuration files
-/

namespace B2.Parse.Config

open B2.Parse

/-- A statement `ident : val ;` with white space before and after the identifier. -/
structure Stmt where
  pre : List Char
  ident : List Char
  mid : List Char
  val : List Char

/-- The text of a statement. -/
def Stmt.text (s : Stmt) : List Char := s.pre ++ (s.ident ++ (s.mid ++ ':' :: (s.val ++ [';'])))

/-- White space where it should be; no colon, semicolon or white space in the identifier; no colon or semicolon in the
value. -/
structure Stmt.WF (s : Stmt) : Prop where
  pre : Ws s.pre
  mid : Ws s.mid
  ident : s.ident ≠ []
  identChar : ∀ c ∈ s.ident, isSpace c = false ∧ c ≠ ':' ∧ c ≠ ';'
  val : ∀ c ∈ s.val, c ≠ ':' ∧ c ≠ ';'

/-- The text of a configuration section: statements and white space at the end. -/
def fileText : List Stmt → List Char → List Char
  | [], w => w
  | s :: F, w => s.text ++ fileText F w

/-- A natural number with white space around it. -/
def NatText (v : List Char) (n : ℕ) : Prop :=
  ∃ p ds q, v = p ++ (ds ++ q) ∧ Ws p ∧ Ws q ∧ Digits ds ∧ ds ≠ [] ∧ n = natOf ds

/-- An integer with optional sign and white space around it. -/
def IntText (v : List Char) (n : ℤ) : Prop :=
  ∃ p sg ds q, v = p ++ (sg ++ (ds ++ q)) ∧ Ws p ∧ Ws q ∧ Digits ds ∧ ds ≠ [] ∧
    ((sg = [] ∨ sg = ['+']) ∧ n = natOf ds ∨ sg = ['-'] ∧ n = -(natOf ds : ℤ))

/-- A decimal number with optional minus sign and white space around it. -/
def NumText (v : List Char) (x : ℚ) : Prop :=
  ∃ p l q y, Ws p ∧ Ws q ∧ Literal l y ∧ (v = p ++ (l ++ q) ∧ x = y ∨ v = p ++ ('-' :: (l ++ q)) ∧ x = -y)

/-- What the text of a value denotes.  With `full`, fractions are admitted for rational numbers. -/
inductive Denotes (full : Bool) : Kind → List Char → Value → Prop
  | uint (v n) : NatText v n → n < 2 ^ 32 → Denotes full .uint v (.nat n)
  | int (v n) : IntText v n → -2 ^ 31 ≤ n → n < 2 ^ 31 → Denotes full .int v (.int n)
  | intU (v n) : IntText v n → -2 ^ 31 ≤ n → n < 2 ^ 31 → Denotes full .intU v (.nat (n % 2 ^ 32).toNat)
  | bool (v n) : IntText v n → -2 ^ 31 ≤ n → n < 2 ^ 31 → Denotes full .bool v (.bool (decide (n ≠ 0)))
  | num (v x) : NumText v x → Denotes full .num v (.num x)
  | rational (v x) : NumText v x → Denotes full .rational v (.num x)
  | fraction (v v' x y) : full = true → NumText v x → NumText v' y → y ≠ 0 →
      Denotes full .rational (v ++ '/' :: v') (.num (x / y))
  | sym (T k n p q) : (k, n) ∈ T → Ws p → Ws q → Denotes full (.sym T) (p ++ (k ++ q)) (.enum n)
  | var (p q c r) : Ws p → Ws q → isAlpha c = true →
      (∀ d ∈ r, isAlpha d = true ∨ '0' ≤ d ∧ d ≤ '9' ∨ d = '[' ∨ d = ']' ∨ d = '_') →
      Denotes full .var (p ++ (c :: r ++ q)) (.str (c :: r))

/-- The struct `c` is what the statements say: every statement that assigns a setting has a valid value, which is the value of
the member; no setting is assigned twice; other members keep their default.  `hit` says which setting a statement assigns. -/
def Reads (full : Bool) (hit : Setting → Stmt → Prop) (sch : Schema) (F : List Stmt) (c : Conf) : Prop :=
  (∀ s ∈ F, ∀ st ∈ sch.sets, hit st s → ∃ v, Denotes full st.kind s.val v ∧ c st.field = v) ∧
  F.Pairwise (fun s s' => ∀ st ∈ sch.sets, ¬ (hit st s ∧ hit st s')) ∧
  ∀ f, (∀ s ∈ F, ∀ st ∈ sch.sets, hit st s → st.field ≠ f) → c f = sch.dflt f

/-- A statement assigns a setting if its identifier is the name of the setting, whatever the case of its letters. -/
def Names (st : Setting) (s : Stmt) : Prop := lower s.ident = st.name

/-- The identifier ends with the name of the setting. -/
def EndsWith (st : Setting) (s : Stmt) : Prop := st.name <:+ lower s.ident

/-- The parsers of all configuration structs. -/
def allSchemas : List Schema :=
  [stepping, amp, security, endgame, powerSeries, cauchy, trackBack, tolerances, zeroDim, midPath, autoRetrack, sharpening,
    regeneration, postProcessing, newton, precisionType, predictor, algoChoice, fixedPrecision]

/-- The parsers all of whose rules stop at `all_names_`. -/
def regularSchemas : List Schema :=
  [stepping, amp, security, endgame, powerSeries, cauchy, trackBack, tolerances, zeroDim, midPath, autoRetrack, sharpening,
    regeneration, postProcessing]

/-- The names of all settings. -/
def allNames : List (List Char) := allSchemas.flatMap fun sch => sch.sets.map (·.name)

end B2.Parse.Config
