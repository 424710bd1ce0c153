import Verif.Parse.PropsParse

/-!
# Printing of expressions

Code: the `print` members of the node classes.
-/

namespace B2.Parse

open B2

/-- Digit character. -/
def digit (d : ℕ) : Char := Char.ofNat (48 + d)

/-- Decimal digits of a natural number, as `operator<<` for `mpz` writes them. -/
def showNat (n : ℕ) : List Char := if n < 10 then [digit n] else showNat (n / 10) ++ [digit (n % 10)]
termination_by n
decreasing_by omega

/-- `Integer::print`, symbols/number.cpp 62-65. -/
def showInt (z : ℤ) : List Char := if z < 0 then '-' :: showNat z.natAbs else showNat z.natAbs

/-- `operator<<` for `mpq_rational`: numerator, and `/` denominator unless that is 1. -/
def showRat (q : ℚ) : List Char := showInt q.num ++ (if q.den = 1 then [] else '/' :: showNat q.den)

/-- What the nodes contribute that this model does not have: names of variables and functions, and the
format of complex floating point numbers (number library). -/
structure Names where
  var : Var → List Char
  float : ℚ → ℚ → List Char
  fn : Node → List Char

mutual
/-- `print`: operators/arithmetic.cpp 167-187 (sum), 467-472 (negate), 692-711 (product), 948-951 (power),
1137-1142 (integer power), 1202-1207 (sqrt), 1284-1289 (exp), 1360-1365 (log); operators/trig.cpp 55-60,
101-106, 147-152, 192-197, 239-244, 284-289; symbols/number.cpp 62-65, 97-100, 131-134; symbols/symbol.cpp
58-61 (variables and special numbers print their name); roots/function.cpp 99-107. -/
def print (P : Names) : Node → List Char
  | .int z => showInt z
  | .float re im => P.float re im
  | .rat re im => '(' :: (showRat re ++ (',' :: (showRat im ++ [')'])))
  | .special .pi => ['p', 'i']
  | .special .e => ['e']
  | .var v => P.var v
  | .sum ops => '(' :: (printSum P true ops ++ [')'])
  | .mult ops => '(' :: (printMult P true ops ++ [')'])
  | .neg n => '-' :: '(' :: (print P n ++ [')'])
  | .pow b e => ('(' :: (print P b ++ [')'])) ++ ('^' :: '(' :: (print P e ++ [')']))
  | .ipow n k => '(' :: ((print P n ++ ('^' :: showInt k)) ++ [')'])
  | .sqrt n => ['s', 'q', 'r', 't'] ++ '(' :: (print P n ++ [')'])
  | .exp n => ['e', 'x', 'p'] ++ '(' :: (print P n ++ [')'])
  | .log n => ['l', 'o', 'g'] ++ '(' :: (print P n ++ [')'])
  | .sin n => ['s', 'i', 'n'] ++ '(' :: (print P n ++ [')'])
  | .cos n => ['c', 'o', 's'] ++ '(' :: (print P n ++ [')'])
  | .tan n => ['t', 'a', 'n'] ++ '(' :: (print P n ++ [')'])
  | .asin n => ['a', 's', 'i', 'n'] ++ '(' :: (print P n ++ [')'])
  | .acos n => ['a', 'c', 'o', 's'] ++ '(' :: (print P n ++ [')'])
  | .atan n => ['a', 't', 'a', 'n'] ++ '(' :: (print P n ++ [')'])
  | .fn n => P.fn n ++ ([' ', 'f', 'u', 'n', 'c', 't', 'i', 'o', 'n', ' ', '('] ++ (print P n ++ [')']))
/-- The loop of `SumOperator::print`; `first` tells whether the operand is the first. -/
def printSum (P : Names) (first : Bool) : Ops → List Char
  | .nil => []
  | .cons f n r => (if f then (if first then [] else ['+']) else ['-']) ++ (print P n ++ printSum P false r)
/-- The loop of `MultOperator::print`.  The code writes the sign of the next operand after each operand
but the last; here each operand but the first writes its own sign before it. -/
def printMult (P : Names) (first : Bool) : Ops → List Char
  | .nil => []
  | .cons f n r =>
    (if first then (if f then [] else ['1', '/']) else (if f then ['*'] else ['/'])) ++ (print P n ++ printMult P false r)
end

mutual
/-- The printed expressions considered in C58: no node prints a leading minus except integers and
negations standing directly in parentheses or at the top (`top`); operators have at least one operand (an
invariant of the code); names of variables and constants are in the table.  With `ex = true` rational
numbers and inverse trigonometric functions are included. -/
def Frag (P : Names) (T : Table) (ex : Bool) : Node → Bool → Prop
  | .int _, _ => True
  | .float _ _, _ => False
  | .rat _ _, _ => ex = true
  | .special .pi, _ => (['p', 'i'], .special .pi) ∈ T
  | .special .e, _ => (['e'], .special .e) ∈ T
  | .var v, _ => (P.var v, .var v) ∈ T
  | .sum ops, _ => FragSum P T ex ops
  | .mult ops, _ => FragMult P T ex ops
  | .neg n, top => top = true ∧ Frag P T ex n true
  | .pow b e, _ => Frag P T ex b true ∧ Frag P T ex e true
  | .ipow n _, _ => Frag P T ex n false
  | .sqrt n, _ => Frag P T ex n true
  | .exp n, _ => Frag P T ex n true
  | .log n, _ => Frag P T ex n true
  | .sin n, _ => Frag P T ex n true
  | .cos n, _ => Frag P T ex n true
  | .tan n, _ => Frag P T ex n true
  | .asin n, _ => ex = true ∧ Frag P T ex n true
  | .acos n, _ => ex = true ∧ Frag P T ex n true
  | .atan n, _ => ex = true ∧ Frag P T ex n true
  | .fn _, _ => False
/-- Operands of a sum: the first is added, not subtracted. -/
def FragSum (P : Names) (T : Table) (ex : Bool) : Ops → Prop
  | .nil => False
  | .cons f n r => f = true ∧ Frag P T ex n false ∧ FragOps P T ex r
/-- Operands of a product. -/
def FragMult (P : Names) (T : Table) (ex : Bool) : Ops → Prop
  | .nil => False
  | .cons _ n r => Frag P T ex n false ∧ FragOps P T ex r
/-- Further operands. -/
def FragOps (P : Names) (T : Table) (ex : Bool) : Ops → Prop
  | .nil => True
  | .cons _ n r => Frag P T ex n false ∧ FragOps P T ex r
end

/-! ## Numerals -/

theorem digit_spec : ∀ d, d < 10 → isDigit (digit d) = true ∧ (digit d).toNat - '0'.toNat = d ∧ (digit d = '0' → d = 0) := by
  decide

theorem natOf_snoc (l : List Char) (c : Char) : natOf (l ++ [c]) = 10 * natOf l + (c.toNat - '0'.toNat) := by
  unfold natOf; rw [List.foldl_append]; rfl

theorem natOf_showNat (n : ℕ) : natOf (showNat n) = n := by
  induction n using Nat.strong_induction_on with
  | _ n ih =>
    rw [showNat]
    split_ifs with h
    · have := (digit_spec n h).2.1
      unfold natOf
      simp only [List.foldl_cons, List.foldl_nil]
      omega
    · rw [natOf_snoc, ih (n / 10) (by omega), (digit_spec (n % 10) (by omega)).2.1]
      omega

theorem showNat_numeral (n : ℕ) : Numeral (showNat n) := by
  have key : showNat n ≠ [] ∧ Digits (showNat n) ∧ ((showNat n).head? = some '0' → n = 0) := by
    induction n using Nat.strong_induction_on with
    | _ n ih =>
      rw [showNat]
      split_ifs with h
      · refine ⟨by simp, ?_, ?_⟩
        · intro c hc
          simp only [List.mem_singleton] at hc
          subst hc
          exact (digit_spec n h).1
        · intro hh
          simp only [List.head?_cons, Option.some.injEq] at hh
          exact (digit_spec n h).2.2 hh
      · obtain ⟨h1, h2, h3⟩ := ih (n / 10) (by omega)
        refine ⟨by simp, ?_, ?_⟩
        · intro c hc
          simp only [List.mem_append, List.mem_singleton] at hc
          rcases hc with hc | hc
          · exact h2 c hc
          · subst hc; exact (digit_spec (n % 10) (by omega)).1
        · intro hh
          rw [List.head?_append_of_ne_nil _ h1] at hh
          have := h3 hh
          omega
  refine ⟨key.1, key.2.1, fun h => ?_⟩
  rw [key.2.2 h, showNat]
  decide

theorem showInt_conv (T : Table) (full : Bool) (z : ℤ) : Conv T full true 4 (showInt z) (.int z) := by
  unfold showInt
  split_ifs with h
  · have := Conv.neglit (T := T) (full := full) [] (showNat z.natAbs) rfl ws_nil (showNat_numeral _)
    rw [natOf_showNat] at this
    have e : -(z.natAbs : ℤ) = z := by omega
    rw [e] at this
    exact this
  · have := Conv.int (T := T) (full := full) (lit := true) [] (showNat z.natAbs) ws_nil (showNat_numeral _)
    rw [natOf_showNat] at this
    have e : (z.natAbs : ℤ) = z := by omega
    rw [e] at this
    exact this

/-- Levels are cumulative. -/
theorem conv_mono (T : Table) (full lit : Bool) (s : List Char) (n : Node) (j k : ℕ) (hk : k ≤ 4) (hjk : j ≤ k)
    (h : Conv T full lit k s n) : Conv T full lit j s n := by
  induction k with
  | zero => rw [Nat.le_zero.1 hjk]; exact h
  | succ k ih =>
    rcases Nat.lt_or_ge j (k + 1) with h1 | h1
    · exact ih (by omega) (by omega) (.up k _ _ (by omega) h)
    · rw [show j = k + 1 by omega]; exact h

/-- The level of the text in a position: anything in parentheses, at least a power among operands. -/
def lev (top : Bool) : ℕ := if top then 0 else 3

theorem conv_paren (T : Table) (lit : Bool) (s : List Char) (n : Node) (h : Conv T false lit 0 s n) :
    Conv T false lit 4 ('(' :: (s ++ [')'])) n := .paren [] s [] n ws_nil ws_nil h

theorem conv_fn (T : Table) (lit : Bool) (f : Fn) (s : List Char) (n : Node) (h : Conv T false lit 0 s n) :
    Conv T false lit 4 (f.name ++ '(' :: (s ++ [')'])) (f.app n) := .fn f [] [] s [] n ws_nil ws_nil ws_nil h

theorem conv_lev (T : Table) (lit : Bool) (s : List Char) (n : Node) (top : Bool) (h : Conv T false lit 4 s n) :
    Conv T false lit (lev top) s n := conv_mono T false lit s n _ 4 (le_refl _) (by cases top <;> decide) h

theorem sum_of (env : Env) (f : Bool) (x m n : Node) (r : Ops) (hm : eval env m = eval env n) :
    eval env (sum2 f x m) + evalSum env r = eval env x + evalSum env (.cons f n r) := by
  simp only [sum2, eval, evalSum, hm, if_true]
  cases f <;> simp <;> ring

theorem mult_of (env : Env) (f : Bool) (x m n : Node) (r : Ops) (hm : eval env m = eval env n) :
    eval env (mult2 f x m) * evalMult env r = eval env x * evalMult env (.cons f n r) := by
  simp only [mult2, eval, evalMult, hm, if_true]
  cases f <;> simp <;> ring

mutual
theorem print_conv (P : Names) (T : Table) : ∀ (n : Node) (top : Bool), Frag P T false n top →
    ∃ m, Conv T false true (lev top) (print P n) m ∧ ∀ env, eval env m = eval env n
  | .int z, top, _ => ⟨.int z, conv_lev _ _ _ _ _ (by rw [print]; exact showInt_conv T false z), fun _ => rfl⟩
  | .float _ _, _, h => by rw [Frag] at h; exact h.elim
  | .rat _ _, _, h => by rw [Frag] at h; cases h
  | .special .pi, top, h => by
    rw [Frag] at h
    exact ⟨_, conv_lev _ _ _ _ _ (by rw [print]; exact .sym [] _ _ ws_nil h), fun _ => rfl⟩
  | .special .e, top, h => by
    rw [Frag] at h
    exact ⟨_, conv_lev _ _ _ _ _ (by rw [print]; exact .sym [] _ _ ws_nil h), fun _ => rfl⟩
  | .var v, top, h => by
    rw [Frag] at h
    exact ⟨_, conv_lev _ _ _ _ _ (by rw [print]; exact .sym [] _ _ ws_nil h), fun _ => rfl⟩
  | .sum ops, top, h => by
    rw [Frag] at h
    cases ops with
    | nil => rw [FragSum] at h; exact h.elim
    | cons f n r =>
      rw [FragSum] at h
      obtain ⟨rfl, hn, hr⟩ := h
      obtain ⟨m, h1, h2⟩ := print_conv P T n false hn
      obtain ⟨m', h3, h4⟩ := printSum_conv P T r hr (print P n) m (conv_mono _ _ _ _ _ 1 3 (by decide) (by decide) h1)
      refine ⟨m', conv_lev _ _ _ _ _ ?_, ?_⟩
      · rw [print, printSum]
        exact conv_paren _ _ _ _ (.up 0 _ _ (by decide) (by simpa using h3))
      · intro env
        rw [h4, h2, eval, evalSum]
        simp
  | .mult ops, top, h => by
    rw [Frag] at h
    cases ops with
    | nil => rw [FragMult] at h; exact h.elim
    | cons f n r =>
      rw [FragMult] at h
      obtain ⟨hn, hr⟩ := h
      obtain ⟨m, h1, h2⟩ := print_conv P T n false hn
      cases f with
      | true =>
        obtain ⟨m', h3, h4⟩ := printMult_conv P T r hr (print P n) m (conv_mono _ _ _ _ _ 2 3 (by decide) (by decide) h1)
        refine ⟨m', conv_lev _ _ _ _ _ ?_, ?_⟩
        · rw [print, printMult]
          exact conv_paren _ _ _ _ (conv_mono _ _ _ _ _ 0 2 (by decide) (by decide) (by simpa using h3))
        · intro env
          rw [h4, h2, eval, evalMult]
          simp
      | false =>
        have h1' : Conv T false true 2 (['1', '/'] ++ print P n) (mult2 false (.int 1) m) := by
          have hN : Numeral ['1'] := ⟨by decide, by intro c hc; simp at hc; subst hc; decide, by decide⟩
          exact .div ['1'] [] (print P n) _ _ ws_nil
            (conv_mono _ _ _ _ _ 2 4 (by decide) (by decide) (.int [] ['1'] ws_nil hN)) h1
        obtain ⟨m', h3, h4⟩ := printMult_conv P T r hr _ _ h1'
        refine ⟨m', conv_lev _ _ _ _ _ ?_, ?_⟩
        · rw [print, printMult]
          exact conv_paren _ _ _ _ (conv_mono _ _ _ _ _ 0 2 (by decide) (by decide) (by simpa using h3))
        · intro env
          rw [h4, eval, evalMult]
          simp only [mult2, eval, evalMult, h2]
          simp
  | .neg n, top, h => by
    rw [Frag] at h
    obtain ⟨rfl, hn⟩ := h
    obtain ⟨m, h1, h2⟩ := print_conv P T n true hn
    refine ⟨.neg m, ?_, ?_⟩
    · rw [print]
      refine .neg [] _ _ ws_nil (Or.inr ?_) (conv_mono _ _ _ _ _ 2 4 (by decide) (by decide) (conv_paren _ _ _ _ h1))
      intro c hc
      simp only [List.head?_cons, Option.some.injEq] at hc
      subst hc; decide
    · intro env
      rw [eval, eval, h2]
  | .pow b e, top, h => by
    rw [Frag] at h
    obtain ⟨m, h1, h2⟩ := print_conv P T b true h.1
    obtain ⟨m', h3, h4⟩ := print_conv P T e true h.2
    refine ⟨.pow m m', conv_mono _ _ _ _ _ _ 3 (by decide) (by cases top <;> decide) ?_, ?_⟩
    · rw [print]
      exact .pow _ [] _ _ _ ws_nil (.up 3 _ _ (by decide) (conv_paren _ _ _ _ h1)) (conv_paren _ _ _ _ h3)
    · intro env
      rw [eval, eval, h2, h4]
  | .ipow n k, top, h => by
    rw [Frag] at h
    obtain ⟨m, h1, h2⟩ := print_conv P T n false h
    refine ⟨.pow m (.int k), conv_lev _ _ _ _ _ ?_, ?_⟩
    · rw [print]
      exact conv_paren _ _ _ _ (conv_mono _ _ _ _ _ 0 3 (by decide) (by decide)
        (.pow _ [] _ _ _ ws_nil h1 (showInt_conv T false k)))
    · intro env
      rw [eval, eval, eval, h2, Complex.cpow_intCast]
  | .sqrt n, top, h => by
    rw [Frag] at h
    obtain ⟨m, h1, h2⟩ := print_conv P T n true h
    exact ⟨.sqrt m, conv_lev _ _ _ _ _ (by rw [print]; exact conv_fn T true .sqrt _ _ h1),
      fun env => by rw [eval, eval, h2]⟩
  | .exp n, top, h => by
    rw [Frag] at h
    obtain ⟨m, h1, h2⟩ := print_conv P T n true h
    exact ⟨.exp m, conv_lev _ _ _ _ _ (by rw [print]; exact conv_fn T true .exp _ _ h1),
      fun env => by rw [eval, eval, h2]⟩
  | .log n, top, h => by
    rw [Frag] at h
    obtain ⟨m, h1, h2⟩ := print_conv P T n true h
    exact ⟨.log m, conv_lev _ _ _ _ _ (by rw [print]; exact conv_fn T true .log _ _ h1),
      fun env => by rw [eval, eval, h2]⟩
  | .sin n, top, h => by
    rw [Frag] at h
    obtain ⟨m, h1, h2⟩ := print_conv P T n true h
    exact ⟨.sin m, conv_lev _ _ _ _ _ (by rw [print]; exact conv_fn T true .sin _ _ h1),
      fun env => by rw [eval, eval, h2]⟩
  | .cos n, top, h => by
    rw [Frag] at h
    obtain ⟨m, h1, h2⟩ := print_conv P T n true h
    exact ⟨.cos m, conv_lev _ _ _ _ _ (by rw [print]; exact conv_fn T true .cos _ _ h1),
      fun env => by rw [eval, eval, h2]⟩
  | .tan n, top, h => by
    rw [Frag] at h
    obtain ⟨m, h1, h2⟩ := print_conv P T n true h
    exact ⟨.tan m, conv_lev _ _ _ _ _ (by rw [print]; exact conv_fn T true .tan _ _ h1),
      fun env => by rw [eval, eval, h2]⟩
  | .asin _, _, h => by rw [Frag] at h; cases h.1
  | .acos _, _, h => by rw [Frag] at h; cases h.1
  | .atan _, _, h => by rw [Frag] at h; cases h.1
  | .fn _, _, h => by rw [Frag] at h; exact h.elim
theorem printSum_conv (P : Names) (T : Table) : ∀ (ops : Ops), FragOps P T false ops → ∀ (a : List Char) (x : Node),
    Conv T false true 1 a x →
    ∃ m, Conv T false true 1 (a ++ printSum P false ops) m ∧ ∀ env, eval env m = eval env x + evalSum env ops
  | .nil, _, a, x, hx => ⟨x, by rw [printSum, List.append_nil]; exact hx, fun env => by rw [evalSum, add_zero]⟩
  | .cons f n r, h, a, x, hx => by
    rw [FragOps] at h
    obtain ⟨m, h1, h2⟩ := print_conv P T n false h.1
    have h1' := conv_mono _ _ _ _ _ 2 3 (by decide) (by decide) h1
    cases f with
    | true =>
      obtain ⟨m', h3, h4⟩ := printSum_conv P T r h.2 _ _ (Conv.add a [] (print P n) x m ws_nil hx h1')
      refine ⟨m', ?_, ?_⟩
      · rw [printSum]; simpa using h3
      · intro env; rw [h4]; exact sum_of env true x m n r (h2 env)
    | false =>
      obtain ⟨m', h3, h4⟩ := printSum_conv P T r h.2 _ _ (Conv.sub a [] (print P n) x m ws_nil hx h1')
      refine ⟨m', ?_, ?_⟩
      · rw [printSum]; simpa using h3
      · intro env; rw [h4]; exact sum_of env false x m n r (h2 env)
theorem printMult_conv (P : Names) (T : Table) : ∀ (ops : Ops), FragOps P T false ops → ∀ (a : List Char) (x : Node),
    Conv T false true 2 a x →
    ∃ m, Conv T false true 2 (a ++ printMult P false ops) m ∧ ∀ env, eval env m = eval env x * evalMult env ops
  | .nil, _, a, x, hx => ⟨x, by rw [printMult, List.append_nil]; exact hx, fun env => by rw [evalMult, mul_one]⟩
  | .cons f n r, h, a, x, hx => by
    rw [FragOps] at h
    obtain ⟨m, h1, h2⟩ := print_conv P T n false h.1
    cases f with
    | true =>
      obtain ⟨m', h3, h4⟩ := printMult_conv P T r h.2 _ _ (Conv.mul a [] (print P n) x m ws_nil hx h1)
      refine ⟨m', ?_, ?_⟩
      · rw [printMult]; simpa using h3
      · intro env; rw [h4]; exact mult_of env true x m n r (h2 env)
    | false =>
      obtain ⟨m', h3, h4⟩ := printMult_conv P T r h.2 _ _ (Conv.div a [] (print P n) x m ws_nil hx h1)
      refine ⟨m', ?_, ?_⟩
      · rw [printMult]; simpa using h3
      · intro env; rw [h4]; exact mult_of env false x m n r (h2 env)
end

end B2.Parse
