import Verif.Parse.Print

/-!
# C58: printed expressions parse back
-/

namespace B2.Parse

open B2

/-- C58 in full: a printed expression of the fragment, rational coefficients and inverse trigonometric
functions included, parses completely and has the value of the expression that was printed. -/
def C58_full : Prop :=
  ∀ (P : Names) (T : Table), Good T → ∀ (n : Node), Frag P T true n true →
    ∃ m, parse T (print P n) = some m ∧ ∀ env, eval env m = eval env n

/-- C58 for expressions with integer coefficients (sums, products and quotients, powers, integer powers,
`sqrt exp log sin cos tan`, the constants): the printed text, possibly followed by white space, parses
completely and has the same value.  Missing: rational numbers and inverse trigonometric functions, which
print in a form the parser rejects. -/
theorem C58_partial (P : Names) (T : Table) (hT : Good T) (n : Node) (w : List Char) (hw : Ws w)
    (h : Frag P T false n true) : ∃ m, parse T (print P n ++ w) = some m ∧ ∀ env, eval env m = eval env n := by
  obtain ⟨m, h1, h2⟩ := print_conv P T n true h
  exact ⟨m, parse_of_conv T hT true _ w m hw h1, h2⟩

/-- A printed rational number does not parse. -/
theorem C58_rational (P : Names) (T : Table) (hT : Good T) (re im : ℚ) : parse T (print P (.rat re im)) = none := by
  obtain ⟨m, hm⟩ : ∃ m, Conv T false true 2 (showRat re) m := by
    unfold showRat
    split_ifs
    · rw [List.append_nil]
      exact ⟨_, conv_up _ _ _ _ _ 2 (by decide) (showInt_conv T false _)⟩
    · exact ⟨_, .div _ [] _ _ _ ws_nil (conv_up _ _ _ _ _ 2 (by decide) (showInt_conv T false _))
        (conv_up _ _ _ _ _ 3 (by decide) (.int [] _ ws_nil (showNat_numeral re.den)))⟩
  have hs : Sep ([] ++ ',' :: (showRat im ++ [')'])) := sep_op [] ',' _ ws_nil (by decide) (by decide) (by decide)
  have hnn : ∀ c, c ≠ ',' → NotNext c ([] ++ ',' :: (showRat im ++ [')'])) := fun c hc =>
    eat_none c ',' [] _ ws_nil (by decide) (fun h => hc h.symm)
  have h1 := accepts T hT true 0 _ m (conv_mono _ _ _ _ _ 0 2 (by decide) (by decide) hm) _ hs
    (hnn _ (by decide)) (hnn _ (by decide)) (hnn _ (by decide)) (hnn _ (by decide)) (hnn _ (by decide))
  have h1' : expr T (showRat re ++ ',' :: (showRat im ++ [')'])) = .ok m (',' :: (showRat im ++ [')'])) := h1
  have heat : eat '(' ('(' :: (showRat re ++ ',' :: (showRat im ++ [')']))) = some (showRat re ++ ',' :: (showRat im ++ [')'])) :=
    eat_ws '(' [] _ ws_nil (by decide)
  have hcl : eat ')' (',' :: (showRat im ++ [')'])) = none := hnn ')' (by decide)
  have hsym : symbol T ('(' :: (showRat re ++ ',' :: (showRat im ++ [')']))) =
      number ('(' :: (showRat re ++ ',' :: (showRat im ++ [')']))) :=
    symbol_nonalpha T hT [] '(' _ ws_nil (by decide) (by decide)
  have hnum : number ('(' :: (showRat re ++ ',' :: (showRat im ++ [')']))) = .fail :=
    number_fail [] '(' _ ws_nil (by decide) (by decide) (by decide) (by decide)
  have h2 : elem T (print P (.rat re im)) = .err := by
    rw [print, elem, hsym, hnum]
    dsimp only
    rw [elemAlt, heat]
    dsimp only
    rw [dif_pos (eat_length _ _ _ heat), h1']
    dsimp only
    rw [hcl]
  rw [parse, expr, term, factor, h2]

/-- A text that starts with a name followed by `(`, where the name starts with the letter `a`, does not
parse: no function of the grammar starts with it. -/
theorem arc_none (T : Table) (hT : Good T) (k s : List Char) (hk : ∀ c ∈ k, isAlpha c = true) :
    parse T ('a' :: (k ++ '(' :: s)) = none := by
  have hskip : skip ('a' :: (k ++ '(' :: s)) = 'a' :: (k ++ '(' :: s) := skip_cons _ _ (by decide)
  have hkw : keyword allFns ('a' :: (k ++ '(' :: s)) = none := by
    simp only [allFns, keyword, Fn.name, eatStr]
    simp
  have halt : elemAlt T ('a' :: (k ++ '(' :: s)) = .fail := by
    have h1 : ∀ c, 'a' ≠ c → eat c ('a' :: (k ++ '(' :: s)) = none := fun c hc =>
      eat_none c 'a' [] _ ws_nil (by decide) hc
    rw [elemAlt, h1 '(' (by decide)]
    dsimp only
    rw [h1 '-' (by decide)]
    dsimp only
    rw [h1 '+' (by decide)]
    dsimp only
    rw [hskip, hkw]
  have hnum : number ('a' :: (k ++ '(' :: s)) = .fail :=
    number_fail [] 'a' _ ws_nil (by decide) (by decide) (by decide) (by decide)
  have hel : elem T ('a' :: (k ++ '(' :: s)) = .fail ∨
      ∃ n r, elem T ('a' :: (k ++ '(' :: s)) = .ok n r ∧ ∃ u, r = '(' :: u := by
    rw [elem, symbol, hskip]
    cases hl : longest T ('a' :: (k ++ '(' :: s)) with
    | none =>
      dsimp only
      rw [hnum]
      dsimp only
      exact Or.inl halt
    | some p =>
      obtain ⟨k', n⟩ := p
      dsimp only
      by_cases hna : nextAlnum (('a' :: (k ++ '(' :: s)).drop k'.length) = true
      · rw [if_pos hna]; exact Or.inl halt
      · rw [if_neg hna]
        refine Or.inr ⟨n, _, rfl, ?_⟩
        obtain ⟨h1, h2, _⟩ := longest_some T _ k' n hl
        obtain ⟨r2, hr2⟩ := Option.isSome_iff_exists.1 h2
        have h6 : 'a' :: (k ++ '(' :: s) = k' ++ r2 := eatStr_eq k' _ r2 hr2
        obtain ⟨_, hch⟩ := hT.names k' n h1
        -- the name ends before the parenthesis, and not within the word
        rw [h6, List.drop_left] at hna ⊢
        have h7 : ('a' :: k) ++ '(' :: s = k' ++ r2 := h6
        rcases List.append_eq_append_iff.1 h7 with ⟨c', hc1, hc2⟩ | ⟨c', hc1, hc2⟩
        · cases c' with
          | nil => exact ⟨s, by simpa using hc2.symm⟩
          | cons d c' =>
            simp only [List.cons_append, List.cons.injEq] at hc2
            have : isNameChar d = true := hch d (by rw [hc1]; simp)
            rw [← hc2.1] at this
            exact absurd this (by decide)
        · cases c' with
          | nil => exact ⟨s, by simpa using hc2⟩
          | cons d c' =>
            exfalso
            have hd : isAlpha d = true := by
              have : d ∈ 'a' :: k := by rw [hc1]; simp
              rcases List.mem_cons.1 this with rfl | h
              · decide
              · exact hk d h
            apply hna
            rw [hc2]
            unfold nextAlnum
            have hsp : isSpace d = false := (alpha_facts d hd).1
            rw [List.cons_append, skip_cons d _ hsp]
            dsimp only
            unfold isAlnum
            rw [hd]; rfl
  rcases hel with h | ⟨n, r, h, u, rfl⟩
  · rw [parse, expr, term, factor, h]
  · have hlt := (expr_consumes T hT _ n _).2.2.1 h
    have h1 : ∀ c, '(' ≠ c → NotNext c ('(' :: u) := fun c hc => eat_none c '(' [] _ ws_nil (by decide) hc
    have hF : factor T ('a' :: (k ++ '(' :: s)) = .ok n ('(' :: u) := by
      rw [factor, h]; dsimp only; rw [dif_pos hlt, powLoop_stop T _ _ (h1 _ (by decide))]
    have hTm : term T ('a' :: (k ++ '(' :: s)) = .ok n ('(' :: u) := by
      rw [term, hF]; dsimp only; rw [dif_pos hlt, mulLoop_stop T _ _ (h1 _ (by decide)) (h1 _ (by decide))]
    rw [parse, expr, hTm]
    dsimp only
    rw [dif_pos hlt, addLoop_stop T _ _ (h1 _ (by decide)) (h1 _ (by decide))]
    dsimp only
    rw [skip_cons _ _ (by decide), if_neg (by simp)]

/-- Printed inverse trigonometric functions do not parse. -/
theorem C58_arc (P : Names) (T : Table) (hT : Good T) (n : Node) :
    parse T (print P (.asin n)) = none ∧ parse T (print P (.acos n)) = none ∧ parse T (print P (.atan n)) = none := by
  refine ⟨?_, ?_, ?_⟩
  · rw [print]; exact arc_none T hT ['s', 'i', 'n'] _ (by decide)
  · rw [print]; exact arc_none T hT ['c', 'o', 's'] _ (by decide)
  · rw [print]; exact arc_none T hT ['t', 'a', 'n'] _ (by decide)

/-- Names for the witnesses. -/
def xyNames : Names := ⟨fun v => if v = 0 then ['x'] else ['y'], fun _ _ => [], fun _ => []⟩

/-- C58 in full fails: one half does not survive printing and parsing. -/
theorem C58_refuted : ¬ C58_full := by
  intro h
  obtain ⟨m, h1, _⟩ := h xyNames xy xy_good (.rat (1 / 2) 0) (by rw [Frag])
  rw [C58_rational xyNames xy xy_good] at h1
  cases h1

/-- A minus after an opening parenthesis takes the whole sum that follows, unless a number follows. -/
theorem paren_minus (T : Table) (hT : Good T) (lit : Bool) (s : List Char) (m : Node) (h : Conv T false lit 0 s m)
    (hnn : NoNumber (s ++ [')'])) : parse T ('(' :: '-' :: (s ++ [')'])) = some (.neg m) := by
  have hcl : Sep [')'] ∧ ∀ c, c ≠ ')' → NotNext c [')'] :=
    ⟨sep_op [] ')' [] ws_nil (by decide) (by decide) (by decide),
      fun c hc => eat_none c ')' [] [] ws_nil (by decide) (fun h => hc h.symm)⟩
  have h1 : expr T (s ++ [')']) = .ok m [')'] :=
    accepts T hT lit 0 _ _ h [')'] hcl.1 (hcl.2 _ (by decide)) (hcl.2 _ (by decide)) (hcl.2 _ (by decide))
      (hcl.2 _ (by decide)) (hcl.2 _ (by decide))
  have h3 : elem T ('-' :: (s ++ [')'])) = .ok (.neg m) [')'] := by
    have a1 : symbol T ('-' :: (s ++ [')'])) = number ('-' :: (s ++ [')'])) :=
      symbol_nonalpha T hT [] '-' _ ws_nil (by decide) (by decide)
    have a2 : number ('-' :: (s ++ [')'])) = .fail := number_minus [] _ ws_nil hnn
    have a3 : eat '(' ('-' :: (s ++ [')'])) = none := eat_none '(' '-' [] _ ws_nil (by decide) (by decide)
    have a4 : eat '-' ('-' :: (s ++ [')'])) = some (s ++ [')']) := eat_ws '-' [] _ ws_nil (by decide)
    rw [elem, a1, a2]
    dsimp only
    rw [elemAlt, a3]
    dsimp only
    rw [a4]
    dsimp only
    rw [dif_pos (by simp), h1]
  have h4 : expr T ('-' :: (s ++ [')'])) = .ok (.neg m) [')'] := by
    rw [expr, term, factor, h3]
    dsimp only
    rw [dif_pos (by simp), powLoop_stop T _ _ (hcl.2 _ (by decide))]
    dsimp only
    rw [dif_pos (by simp), mulLoop_stop T _ _ (hcl.2 _ (by decide)) (hcl.2 _ (by decide))]
    dsimp only
    rw [dif_pos (by simp), addLoop_stop T _ _ (hcl.2 _ (by decide)) (hcl.2 _ (by decide))]
  have a1 : symbol T ('(' :: '-' :: (s ++ [')'])) = number ('(' :: '-' :: (s ++ [')'])) :=
    symbol_nonalpha T hT [] '(' _ ws_nil (by decide) (by decide)
  have a2 : number ('(' :: '-' :: (s ++ [')'])) = .fail :=
    number_fail [] '(' _ ws_nil (by decide) (by decide) (by decide) (by decide)
  have a4 : eat '(' ('(' :: '-' :: (s ++ [')'])) = some ('-' :: (s ++ [')'])) := eat_ws '(' [] _ ws_nil (by decide)
  have a5 : eat ')' [')'] = some [] := eat_ws ')' [] _ ws_nil (by decide)
  have hend := (end_facts [] ws_nil).2
  rw [parse, expr, term, factor, elem, a1, a2]
  dsimp only
  rw [elemAlt, a4]
  dsimp only
  rw [dif_pos (by simp), h4]
  dsimp only
  rw [a5]
  dsimp only
  rw [dif_pos (by simp), powLoop_stop T _ _ (hend _)]
  dsimp only
  rw [dif_pos (by simp), mulLoop_stop T _ _ (hend _) (hend _)]
  dsimp only
  rw [dif_pos (by simp), addLoop_stop T _ _ (hend _) (hend _)]
  rfl

/-- A sum whose first operand `n` is subtracted (and does not print like a number) comes back as the
negative of `n` plus the other operands: the value of `-n` alone survives, the sign of every further
operand is lost. -/
theorem C58_subtracted (P : Names) (T : Table) (hT : Good T) (n : Node) (r : Ops) (hn : Frag P T false n false)
    (hr : FragOps P T false r) (hnn : NoNumber (print P n)) (hne : print P n ≠ []) :
    ∃ m, parse T (print P (.sum (.cons false n r))) = some m ∧
      ∀ env, eval env m = -(eval env n + evalSum env r) := by
  obtain ⟨m, h1, h2⟩ := print_conv P T n false hn
  obtain ⟨m', h3, h4⟩ := printSum_conv P T r hr (print P n) m (conv_mono _ _ _ _ _ 1 3 (by decide) (by decide) h1)
  refine ⟨.neg m', ?_, fun env => by rw [eval, h4, h2]⟩
  have hp : print P (.sum (.cons false n r)) = '(' :: '-' :: ((print P n ++ printSum P false r) ++ [')']) := by
    rw [print, printSum]; simp
  rw [hp]
  refine paren_minus T hT true _ m' (.up 0 _ _ (by decide) h3) ?_
  obtain ⟨c, t, hct⟩ := List.exists_cons_of_ne_nil hne
  rw [hct] at hnn ⊢
  intro d hd
  exact hnn d (by simpa using hd)

/-- `C58_subtracted` is not vacuous: `-x - y` comes back with the value of `-x + y`. -/
example : Frag xyNames xy false (.var 0) false ∧ FragOps xyNames xy false (.cons false (.var 1) .nil) ∧
    NoNumber (print xyNames (.var 0)) ∧ print xyNames (.var 0) ≠ [] := by
  refine ⟨?_, ?_, ?_, ?_⟩
  · rw [Frag]; simp [xyNames, xy]
  · rw [FragOps, FragOps, Frag]; exact ⟨by simp [xyNames, xy], trivial⟩
  · rw [print]
    intro c hc
    have : c = 'x' := by simpa [xyNames] using hc.symm
    subst this; decide
  · rw [print]; simp [xyNames]

/-- Outside the fragment a negated first summand changes the value silently: the sum of `-x` and `y`
prints as `(-(x)+y)`, which parses to an expression with a different value. -/
theorem C58_negated :
    ∃ m, parse xy (print xyNames (.sum (.cons true (.neg (.var 0)) (.cons true (.var 1) .nil)))) = some m ∧
      ¬ ∀ env, eval env m = eval env (.sum (.cons true (.neg (.var 0)) (.cons true (.var 1) .nil))) := by
  have hx : Conv xy false false 4 ['(', 'x', ')'] (.var 0) :=
    conv_paren xy false ['x'] _ (conv_up _ _ _ _ _ 0 (by decide) (conv_x _ _))
  have hsum : Conv xy false false 0 (['(', 'x', ')'] ++ ([] ++ '+' :: ['y'])) (sum2 true (.var 0) (.var 1)) :=
    .up 0 _ _ (by decide) (.add _ [] ['y'] _ _ ws_nil (conv_up _ _ _ _ _ 1 (by decide) hx)
      (conv_up _ _ _ _ _ 2 (by decide) (conv_y _ _)))
  have hs : NoNumber (['(', 'x', ')'] ++ ([] ++ '+' :: ['y'])) := by
    intro c hc
    simp only [List.cons_append, List.head?_cons, Option.some.injEq] at hc
    subst hc; decide
  have hp : print xyNames (.sum (.cons true (.neg (.var 0)) (.cons true (.var 1) .nil))) =
      ['(', '-', '(', 'x', ')', '+', 'y', ')'] := by
    simp [print, printSum, xyNames]
  -- inside the parentheses the minus takes the whole sum
  have hcl : Sep [')'] ∧ ∀ c, c ≠ ')' → NotNext c [')'] :=
    ⟨sep_op [] ')' [] ws_nil (by decide) (by decide) (by decide),
      fun c hc => eat_none c ')' [] [] ws_nil (by decide) (fun h => hc h.symm)⟩
  have h1 : expr xy ['(', 'x', ')', '+', 'y', ')'] = .ok (sum2 true (.var 0) (.var 1)) [')'] :=
    accepts xy xy_good false 0 _ _ hsum [')'] hcl.1 (hcl.2 _ (by decide)) (hcl.2 _ (by decide)) (hcl.2 _ (by decide))
      (hcl.2 _ (by decide)) (hcl.2 _ (by decide))
  have h3 : elem xy ['-', '(', 'x', ')', '+', 'y', ')'] = .ok (.neg (sum2 true (.var 0) (.var 1))) [')'] := by
    have hnn : NoNumber ['(', 'x', ')', '+', 'y', ')'] := by
      intro c hc
      simp only [List.head?_cons, Option.some.injEq] at hc
      subst hc; decide
    have a1 : symbol xy ['-', '(', 'x', ')', '+', 'y', ')'] = number ['-', '(', 'x', ')', '+', 'y', ')'] :=
      symbol_nonalpha xy xy_good [] '-' _ ws_nil (by decide) (by decide)
    have a2 : number ['-', '(', 'x', ')', '+', 'y', ')'] = .fail := number_minus [] _ ws_nil hnn
    have a3 : eat '(' ['-', '(', 'x', ')', '+', 'y', ')'] = none := eat_none '(' '-' [] _ ws_nil (by decide) (by decide)
    have a4 : eat '-' ['-', '(', 'x', ')', '+', 'y', ')'] = some ['(', 'x', ')', '+', 'y', ')'] :=
      eat_ws '-' [] _ ws_nil (by decide)
    rw [elem, a1, a2]
    dsimp only
    rw [elemAlt, a3]
    dsimp only
    rw [a4]
    dsimp only
    rw [dif_pos (by decide), h1]
  have h4 : expr xy ['-', '(', 'x', ')', '+', 'y', ')'] = .ok (.neg (sum2 true (.var 0) (.var 1))) [')'] := by
    rw [expr, term, factor, h3]
    dsimp only
    rw [dif_pos (by decide), powLoop_stop xy _ _ (hcl.2 _ (by decide))]
    dsimp only
    rw [dif_pos (by decide), mulLoop_stop xy _ _ (hcl.2 _ (by decide)) (hcl.2 _ (by decide))]
    dsimp only
    rw [dif_pos (by decide), addLoop_stop xy _ _ (hcl.2 _ (by decide)) (hcl.2 _ (by decide))]
  have h5 : parse xy ['(', '-', '(', 'x', ')', '+', 'y', ')'] = some (.neg (sum2 true (.var 0) (.var 1))) := by
    have a1 : symbol xy ['(', '-', '(', 'x', ')', '+', 'y', ')'] = number ['(', '-', '(', 'x', ')', '+', 'y', ')'] :=
      symbol_nonalpha xy xy_good [] '(' _ ws_nil (by decide) (by decide)
    have a2 : number ['(', '-', '(', 'x', ')', '+', 'y', ')'] = .fail :=
      number_fail [] '(' _ ws_nil (by decide) (by decide) (by decide) (by decide)
    have a4 : eat '(' ['(', '-', '(', 'x', ')', '+', 'y', ')'] = some ['-', '(', 'x', ')', '+', 'y', ')'] :=
      eat_ws '(' [] _ ws_nil (by decide)
    have a5 : eat ')' [')'] = some [] := eat_ws ')' [] _ ws_nil (by decide)
    have hend := (end_facts [] ws_nil).2
    rw [parse, expr, term, factor, elem, a1, a2]
    dsimp only
    rw [elemAlt, a4]
    dsimp only
    rw [dif_pos (by decide), h4]
    dsimp only
    rw [a5]
    dsimp only
    rw [dif_pos (by decide), powLoop_stop xy _ _ (hend _)]
    dsimp only
    rw [dif_pos (by decide), mulLoop_stop xy _ _ (hend _) (hend _)]
    dsimp only
    rw [dif_pos (by decide), addLoop_stop xy _ _ (hend _) (hend _)]
    rfl
  refine ⟨_, by rw [hp]; exact h5, ?_⟩
  intro h
  have := h (fun v => if v = 0 then 0 else 1)
  simp only [eval, evalSum, sum2] at this
  norm_num at this

/-- `C58_partial` is not vacuous: `(x^2+sin(-(y)))*…` with a quotient. -/
example : Frag xyNames xy false
    (.sum (.cons true (.ipow (.var 0) 2) (.cons false (.sin (.neg (.var 1))) (.cons true
      (.mult (.cons false (.var 0) (.cons true (.int (-3)) .nil))) .nil)))) true := by
  simp [Frag, FragSum, FragOps, FragMult, xyNames, xy]

example : print xyNames (.sum (.cons true (.ipow (.var 0) 2) (.cons false (.sin (.neg (.var 1))) (.cons true
      (.mult (.cons false (.var 0) (.cons true (.int (-3)) .nil))) .nil)))) = "((x^2)-sin(-(y))+(1/x*-3))".toList := by
  have h2 : showInt 2 = ['2'] := by unfold showInt; rw [if_neg (by decide), showNat]; decide
  have h3 : showInt (-3) = ['-', '3'] := by unfold showInt; rw [if_pos (by decide), showNat]; decide
  simp [print, printSum, printMult, xyNames, h2, h3]

end B2.Parse
