import Verif.Parse.Consumes

/-!
# C57: precedence and associativity of the expression parser

The specification is the relation `Conv` of `Verif/Parse/Spec.lean`.
-/

namespace B2.Parse

open B2

/-- C57 in full: a text that denotes an expression in the usual syntax (`Conv` with `full = true`)
parses to an expression with the same value. -/
def C57_full : Prop :=
  ∀ (T : Table), Good T → ∀ (s w : List Char) (n : Node), Ws w → Conv T true false 0 s n →
    ∃ n', parse T (s ++ w) = some n' ∧ ∀ env, eval env n' = eval env n

/-- C57 for texts in which nothing but a closing parenthesis or the end follows a negated term, and no
negated term starts with a number: the parser returns exactly the expression of the usual syntax.
Missing: terms after a negated term, negated terms that start with a number. -/
theorem C57_partial (T : Table) (hT : Good T) (s w : List Char) (n : Node) (hw : Ws w) (h : Conv T false false 0 s n) :
    parse T (s ++ w) = some n :=
  parse_of_conv T hT false s w n hw h

/-- A leading minus applies to everything that follows it. -/
theorem C57_minus (T : Table) (hT : Good T) (lit : Bool) (w s w' : List Char) (n : Node) (hw : Ws w) (hw' : Ws w')
    (hs : NoNumber s) (h : Conv T false lit 0 s n) : parse T (w ++ '-' :: (s ++ w')) = some (.neg n) := by
  have hf := end_facts w' hw'
  have hne := conv_ne T hT _ _ _ _ _ h
  have hst' : NoNumber (s ++ w') := by
    intro c hcc
    cases s with
    | nil => simp at hne
    | cons d s => exact hs c (by simpa using hcc)
  have h1 : expr T (s ++ w') = .ok n w' :=
    accepts T hT lit 0 s n h w' hf.1 (hf.2 _) (hf.2 _) (hf.2 _) (hf.2 _) (hf.2 _)
  have heat := eat_ws '-' w (s ++ w') hw (by decide)
  have h3 : elem T (w ++ '-' :: (s ++ w')) = .ok (.neg n) w' := by
    rw [elem, symbol_nonalpha T hT w '-' _ hw (by decide) (by decide), number_minus w _ hw hst']
    dsimp only
    rw [elemAlt, eat_none '(' '-' w _ hw (by decide) (by decide), heat]
    dsimp only
    rw [dif_pos (eat_length _ _ _ heat), h1]
  have hlen : w'.length < (w ++ '-' :: (s ++ w')).length := by
    simp only [List.length_append, List.length_cons]; omega
  have h4 : factor T (w ++ '-' :: (s ++ w')) = .ok (.neg n) w' := by
    rw [factor, h3]
    dsimp only
    rw [dif_pos hlen, powLoop_stop T _ w' (hf.2 _)]
  have h5 : term T (w ++ '-' :: (s ++ w')) = .ok (.neg n) w' := by
    rw [term, h4]
    dsimp only
    rw [dif_pos hlen, mulLoop_stop T _ w' (hf.2 _) (hf.2 _)]
  rw [parse, expr, h5]
  dsimp only
  rw [dif_pos hlen, addLoop_stop T _ w' (hf.2 _) (hf.2 _)]
  dsimp only
  rw [if_pos (skip_all w' hw')]

/-- A minus directly before a numeral belongs to the numeral: it binds tighter than `^`. -/
theorem C57_literal (T : Table) (hT : Good T) (w d w1 w2 e w' : List Char) (hw : Ws w) (hw1 : Ws w1) (hw2 : Ws w2)
    (hw' : Ws w') (hd : Numeral d) (he : Numeral e) :
    parse T ((w ++ '-' :: d) ++ (w1 ++ '^' :: (w2 ++ e)) ++ w') =
      some (.pow (.int (-(natOf d : ℤ))) (.int (natOf e))) := by
  refine parse_of_conv T hT true _ w' _ hw' ?_
  refine .up 0 _ _ (by decide) (.up 1 _ _ (by decide) (.up 2 _ _ (by decide) ?_))
  exact .pow _ _ _ _ _ hw1 (.up 3 _ _ (by decide) (.neglit _ _ rfl hw hd)) (.int _ _ hw2 he)

/-! ## Witnesses -/

/-- Two variables. -/
def xy : Table := [(['x'], .var 0), (['y'], .var 1)]

theorem xy_good : Good xy := by
  constructor
  · intro k n h
    simp only [xy, List.mem_cons, List.not_mem_nil, or_false, Prod.mk.injEq] at h
    rcases h with ⟨rfl, rfl⟩ | ⟨rfl, rfl⟩
    · exact ⟨⟨'x', [], rfl, by decide⟩, by decide⟩
    · exact ⟨⟨'y', [], rfl, by decide⟩, by decide⟩
  · intro k n n' h h'
    simp only [xy, List.mem_cons, List.not_mem_nil, or_false, Prod.mk.injEq] at h h'
    rcases h with ⟨rfl, rfl⟩ | ⟨rfl, rfl⟩ <;> rcases h' with ⟨h1, rfl⟩ | ⟨h1, rfl⟩ <;>
      first | rfl | exact absurd h1 (by decide)
  · intro k n h f hf
    simp only [xy, List.mem_cons, List.not_mem_nil, or_false, Prod.mk.injEq] at h
    rcases h with ⟨rfl, rfl⟩ | ⟨rfl, rfl⟩ <;> cases f <;> exact absurd hf (by decide)

theorem ws_nil : Ws [] := by intro c hc; cases hc

theorem conv_x (full lit : Bool) : Conv xy full lit 4 ['x'] (.var 0) := .sym [] ['x'] _ ws_nil (by simp [xy])

theorem conv_y (full lit : Bool) : Conv xy full lit 4 ['y'] (.var 1) := .sym [] ['y'] _ ws_nil (by simp [xy])

theorem conv_up (T : Table) (full lit : Bool) (s : List Char) (n : Node) (k : ℕ) (hk : k ≤ 4)
    (h : Conv T full lit 4 s n) : Conv T full lit k s n := by
  interval_cases k
  · exact .up 0 _ _ (by decide) (.up 1 _ _ (by decide) (.up 2 _ _ (by decide) (.up 3 _ _ (by decide) h)))
  · exact .up 1 _ _ (by decide) (.up 2 _ _ (by decide) (.up 3 _ _ (by decide) h))
  · exact .up 2 _ _ (by decide) (.up 3 _ _ (by decide) h)
  · exact .up 3 _ _ (by decide) h
  · exact h

/-- `x + y` parses as a sum, and `-x+y` as the negated sum. -/
theorem xy_minus : parse xy ['-', 'x', '+', 'y'] = some (.neg (sum2 true (.var 0) (.var 1))) := by
  have h := C57_minus xy xy_good false [] ['x', '+', 'y'] [] (sum2 true (.var 0) (.var 1)) ws_nil ws_nil
    (by intro c hc; simp only [List.head?_cons, Option.some.injEq] at hc; subst hc; decide)
    (.up 0 _ _ (by decide) (.add ['x'] [] ['y'] _ _ ws_nil (conv_up _ _ _ _ _ 1 (by decide) (conv_x _ _))
      (conv_up _ _ _ _ _ 2 (by decide) (conv_y _ _))))
  simpa using h

/-- C57 fails: `-x+y` is read as `-(x+y)`. -/
theorem C57_refuted : ¬ C57_full := by
  intro h
  have hc : Conv xy true false 0 (['-', 'x'] ++ ([] ++ '+' :: ['y'])) (sum2 true (.neg (.var 0)) (.var 1)) :=
    .negAdd ['-', 'x'] [] ['y'] _ _ rfl ws_nil
      (.neg [] ['x'] _ ws_nil (Or.inl rfl) (conv_up _ _ _ _ _ 2 (by decide) (conv_x _ _)))
      (conv_up _ _ _ _ _ 2 (by decide) (conv_y _ _))
  obtain ⟨n', h1, h2⟩ := h xy xy_good _ [] _ ws_nil hc
  have e : (['-', 'x'] ++ ([] ++ '+' :: ['y'])) ++ [] = ['-', 'x', '+', 'y'] := rfl
  rw [e, xy_minus] at h1
  simp only [Option.some.injEq] at h1
  have h3 := h2 (fun v => if v = 0 then 0 else 1)
  rw [← h1] at h3
  simp only [eval, evalSum, sum2] at h3
  norm_num at h3

/-- C57 fails also without anything after the term: `-2^2` has the value 4. -/
theorem C57_refuted_literal : ∃ n', parse xy ['-', '2', '^', '2'] = some n' ∧ (∀ env, eval env n' = 4) ∧
    ∃ n, Conv xy true false 0 ['-', '2', '^', '2'] n ∧ ∀ env, eval env n = -4 := by
  have hN : Numeral ['2'] := ⟨by decide, by intro c hc; simp at hc; subst hc; decide, by decide⟩
  have h2 : natOf ['2'] = 2 := by decide
  refine ⟨_, C57_literal xy xy_good [] ['2'] [] [] ['2'] [] ws_nil ws_nil ws_nil ws_nil hN hN, ?_, ?_⟩
  · intro env
    simp only [eval, h2]
    push_cast
    rw [show ((2 : ℂ)) = ((2 : ℕ) : ℂ) by norm_num, Complex.cpow_natCast]
    norm_num
  · refine ⟨.neg (.pow (.int (natOf ['2'])) (.int (natOf ['2']))), ?_, ?_⟩
    · exact .neg [] ['2', '^', '2'] _ ws_nil (Or.inl rfl) (.up 2 _ _ (by decide)
        (.pow ['2'] [] ['2'] _ _ ws_nil (.up 3 _ _ (by decide) (.int [] ['2'] ws_nil hN)) (.int [] ['2'] ws_nil hN)))
    · intro env
      simp only [eval, h2]
      push_cast
      rw [show ((2 : ℂ)) = ((2 : ℕ) : ℂ) by norm_num, Complex.cpow_natCast]
      norm_num

/-- `C57_partial` is not vacuous: `x*y^2-(-y)` parses as expected. -/
example : parse xy ['x', '*', 'y', '^', '2', '-', '(', '-', 'y', ')'] =
    some (sum2 false (mult2 true (.var 0) (.pow (.var 1) (.int 2))) (.neg (.var 1))) := by
  have hN : Numeral ['2'] := ⟨by decide, by intro c hc; simp at hc; subst hc; decide, by decide⟩
  have hy : NoNumber ['y'] := by
    intro c hc; simp only [List.head?_cons, Option.some.injEq] at hc; subst hc; decide
  have h := C57_partial xy xy_good (['x', '*', 'y', '^', '2'] ++ ([] ++ '-' :: ['(', '-', 'y', ')'])) [] _ ws_nil
    (.up 0 _ _ (by decide) (.sub _ [] _ _ _ ws_nil
      (.up 1 _ _ (by decide) (.mul ['x'] [] ['y', '^', '2'] _ _ ws_nil (conv_up _ _ _ _ _ 2 (by decide) (conv_x _ _))
        (.pow ['y'] [] ['2'] _ _ ws_nil (conv_up _ _ _ _ _ 3 (by decide) (conv_y _ _)) (.int [] ['2'] ws_nil hN))))
      (conv_up _ _ _ _ _ 2 (by decide) (.paren [] ['-', 'y'] [] _ ws_nil ws_nil
        (.neg [] ['y'] _ ws_nil (Or.inr hy) (conv_up _ _ _ _ _ 2 (by decide) (conv_y _ _)))))))
  exact h

/-! ### C95: decimal literals -/

/-- Specification: an unsigned literal and its value: digits `a`, optionally a point and digits `b` (not both empty),
optionally `e` or `E` with an integer exponent. -/
inductive Literal : List Char → ℚ → Prop
  | whole (a) : a ≠ [] → Digits a → Literal a (natOf a)
  | wholeExp (a e) (m : Bool) (ds) : a ≠ [] → Digits a → (e = 'e' ∨ e = 'E') → ds ≠ [] → Digits ds →
      Literal (a ++ e :: (if m then '-' :: ds else ds))
        (natOf a * (10 : ℚ) ^ (if m then -(natOf ds : ℤ) else (natOf ds : ℤ)))
  | point (a b) : Digits a → Digits b → ¬ (a = [] ∧ b = []) →
      Literal (a ++ '.' :: b) ((natOf (a ++ b) : ℚ) / 10 ^ b.length)
  | pointExp (a b e) (m : Bool) (ds) : Digits a → Digits b → ¬ (a = [] ∧ b = []) → (e = 'e' ∨ e = 'E') → ds ≠ [] →
      Digits ds → Literal (a ++ '.' :: (b ++ e :: (if m then '-' :: ds else ds)))
        ((natOf (a ++ b) : ℚ) / 10 ^ b.length * (10 : ℚ) ^ (if m then -(natOf ds : ℤ) else (natOf ds : ℤ)))

/-- **C95 in full**: every literal is accepted and denotes its value. -/
def C95_full : Prop :=
  ∀ (T : Table), Good T → ∀ (s : List Char) (v : ℚ), Literal s v →
    ∃ n, parse T s = some n ∧ ∀ env, eval env n = (v : ℂ)

/-- **C95, the part that holds**: literals with a point, with or without exponent; literals without a point, without
leading zeros and without exponent. -/
theorem C95_partial (T : Table) (hT : Good T) (s : List Char) (v : ℚ) (h : Literal s v)
    (hp : '.' ∈ s ∨ Numeral s) : ∃ n, parse T s = some n ∧ ∀ env, eval env n = (v : ℂ) := by
  have key : ∀ n, Conv T false false 4 s n → parse T s = some n := by
    intro n hc
    have := C57_partial T hT s [] n ws_nil (conv_up T _ _ _ _ 0 (by decide) hc)
    simpa using this
  have hnd : ∀ ds : List Char, Digits ds → '.' ∉ ds := by
    intro ds hd hm
    have := hd _ hm
    revert this; decide
  cases h with
  | whole a hne hd =>
    rcases hp with hp | hp
    · exact absurd hp (hnd _ hd)
    · refine ⟨_, key _ (by simpa using Conv.int (T := T) (full := false) (lit := false) [] s ws_nil hp), fun env => ?_⟩
      simp [eval]
  | wholeExp a e m ds hne hd he hne' hd' =>
    exfalso
    have hdot : ¬ '.' ∈ a ++ e :: (if m then '-' :: ds else ds) := by
      intro hm
      rcases List.mem_append.1 hm with h | h
      · exact hnd _ hd h
      · rcases List.mem_cons.1 h with h | h
        · rcases he with rfl | rfl <;> revert h <;> decide
        · cases m
          · exact hnd _ hd' (by simpa using h)
          · exact hnd _ hd' (by simpa using h)
    rcases hp with hp | hp
    · exact hdot hp
    · have : isDigit e = true := hp.2.1 e (by simp)
      rcases he with rfl | rfl <;> revert this <;> decide
  | point a b ha hb hab =>
    refine ⟨_, key _ (by simpa using Conv.dec (T := T) (full := false) (lit := false) [] a b ws_nil ha hb hab), fun env => ?_⟩
    simp [eval]
  | pointExp a b e m ds ha hb hab he hne hd =>
    refine ⟨_, key _ (by
      simpa using Conv.decExp (T := T) (full := false) (lit := false) [] a b e m ds ws_nil ha hb hab he hne hd), fun env => ?_⟩
    simp [eval]

/-- **C95 fails** for integers in scientific notation: `1e5` is rejected (the text reaches the constructor of `Integer`,
which throws). -/
theorem C95_refuted : ¬ C95_full := by
  intro H
  obtain ⟨n, h, -⟩ := H xy xy_good (['1'] ++ 'e' :: (if false then '-' :: ['5'] else ['5'])) _
    (.wholeExp ['1'] 'e' false ['5'] (by decide) (by intro c hc; simp at hc; subst hc; decide) (Or.inl rfl) (by decide)
      (by intro c hc; simp at hc; subst hc; decide))
  have : parse xy ['1', 'e', '5'] = none := by
    have hn : number ['1', 'e', '5'] = .err := by rfl
    have hs : symbol xy ['1', 'e', '5'] = number ['1', 'e', '5'] := symbol_nonalpha xy xy_good [] '1' ['e', '5'] ws_nil
      (by decide) (by decide)
    have he : elem xy ['1', 'e', '5'] = .err := by rw [elem, hs, hn]
    have hf : factor xy ['1', 'e', '5'] = .err := by rw [factor, he]
    have ht : term xy ['1', 'e', '5'] = .err := by rw [term, hf]
    have hx : expr xy ['1', 'e', '5'] = .err := by rw [expr, ht]
    unfold parse
    rw [hx]
  exact absurd (this.symm.trans h) (by simp)

/-- Witness for `C95_partial`: `.5e-1` is 1/20. -/
example : ∃ n, parse xy ['.', '5', 'e', '-', '1'] = some n ∧ ∀ env, eval env n = ((1 / 20 : ℚ) : ℂ) := by
  have h := C95_partial xy xy_good ([] ++ '.' :: (['5'] ++ 'e' :: (if true then '-' :: ['1'] else ['1']))) _
    (.pointExp [] ['5'] 'e' true ['1'] (by simp [Digits]) (by intro c hc; simp at hc; subst hc; decide) (by decide)
      (Or.inl rfl) (by decide) (by intro c hc; simp at hc; subst hc; decide)) (Or.inl (by decide))
  have h5 : natOf ['5'] = 5 := by decide
  have h1 : natOf ['1'] = 1 := by decide
  have e : ((natOf ([] ++ ['5']) : ℚ) / 10 ^ ['5'].length *
      (10 : ℚ) ^ (if true then -(natOf ['1'] : ℤ) else (natOf ['1'] : ℤ))) = 1 / 20 := by
    simp only [List.nil_append, h5, h1, if_true]
    norm_num
  rw [e] at h
  exact h

end B2.Parse
