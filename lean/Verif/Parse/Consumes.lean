import Verif.Parse.GrammarProof

/-!
# The tests on lengths in the model of the parser always succeed
-/

namespace B2.Parse

open B2

theorem dropWhile_le (p : Char → Bool) (s : List Char) : (s.dropWhile p).length ≤ s.length := by
  induction s with
  | nil => simp
  | cons c s ih =>
    simp only [List.dropWhile_cons]
    split
    · simp only [List.length_cons]; omega
    · simp

theorem take_drop_length (p : Char → Bool) (s : List Char) :
    (s.takeWhile p).length + (s.dropWhile p).length = s.length := by
  rw [← List.length_append, List.takeWhile_append_dropWhile]

theorem optMinus_le (s : List Char) : (optMinus s).2.length ≤ s.length := by
  unfold optMinus
  split
  · simp
  · simp

theorem expo_le (s r : List Char) (x : ℤ) (h : expo s = some (x, r)) : r.length ≤ s.length := by
  unfold expo at h
  cases s with
  | nil => cases h
  | cons c s =>
    dsimp only at h
    split_ifs at h with h1 h2
    · simp only [Option.some.injEq, Prod.mk.injEq] at h
      rw [← h.2]
      have := dropWhile_le isDigit (optMinus s).2
      have := optMinus_le s
      simp only [List.length_cons]; omega
    · simp only [Option.some.injEq, Prod.mk.injEq] at h
      rw [← h.2]
      have := dropWhile_le isDigit (optMinus s).2
      have := optMinus_le s
      simp only [List.length_cons]; omega

theorem longNum_lt (s r : List Char) (v : ℚ) (h : longNum s = some (v, r)) : r.length < s.length := by
  unfold longNum at h
  dsimp only at h
  have h0 := optMinus_le s
  have h1 := dropWhile_le isDigit (optMinus s).2
  split at h
  · rename_i r1 he
    rw [he] at h1
    simp only [List.length_cons] at h1
    have h2 := dropWhile_le isDigit r1
    by_cases hab : (optMinus s).2.takeWhile isDigit = [] ∧ r1.takeWhile isDigit = []
    · rw [if_pos hab] at h; cases h
    · rw [if_neg hab] at h
      split at h
      · rename_i x r2 hx
        have h3 := expo_le _ _ _ hx
        simp only [Option.some.injEq, Prod.mk.injEq] at h
        rw [← h.2]; omega
      · simp only [Option.some.injEq, Prod.mk.injEq] at h
        rw [← h.2]; omega
  · cases h

theorem intNum_lt (s r : List Char) (n : Node) (h : intNum s = .ok n r) : r.length < s.length := by
  unfold intNum at h
  dsimp only at h
  split_ifs at h with h1 h2 h3 h4
  all_goals
    have a1 := optMinus_le s
    have a2 := optMinus_le (optMinus s).2
    have a3 := take_drop_length isDigit (optMinus (optMinus s).2).2
    have a4 := List.length_pos_iff.2 h1
    injection h with _ hr
    rw [← hr]
    omega

theorem number_lt (s r : List Char) (n : Node) (h : number s = .ok n r) : r.length < s.length := by
  unfold number at h
  have := skip_length s
  cases hl : longNum (skip s) with
  | some p =>
    obtain ⟨v, r1⟩ := p
    rw [hl] at h
    injection h with _ hr
    have := longNum_lt _ _ _ hl
    rw [← hr]; omega
  | none =>
    rw [hl] at h
    have := intNum_lt _ _ _ h
    omega

theorem symbol_lt (T : Table) (hT : Good T) (s r : List Char) (n : Node) (h : symbol T s = .ok n r) :
    r.length < s.length := by
  unfold symbol at h
  have hs := skip_length s
  cases hl : longest T (skip s) with
  | none => rw [hl] at h; exact number_lt s r n h
  | some p =>
    obtain ⟨k, m⟩ := p
    rw [hl] at h
    injection h with _ hr
    obtain ⟨h1, h2, _⟩ := longest_some T _ k m hl
    obtain ⟨⟨c, r1, hc, _⟩, _⟩ := hT.names k m h1
    obtain ⟨r2, hr2⟩ := Option.isSome_iff_exists.1 h2
    have h6 := congrArg List.length (eatStr_eq k _ r2 hr2)
    rw [List.length_append, hc, List.length_cons] at h6
    rw [← hr, List.length_drop, hc, List.length_cons]
    omega

theorem keyword_le (fs : List Fn) (s r : List Char) (f : Fn) (h : keyword fs s = some (f, r)) : r.length ≤ s.length := by
  induction fs with
  | nil => cases h
  | cons g fs ih =>
    rw [keyword] at h
    cases he : eatStr g.name s with
    | none => rw [he] at h; exact ih h
    | some r1 =>
      rw [he] at h
      simp only [Option.some.injEq, Prod.mk.injEq] at h
      have := congrArg List.length (eatStr_eq _ _ _ he)
      rw [List.length_append] at this
      rw [← h.2]; omega

/-- Every rule consumes at least one character of the text, every loop gives back at most the text. -/
structure Shrinks (T : Table) (N : ℕ) : Prop where
  elemAlt : ∀ s n r, s.length ≤ N → elemAlt T s = .ok n r → r.length < s.length
  elem : ∀ s n r, s.length ≤ N → elem T s = .ok n r → r.length < s.length
  powLoop : ∀ m s n r, s.length ≤ N → powLoop T m s = .ok n r → r.length ≤ s.length
  factor : ∀ s n r, s.length ≤ N → factor T s = .ok n r → r.length < s.length
  mulLoop : ∀ m s n r, s.length ≤ N → mulLoop T m s = .ok n r → r.length ≤ s.length
  term : ∀ s n r, s.length ≤ N → term T s = .ok n r → r.length < s.length
  addLoop : ∀ m s n r, s.length ≤ N → addLoop T m s = .ok n r → r.length ≤ s.length
  expr : ∀ s n r, s.length ≤ N → expr T s = .ok n r → r.length < s.length

theorem elemAlt_lt (T : Table) (s : List Char) (n : Node) (r : List Char)
    (ih : ∀ t m u, t.length < s.length → expr T t = .ok m u → u.length < t.length) (h : elemAlt T s = .ok n r) :
    r.length < s.length := by
  rw [elemAlt] at h
  cases h1 : eat '(' s with
  | some r1 =>
    rw [h1] at h
    dsimp only at h
    have hl := eat_length _ _ _ h1
    rw [dif_pos hl] at h
    cases h2 : expr T r1 with
    | ok m r2 =>
      rw [h2] at h
      dsimp only at h
      cases h3 : eat ')' r2 with
      | some r3 =>
        rw [h3] at h
        injection h with _ hr
        have := ih _ _ _ hl h2
        have := eat_length _ _ _ h3
        rw [← hr]; omega
      | none => rw [h3] at h; cases h
    | fail => rw [h2] at h; cases h
    | err => rw [h2] at h; cases h
  | none =>
  rw [h1] at h
  dsimp only at h
  cases h1 : eat '-' s with
  | some r1 =>
    rw [h1] at h
    dsimp only at h
    have hl := eat_length _ _ _ h1
    rw [dif_pos hl] at h
    cases h2 : expr T r1 with
    | ok m r2 =>
      rw [h2] at h
      injection h with _ hr
      have := ih _ _ _ hl h2
      rw [← hr]; omega
    | fail => rw [h2] at h; cases h
    | err => rw [h2] at h; cases h
  | none =>
  rw [h1] at h
  dsimp only at h
  cases h1 : eat '+' s with
  | some r1 =>
    rw [h1] at h
    dsimp only at h
    have hl := eat_length _ _ _ h1
    rw [dif_pos hl] at h
    cases h2 : expr T r1 with
    | ok m r2 =>
      rw [h2] at h
      injection h with _ hr
      have := ih _ _ _ hl h2
      rw [← hr]; omega
    | fail => rw [h2] at h; cases h
    | err => rw [h2] at h; cases h
  | none =>
  rw [h1] at h
  dsimp only at h
  cases h1 : keyword allFns (skip s) with
  | none => rw [h1] at h; cases h
  | some p =>
    obtain ⟨f, r0⟩ := p
    rw [h1] at h
    dsimp only at h
    cases h4 : eat '(' r0 with
    | none => rw [h4] at h; cases h
    | some r1 =>
      rw [h4] at h
      dsimp only at h
      have a1 := eat_length _ _ _ h4
      have a2 := keyword_le _ _ _ _ h1
      have a3 := skip_length s
      have hl : r1.length < s.length := by omega
      rw [dif_pos hl] at h
      cases h2 : expr T r1 with
      | ok m r2 =>
        rw [h2] at h
        dsimp only at h
        cases h3 : eat ')' r2 with
        | some r3 =>
          rw [h3] at h
          injection h with _ hr
          have := ih _ _ _ hl h2
          have := eat_length _ _ _ h3
          rw [← hr]; omega
        | none => rw [h3] at h; cases h
      | fail => rw [h2] at h; cases h
      | err => rw [h2] at h; cases h

theorem shrinks (T : Table) (hT : Good T) : ∀ N, Shrinks T N := by
  intro N
  induction N with
  | zero =>
    have hexpr : ∀ (s : List Char) t m u, s.length ≤ 0 → t.length < s.length → expr T t = .ok m u →
        u.length < t.length := by intro s t m u h1 h2; omega
    have hEA : ∀ s n r, s.length ≤ 0 → elemAlt T s = .ok n r → r.length < s.length := by
      intro s n r hs h
      exact elemAlt_lt T s n r (fun t m u => hexpr s t m u hs) h
    have hE : ∀ s n r, s.length ≤ 0 → elem T s = .ok n r → r.length < s.length := by
      intro s n r hs h
      rw [elem] at h
      cases h1 : symbol T s with
      | err => rw [h1] at h; cases h
      | fail => rw [h1] at h; exact hEA s n r hs h
      | ok m r1 =>
        rw [h1] at h
        dsimp only at h
        split_ifs at h
        · exact hEA s n r hs h
        · injection h with _ hr; rw [← hr]; exact symbol_lt T hT s r1 m h1
    have hnil : ∀ s : List Char, s.length ≤ 0 → s = [] := fun s hs => List.length_eq_zero_iff.1 (by omega)
    have hel : ∀ c, eat c [] = none := fun c => rfl
    refine ⟨hEA, hE, ?_, ?_, ?_, ?_, ?_, ?_⟩
    · intro m s n r hs h
      rw [hnil s hs, powLoop, hel] at h
      injection h with _ hr; rw [← hr]; simp
    · intro s n r hs h
      rw [factor] at h
      cases h1 : elem T s with
      | ok m r1 => have := hE s m r1 hs h1; omega
      | fail => rw [h1] at h; cases h
      | err => rw [h1] at h; cases h
    · intro m s n r hs h
      rw [hnil s hs, mulLoop, hel, hel] at h
      injection h with _ hr; rw [← hr]; simp
    · intro s n r hs h
      rw [term, factor] at h
      cases h1 : elem T s with
      | ok m r1 => have := hE s m r1 hs h1; omega
      | fail => rw [h1] at h; cases h
      | err => rw [h1] at h; cases h
    · intro m s n r hs h
      rw [hnil s hs, addLoop, hel, hel] at h
      injection h with _ hr; rw [← hr]; simp
    · intro s n r hs h
      rw [expr, term, factor] at h
      cases h1 : elem T s with
      | ok m r1 => have := hE s m r1 hs h1; omega
      | fail => rw [h1] at h; cases h
      | err => rw [h1] at h; cases h
  | succ N ih =>
    have hEA : ∀ s n r, s.length ≤ N + 1 → elemAlt T s = .ok n r → r.length < s.length := by
      intro s n r hs h
      exact elemAlt_lt T s n r (fun t m u ht => ih.expr t m u (by omega)) h
    have hE : ∀ s n r, s.length ≤ N + 1 → elem T s = .ok n r → r.length < s.length := by
      intro s n r hs h
      rw [elem] at h
      cases h1 : symbol T s with
      | err => rw [h1] at h; cases h
      | fail => rw [h1] at h; exact hEA s n r hs h
      | ok m r1 =>
        rw [h1] at h
        dsimp only at h
        split_ifs at h
        · exact hEA s n r hs h
        · injection h with _ hr; rw [← hr]; exact symbol_lt T hT s r1 m h1
    have hP : ∀ m s n r, s.length ≤ N + 1 → powLoop T m s = .ok n r → r.length ≤ s.length := by
      intro m s n r hs h
      rw [powLoop] at h
      cases h1 : eat '^' s with
      | none => rw [h1] at h; injection h with _ hr; rw [← hr]
      | some r1 =>
        rw [h1] at h
        dsimp only at h
        have hl := eat_length _ _ _ h1
        rw [dif_pos hl] at h
        cases h2 : elem T r1 with
        | ok m' r2 =>
          rw [h2] at h
          dsimp only at h
          have := ih.elem r1 m' r2 (by omega) h2
          rw [dif_pos (by omega)] at h
          have := ih.powLoop _ _ _ _ (by omega) h
          omega
        | fail => rw [h2] at h; cases h
        | err => rw [h2] at h; cases h
    have hF : ∀ s n r, s.length ≤ N + 1 → factor T s = .ok n r → r.length < s.length := by
      intro s n r hs h
      rw [factor] at h
      cases h1 : elem T s with
      | ok m r1 =>
        rw [h1] at h
        dsimp only at h
        have hl := hE s m r1 hs h1
        rw [dif_pos hl] at h
        have := hP _ _ _ _ (by omega) h
        omega
      | fail => rw [h1] at h; cases h
      | err => rw [h1] at h; cases h
    have hM : ∀ m s n r, s.length ≤ N + 1 → mulLoop T m s = .ok n r → r.length ≤ s.length := by
      intro m s n r hs h
      rw [mulLoop] at h
      cases h1 : eat '*' s with
      | some r1 =>
        rw [h1] at h
        dsimp only at h
        have hl := eat_length _ _ _ h1
        rw [dif_pos hl] at h
        cases h2 : factor T r1 with
        | ok m' r2 =>
          rw [h2] at h
          dsimp only at h
          have := ih.factor r1 m' r2 (by omega) h2
          rw [dif_pos (by omega)] at h
          have := ih.mulLoop _ _ _ _ (by omega) h
          omega
        | fail => rw [h2] at h; cases h
        | err => rw [h2] at h; cases h
      | none =>
        rw [h1] at h
        dsimp only at h
        cases h1 : eat '/' s with
        | none => rw [h1] at h; injection h with _ hr; rw [← hr]
        | some r1 =>
          rw [h1] at h
          dsimp only at h
          have hl := eat_length _ _ _ h1
          rw [dif_pos hl] at h
          cases h2 : factor T r1 with
          | ok m' r2 =>
            rw [h2] at h
            dsimp only at h
            have := ih.factor r1 m' r2 (by omega) h2
            rw [dif_pos (by omega)] at h
            have := ih.mulLoop _ _ _ _ (by omega) h
            omega
          | fail => rw [h2] at h; cases h
          | err => rw [h2] at h; cases h
    have hT' : ∀ s n r, s.length ≤ N + 1 → term T s = .ok n r → r.length < s.length := by
      intro s n r hs h
      rw [term] at h
      cases h1 : factor T s with
      | ok m r1 =>
        rw [h1] at h
        dsimp only at h
        have hl := hF s m r1 hs h1
        rw [dif_pos hl] at h
        have := hM _ _ _ _ (by omega) h
        omega
      | fail => rw [h1] at h; cases h
      | err => rw [h1] at h; cases h
    have hA : ∀ m s n r, s.length ≤ N + 1 → addLoop T m s = .ok n r → r.length ≤ s.length := by
      intro m s n r hs h
      rw [addLoop] at h
      cases h1 : eat '+' s with
      | some r1 =>
        rw [h1] at h
        dsimp only at h
        have hl := eat_length _ _ _ h1
        rw [dif_pos hl] at h
        cases h2 : term T r1 with
        | ok m' r2 =>
          rw [h2] at h
          dsimp only at h
          have := ih.term r1 m' r2 (by omega) h2
          rw [dif_pos (by omega)] at h
          have := ih.addLoop _ _ _ _ (by omega) h
          omega
        | fail => rw [h2] at h; cases h
        | err => rw [h2] at h; cases h
      | none =>
        rw [h1] at h
        dsimp only at h
        cases h1 : eat '-' s with
        | none => rw [h1] at h; injection h with _ hr; rw [← hr]
        | some r1 =>
          rw [h1] at h
          dsimp only at h
          have hl := eat_length _ _ _ h1
          rw [dif_pos hl] at h
          cases h2 : term T r1 with
          | ok m' r2 =>
            rw [h2] at h
            dsimp only at h
            have := ih.term r1 m' r2 (by omega) h2
            rw [dif_pos (by omega)] at h
            have := ih.addLoop _ _ _ _ (by omega) h
            omega
          | fail => rw [h2] at h; cases h
          | err => rw [h2] at h; cases h
    refine ⟨hEA, hE, hP, hF, hM, hT', hA, ?_⟩
    intro s n r hs h
    rw [expr] at h
    cases h1 : term T s with
    | ok m r1 =>
      rw [h1] at h
      dsimp only at h
      have hl := hT' s m r1 hs h1
      rw [dif_pos hl] at h
      have := hA _ _ _ _ (by omega) h
      omega
    | fail => rw [h1] at h; cases h
    | err => rw [h1] at h; cases h

/-- The tests on lengths in `expr`, `term`, `factor` succeed. -/
theorem expr_consumes (T : Table) (hT : Good T) (s : List Char) (n : Node) (r : List Char) :
    (term T s = .ok n r → r.length < s.length) ∧ (factor T s = .ok n r → r.length < s.length) ∧
    (elem T s = .ok n r → r.length < s.length) ∧ (expr T s = .ok n r → r.length < s.length) :=
  ⟨(shrinks T hT s.length).term s n r (le_refl _), (shrinks T hT s.length).factor s n r (le_refl _),
    (shrinks T hT s.length).elem s n r (le_refl _), (shrinks T hT s.length).expr s n r (le_refl _)⟩

end B2.Parse
