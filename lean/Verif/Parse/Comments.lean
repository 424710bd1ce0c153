import Verif.Parse.Declare

/-!
# Removing comments

Code: `CommentStripper`, /repo/core/include/bertini2/io/parsing/classic_utilities.hpp 316-375.
-/

namespace B2.Parse

/-- First character of `qi::eol`. -/
def isEol (c : Char) : Bool := c = '\n' || c = '\r'

/-- `qi::eol`: `\r`, `\n` or `\r\n`. -/
def eatEol : List Char → Option (List Char)
  | '\r' :: '\n' :: r => some r
  | '\r' :: r => some r
  | '\n' :: r => some r
  | _ => none

/-- Characters of `char_ - eol - "%"`. -/
def plain (c : Char) : Bool := !isEol c && c != '%'

/-- The optional comment `-( "%" >> lexeme[*(char_ - eol)] )`. -/
def dropComment : List Char → List Char
  | '%' :: r => r.dropWhile fun c => !isEol c
  | r => r

/-- `line_`, classic_utilities.hpp 345: `lexeme` skips white space, newlines included, before it starts. -/
def line (s : List Char) : Option (List Char × List Char) :=
  let t := skip s
  (eatEol (dropComment (t.dropWhile plain))).map fun r => (t.takeWhile plain, r)

/-- `last_line_`, classic_utilities.hpp 348. -/
def lastLine (s : List Char) : List Char := (skip s).takeWhile fun c => c != '%'

/-- `root_rule_`, classic_utilities.hpp 341: all lines with a newline each, then `last_line_`, which always
matches.  The test on lengths serves termination only and always succeeds. -/
def strip (s : List Char) : List Char :=
  match line s with
  | some (b, r) => if _h : r.length < s.length then b ++ '\n' :: strip r else []
  | none => lastLine s ++ ['\n']
termination_by s.length

/-! ## Specification -/

/-- The text without its comments: every character from a `%` to the end of its line is removed, nothing else.
`inside` tells whether a comment is open. -/
def uncomment (inside : Bool) : List Char → List Char
  | [] => []
  | c :: s =>
    if inside then (if isEol c then c :: uncomment false s else uncomment true s)
    else if c = '%' then uncomment true s else c :: uncomment false s

/-- The lines of a text that are not blank, each without leading white space. -/
def canon (s : List Char) : List (List Char) :=
  match _hs : skip s with
  | [] => []
  | c :: u =>
    (c :: u.takeWhile fun d => !isEol d) :: canon (u.dropWhile fun d => !isEol d)
termination_by s.length
decreasing_by
  have h1 := skip_length s
  have h2 := dropWhile_le (fun d => !isEol d) u
  rw [_hs] at h1
  simp only [List.length_cons] at h1
  omega

/-! ## Lemmas -/

theorem eol_space (c : Char) (h : isEol c = true) : isSpace c = true := by
  simp only [isEol, Bool.or_eq_true, decide_eq_true_eq] at h
  rcases h with rfl | rfl <;> decide

theorem eatEol_spec (s r : List Char) (h : eatEol s = some r) :
    ∃ e, s = e ++ r ∧ e ≠ [] ∧ (∀ c ∈ e, isEol c = true) := by
  unfold eatEol at h
  split at h
  · simp only [Option.some.injEq] at h; subst h; exact ⟨['\r', '\n'], rfl, by simp, by decide⟩
  · simp only [Option.some.injEq] at h; subst h; exact ⟨['\r'], rfl, by simp, by decide⟩
  · simp only [Option.some.injEq] at h; subst h; exact ⟨['\n'], rfl, by simp, by decide⟩
  · cases h

theorem eatEol_none (s : List Char) (h : eatEol s = none) : ∀ c, s.head? = some c → isEol c = false := by
  intro c hc
  cases s with
  | nil => cases hc
  | cons d s =>
    simp only [List.head?_cons, Option.some.injEq] at hc
    subst hc
    cases hd : isEol d with
    | false => rfl
    | true =>
      simp only [isEol, Bool.or_eq_true, decide_eq_true_eq] at hd
      rcases hd with rfl | rfl
      · simp [eatEol] at h
      · cases s with
        | nil => simp [eatEol] at h
        | cons e s =>
          unfold eatEol at h
          split at h <;> first | cases h | skip
          rename_i h1 h2 h3
          exact absurd rfl (h2 _)

/-- A line is white space, plain characters, a comment or nothing, and then the end of the line or of the text. -/
theorem line_shape (s : List Char) : ∃ w b k t, s = w ++ (b ++ (k ++ t)) ∧ Ws w ∧ (∀ c ∈ b, plain c = true) ∧
    b = (skip s).takeWhile plain ∧ (k = [] ∨ ∃ k', k = '%' :: k' ∧ ∀ c ∈ k', isEol c = false) ∧
    (b = [] → ∀ c, (k ++ t).head? = some c → isSpace c = false) ∧ (∀ c, b.head? = some c → isSpace c = false) ∧
    t = dropComment ((skip s).dropWhile plain) ∧ (∀ c, t.head? = some c → isEol c = true) := by
  have hsk : s = s.takeWhile isSpace ++ skip s := by
    unfold skip; rw [List.takeWhile_append_dropWhile]
  have hhd : ∀ c, (skip s).head? = some c → isSpace c = false := by
    intro c hc; exact head_dropWhile isSpace s c hc
  obtain ⟨t0, ht0⟩ : ∃ t0, t0 = skip s := ⟨_, rfl⟩
  rw [← ht0] at hhd ⊢
  have hb : t0 = t0.takeWhile plain ++ t0.dropWhile plain := by rw [List.takeWhile_append_dropWhile]
  obtain ⟨u, hu⟩ : ∃ u, u = t0.dropWhile plain := ⟨_, rfl⟩
  have huhd : ∀ c, u.head? = some c → plain c = false := by rw [hu]; exact head_dropWhile _ _
  have hbhd : ∀ c, (t0.takeWhile plain).head? = some c → isSpace c = false := by
    intro c hc
    apply hhd
    rw [hb]
    cases hbb : t0.takeWhile plain with
    | nil => rw [hbb] at hc; cases hc
    | cons d b => rw [hbb] at hc; simpa using hc
  have hunb : t0.takeWhile plain = [] → ∀ c, u.head? = some c → isSpace c = false := by
    intro hnil c hc
    apply hhd
    rw [hb, hnil, List.nil_append, ← hu]; exact hc
  rw [← hu] at hb
  rw [← hu]
  cases hu2 : u with
  | nil =>
    refine ⟨s.takeWhile isSpace, t0.takeWhile plain, [], [], ?_, mem_takeWhile _ _, mem_takeWhile _ _, rfl, Or.inl rfl,
      (by intro _ c hc; cases hc), hbhd, rfl, (by intro c hc; cases hc)⟩
    rw [hu2, List.append_nil] at hb
    rw [List.append_nil, List.append_nil, ← hb, ht0]
    exact hsk
  | cons d u' =>
    by_cases hd : d = '%'
    · subst hd
      refine ⟨s.takeWhile isSpace, t0.takeWhile plain, '%' :: u'.takeWhile fun c => !isEol c, u'.dropWhile fun c => !isEol c,
        ?_, mem_takeWhile _ _, mem_takeWhile _ _, rfl, Or.inr ⟨_, rfl, ?_⟩, ?_, hbhd, rfl, ?_⟩
      · rw [List.cons_append, List.takeWhile_append_dropWhile, ← hu2, ← hb, ht0]; exact hsk
      · intro c hc
        have := mem_takeWhile _ _ c hc
        simpa using this
      · intro _ c hc
        simp only [List.cons_append, List.head?_cons, Option.some.injEq] at hc
        subst hc; decide
      · intro c hc
        have := head_dropWhile _ _ c hc
        simpa using this
    · have hdc : dropComment (d :: u') = d :: u' := by
        unfold dropComment
        split
        · rename_i r he; injection he with h1 h2; exact absurd h1 hd
        · rfl
      refine ⟨s.takeWhile isSpace, t0.takeWhile plain, [], d :: u', ?_, mem_takeWhile _ _, mem_takeWhile _ _, rfl, Or.inl rfl,
        ?_, hbhd, hdc.symm, ?_⟩
      · rw [List.nil_append, ← hu2, ← hb, ht0]; exact hsk
      · intro hnil c hc
        exact hunb hnil c (by rw [hu2]; exact hc)
      · intro c hc
        simp only [List.head?_cons, Option.some.injEq] at hc
        subst hc
        have := huhd d (by rw [hu2]; rfl)
        unfold plain at this
        cases he : isEol d with
        | true => rfl
        | false =>
          rw [he] at this
          simp only [Bool.not_false, Bool.true_and, bne_eq_false_iff_eq] at this
          exact absurd this hd

theorem uncomment_plain (a s : List Char) (ha : ∀ c ∈ a, c ≠ '%') : uncomment false (a ++ s) = a ++ uncomment false s := by
  induction a with
  | nil => rfl
  | cons c a ih =>
    have := ih fun d hd => ha d (List.mem_cons_of_mem _ hd)
    rw [List.cons_append, uncomment, if_neg (by decide), if_neg (ha c List.mem_cons_self), this, List.cons_append]

theorem uncomment_inside (a s : List Char) (ha : ∀ c ∈ a, isEol c = false) :
    uncomment true (a ++ s) = uncomment true s := by
  induction a with
  | nil => rfl
  | cons c a ih =>
    have := ih fun d hd => ha d (List.mem_cons_of_mem _ hd)
    rw [List.cons_append, uncomment, if_pos rfl, if_neg (by rw [ha c List.mem_cons_self]; decide), this]

theorem uncomment_comment (k t : List Char) (hk : k = [] ∨ ∃ k', k = '%' :: k' ∧ ∀ c ∈ k', isEol c = false)
    (ht : ∀ c, t.head? = some c → isEol c = true) : uncomment false (k ++ t) = uncomment false t := by
  rcases hk with rfl | ⟨k', rfl, hk'⟩
  · rfl
  · rw [List.cons_append, uncomment, if_neg (by decide), if_pos rfl, uncomment_inside k' t hk']
    cases t with
    | nil => rfl
    | cons c t =>
      have hc := ht c rfl
      rw [uncomment, if_pos rfl, if_pos hc, uncomment, if_neg (by decide), if_neg]
      rintro rfl
      revert hc; decide

theorem canon_ws (w s : List Char) (hw : Ws w) : canon (w ++ s) = canon s := by
  rw [canon, canon.eq_def s, skip_ws w s hw]

theorem canon_nil : canon [] = [] := by rw [canon]; rfl

/-- A line that starts with a non-blank character. -/
theorem canon_line (c : Char) (b t : List Char) (hc : isSpace c = false) (hb : ∀ d ∈ b, isEol d = false)
    (ht : ∀ d, t.head? = some d → isEol d = true) : canon (c :: (b ++ t)) = (c :: b) :: canon t := by
  rw [canon, skip_cons c _ hc]
  have := takeWhile_append_stop (fun d => !isEol d) b t (by intro d hd; simp [hb d hd])
    (by intro d hd; simp [ht d hd])
  dsimp only
  rw [this.1, this.2]

theorem plain_not_eol (c : Char) (h : plain c = true) : isEol c = false ∧ c ≠ '%' := by
  unfold plain at h
  simp only [Bool.and_eq_true, Bool.not_eq_true', bne_iff_ne, ne_eq] at h
  exact h

theorem ws_not_percent (w : List Char) (hw : Ws w) : ∀ c ∈ w, c ≠ '%' := by
  rintro c hc rfl
  have := hw _ hc
  revert this; decide

theorem line_lt (s b r : List Char) (h : line s = some (b, r)) : r.length < s.length := by
  obtain ⟨w, b', k, t, hs, -, -, -, -, -, -, htt, -⟩ := line_shape s
  unfold line at h
  dsimp only at h
  rw [← htt] at h
  cases he : eatEol t with
  | none => rw [he] at h; cases h
  | some r' =>
    rw [he] at h
    simp only [Option.map_some, Option.some.injEq, Prod.mk.injEq] at h
    obtain ⟨e, he1, he2, _⟩ := eatEol_spec t r' he
    have h1 := congrArg List.length hs
    have h2 := congrArg List.length he1
    have h3 := List.length_pos_iff.2 he2
    simp only [List.length_append] at h1 h2
    rw [← h.2]; omega

theorem strip_line (s b r : List Char) (h : line s = some (b, r)) : strip s = b ++ '\n' :: strip r := by
  rw [strip, h]
  dsimp only
  rw [dif_pos (line_lt s b r h)]

theorem strip_last (s : List Char) (h : line s = none) : strip s = lastLine s ++ ['\n'] := by
  rw [strip, h]

theorem newline_head (s : List Char) : ∀ d, ('\n' :: s).head? = some d → isEol d = true := by
  intro d hd; simp only [List.head?_cons, Option.some.injEq] at hd; subst hd; decide

theorem strip_canon (s : List Char) : canon (strip s) = canon (uncomment false s) := by
  induction hlen : s.length using Nat.strong_induction_on generalizing s with
  | _ N ih =>
    obtain ⟨w, b, k, t, hs, hw, hbp, hbb, hk, hkt, hbh, htt, hth⟩ := line_shape s
    have hbe : ∀ d ∈ b, isEol d = false := fun d hd => (plain_not_eol d (hbp d hd)).1
    have hbc : ∀ d ∈ b, d ≠ '%' := fun d hd => (plain_not_eol d (hbp d hd)).2
    -- the text without comments
    have hun : canon (uncomment false s) = canon (b ++ uncomment false t) := by
      rw [hs, uncomment_plain w _ (ws_not_percent w hw), uncomment_plain b _ hbc, uncomment_comment k t hk hth,
        canon_ws w _ hw]
    cases he : eatEol t with
    | some r =>
      have hl : line s = some (b, r) := by
        unfold line
        dsimp only
        rw [← htt, he, ← hbb]; rfl
      obtain ⟨e, he1, he2, he3⟩ := eatEol_spec t r he
      have hlt := line_lt s b r hl
      have hihr := ih r.length (by omega) r rfl
      have hew : Ws e := fun c hc => eol_space c (he3 c hc)
      have hune : uncomment false t = e ++ uncomment false r := by
        rw [he1, uncomment_plain e r (ws_not_percent e hew)]
      have hnl : canon ('\n' :: strip r) = canon (strip r) := canon_ws ['\n'] _ (by
        intro c hc; rw [List.mem_singleton.1 hc]; decide)
      rw [strip_line s b r hl, hun, hune]
      cases hb0 : b with
      | nil =>
        rw [List.nil_append, List.nil_append, hnl, canon_ws e _ hew, hihr]
      | cons c b' =>
        rw [hb0] at hbe hbh
        have hc := hbh c rfl
        have hb' : ∀ d ∈ b', isEol d = false := fun d hd => hbe d (List.mem_cons_of_mem _ hd)
        have heh : ∀ d, (e ++ uncomment false r).head? = some d → isEol d = true := by
          intro d hd
          cases e with
          | nil => exact absurd rfl he2
          | cons x e => exact he3 d (by simp only [List.cons_append, List.head?_cons, Option.some.injEq] at hd; subst hd; simp)
        rw [List.cons_append, List.cons_append, canon_line c b' _ hc hb' (newline_head _), canon_line c b' _ hc hb' heh, hnl,
          canon_ws e _ hew, hihr]
    | none =>
      have htnil : t = [] := by
        cases ht : t with
        | nil => rfl
        | cons d t' =>
          have h1 := hth d (by rw [ht]; rfl)
          have h2 := eatEol_none t he d (by rw [ht]; rfl)
          rw [h1] at h2; cases h2
      have hl : line s = none := by
        unfold line
        dsimp only
        rw [← htt, he]; rfl
      have hskip : skip s = b ++ k := by
        have hh : skip s = skip (b ++ k) := by rw [hs, skip_ws w _ hw, htnil, List.append_nil]
        rw [hh]
        cases hbk : b ++ k with
        | nil => rfl
        | cons c u =>
          refine skip_cons c u ?_
          cases hb0 : b with
          | nil =>
            refine hkt hb0 c ?_
            rw [hb0, List.nil_append] at hbk
            rw [hbk, List.cons_append]; rfl
          | cons c' b' =>
            refine hbh c ?_
            rw [hb0] at hbk ⊢
            simp only [List.cons_append, List.cons.injEq] at hbk
            rw [hbk.1]; rfl
      have hlast : lastLine s = b := by
        unfold lastLine
        rw [hskip]
        refine (takeWhile_append_stop (fun c => c != '%') b k (by intro d hd; simp [hbc d hd]) ?_).1
        intro d hd
        rcases hk with rfl | ⟨k', rfl, _⟩
        · cases hd
        · simp only [List.head?_cons, Option.some.injEq] at hd; subst hd; decide
      rw [strip_last s hl, hlast, hun, htnil]
      have hu0 : uncomment false [] = [] := rfl
      rw [hu0, List.append_nil]
      have hnl : canon ['\n'] = [] := by
        rw [show (['\n'] : List Char) = ['\n'] ++ [] from rfl, canon_ws ['\n'] [] (by
          intro c hc; rw [List.mem_singleton.1 hc]; decide), canon_nil]
      cases hb0 : b with
      | nil => rw [List.nil_append, hnl, canon_nil]
      | cons c b' =>
        rw [hb0] at hbe hbh
        have hc := hbh c rfl
        have hb' : ∀ d ∈ b', isEol d = false := fun d hd => hbe d (List.mem_cons_of_mem _ hd)
        have h2 := canon_line c b' [] hc hb' (by intro d hd; cases hd)
        rw [List.append_nil] at h2
        rw [List.cons_append, canon_line c b' ['\n'] hc hb' (newline_head _), hnl, h2, canon_nil]

theorem strip_percent (s : List Char) : '%' ∉ strip s := by
  induction hlen : s.length using Nat.strong_induction_on generalizing s with
  | _ N ih =>
    cases hl : line s with
    | some p =>
      obtain ⟨b, r⟩ := p
      have hlt := line_lt s b r hl
      rw [strip_line s b r hl]
      intro hm
      rcases List.mem_append.1 hm with h | h
      · unfold line at hl
        dsimp only at hl
        cases he : eatEol (dropComment ((skip s).dropWhile plain)) with
        | none => rw [he] at hl; cases hl
        | some r' =>
          rw [he] at hl
          simp only [Option.map_some, Option.some.injEq, Prod.mk.injEq] at hl
          rw [← hl.1] at h
          have := mem_takeWhile _ _ _ h
          revert this; decide
      · rcases List.mem_cons.1 h with h | h
        · revert h; decide
        · exact ih r.length (by omega) r rfl h
    | none =>
      rw [strip_last s hl]
      intro hm
      rcases List.mem_append.1 hm with h | h
      · unfold lastLine at h
        have := mem_takeWhile _ _ _ h
        revert this; decide
      · rw [List.mem_singleton] at h; revert h; decide

theorem uncomment_id (s : List Char) (h : '%' ∉ s) : uncomment false s = s := by
  have := uncomment_plain s [] (by rintro c hc rfl; exact h hc)
  rw [List.append_nil] at this
  rw [this, show uncomment false [] = [] from rfl, List.append_nil]

end B2.Parse
