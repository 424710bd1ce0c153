import Verif.Parse.Comments

/-!
# C60: comment stripping
-/

namespace B2.Parse

/-- C60 in full: the result is the text without its comments, and stripping twice is stripping once. -/
def C60_full : Prop := ∀ s : List Char, strip s = uncomment false s ∧ strip (strip s) = strip s

/-- C60 up to blank lines and leading white space of lines: the stripped text has exactly the non-blank lines
of the text without its comments, no `%` is left, and stripping twice gives the same lines as stripping once.
Missing: exact equality, see `C60_refuted`. -/
theorem C60_partial (s : List Char) :
    canon (strip s) = canon (uncomment false s) ∧ '%' ∉ strip s ∧ canon (strip (strip s)) = canon (strip s) := by
  refine ⟨strip_canon s, strip_percent s, ?_⟩
  rw [strip_canon (strip s), uncomment_id _ (strip_percent s)]

/-- The stripped text always ends with a newline, whatever the text. -/
theorem C60_newline (s : List Char) : ∃ u, strip s = u ++ ['\n'] := by
  induction hlen : s.length using Nat.strong_induction_on generalizing s with
  | _ N ih =>
    cases hl : line s with
    | some p =>
      obtain ⟨b, r⟩ := p
      obtain ⟨u, hu⟩ := ih r.length (by have := line_lt s b r hl; omega) r rfl
      exact ⟨b ++ '\n' :: u, by rw [strip_line s b r hl, hu]; simp⟩
    | none => exact ⟨_, strip_last s hl⟩

/-- C60 in full fails: a text without comments and final newline gets one, and a second one the next time. -/
theorem C60_refuted : ¬ C60_full := by
  intro h
  obtain ⟨u, hu⟩ := C60_newline ['a']
  have h1 := (h ['a']).1
  rw [uncomment_id _ (by decide), hu] at h1
  have := congrArg List.getLast? h1
  rw [List.getLast?_append] at this
  simp at this

/-- `strip` on a text with a comment line, indentation, and a comment after text. -/
example : canon (strip "%c\n  ab %d\n\nef".toList) = [['a', 'b', ' '], ['e', 'f']] := by
  rw [(C60_partial _).1]
  have : uncomment false "%c\n  ab %d\n\nef".toList = "\n  ab \n\nef".toList := by decide
  rw [this]
  have e : "\n  ab \n\nef".toList = ['\n', ' ', ' '] ++ ('a' :: (['b', ' '] ++ (['\n', '\n'] ++ ('e' :: (['f'] ++ []))))) := by decide
  rw [e, canon_ws _ _ (by intro c hc; simp at hc; rcases hc with rfl | rfl <;> decide),
    canon_line _ _ _ (by decide) (by decide) (by intro d hd; simp at hd; subst hd; decide),
    canon_ws _ _ (by intro c hc; simp at hc; subst hc; decide),
    canon_line _ _ _ (by decide) (by decide) (by intro d hd; cases hd), canon_nil]

end B2.Parse
