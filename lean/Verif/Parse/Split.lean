import Verif.Parse.Comments

/-!
# Splitting a classic input file

Code: `SplitInputFileParser`, /repo/core/include/bertini2/io/parsing/classic_utilities.hpp 172-290.

Only the alternatives with a `CONFIG` marker are modelled with their results; each of these has its own
semantic action.  (The alternatives of `only_input_` share one, and what a failed alternative leaves in the
shared string depends on the parser library; see DESIGN.md.)
-/

namespace B2.Parse

/-- ASCII lower case, used by `no_case`. -/
def low (c : Char) : Char := if 'A' ≤ c ∧ c ≤ 'Z' then Char.ofNat (c.toNat + 32) else c

/-- A literal inside `no_case`, at the beginning of the text; `kw` in lower case. -/
def eatCI : List Char → List Char → Option (List Char)
  | [], s => some s
  | _ :: _, [] => none
  | k :: ks, d :: r => if low d = k then eatCI ks r else none

/-- `*(char_ - KW) >> KW` without skipping: the text before the first occurrence and the text after it. -/
def upto (kw : List Char) : List Char → Option (List Char × List Char)
  | [] => if kw = [] then some ([], []) else none
  | c :: s =>
    match eatCI kw (c :: s) with
    | some r => some ([], r)
    | none => (upto kw s).map fun p => (c :: p.1, p.2)

/-- The three markers. -/
def kConfig : List Char := ['c', 'o', 'n', 'f', 'i', 'g']
/-- See `kConfig`. -/
def kEnd : List Char := ['e', 'n', 'd', ';']
/-- See `kConfig`. -/
def kInput : List Char := ['i', 'n', 'p', 'u', 't']

/-- `end_`, `input_`: `no_case[lexeme[*(char_ - KW)] >> KW]`, classic_utilities.hpp 250-254; `lexeme` skips
white space first. -/
def section_ (kw s : List Char) : Option (List Char × List Char) := upto kw (skip s)

/-- `config_`, classic_utilities.hpp 247, with its attribute omitted.  (It skips white space between the
characters too, which does not change where the marker is found.) -/
def config_ (s : List Char) : Option (List Char) := (upto kConfig s).map Prod.snd

/-- Result of the alternatives of `both_`: configuration and input. -/
abbrev CI := List Char × List Char

/-- `config_ >> end_ >> input_ >> end_`, number 15. -/
def alt15 (s : List Char) : Option CI :=
  (config_ s).bind fun r => (section_ kEnd r).bind fun c => (section_ kInput c.2).bind fun m =>
    (section_ kEnd m.2).map fun i => (c.1, i.1)

/-- `config_ >> end_ >> input_ >> no_decl_`, number 14. -/
def alt14 (s : List Char) : Option CI :=
  (config_ s).bind fun r => (section_ kEnd r).bind fun c => (section_ kInput c.2).map fun m => (c.1, skip m.2)

/-- `config_ >> end_ >> end_`, number 13. -/
def alt13 (s : List Char) : Option CI :=
  (config_ s).bind fun r => (section_ kEnd r).bind fun c => (section_ kEnd c.2).map fun i => (c.1, i.1)

/-- `config_ >> input_ >> end_`, number 11. -/
def alt11 (s : List Char) : Option CI :=
  (config_ s).bind fun r => (section_ kInput r).bind fun c => (section_ kEnd c.2).map fun i => (c.1, i.1)

/-- `config_ >> end_ >> no_decl_`, number 12. -/
def alt12 (s : List Char) : Option CI :=
  (config_ s).bind fun r => (section_ kEnd r).map fun c => (c.1, skip c.2)

/-- `config_ >> input_ >> no_decl_`, number 10. -/
def alt10 (s : List Char) : Option CI :=
  (config_ s).bind fun r => (section_ kInput r).map fun c => (c.1, skip c.2)

/-- `both_`, classic_utilities.hpp 199-213: the first alternative that matches. -/
def both (s : List Char) : Option CI :=
  (alt15 s).or ((alt14 s).or ((alt13 s).or ((alt11 s).or ((alt12 s).or (alt10 s)))))

/-! ## Specification -/

/-- The marker occurs in the text, in any case. -/
def Occurs (kw t : List Char) : Prop := ∃ a k b, t = a ++ (k ++ b) ∧ k.map low = kw

/-- The marker occurs in the text as a word: not directly after a character of a name. -/
def OccursWord (kw t : List Char) : Prop :=
  ∃ a k b, t = a ++ (k ++ b) ∧ k.map low = kw ∧ ∀ c, a.getLast? = some c → isNameChar c = false

/-! ## Lemmas -/

theorem eatCI_eq (kw : List Char) : ∀ s r, eatCI kw s = some r → ∃ k, s = k ++ r ∧ k.map low = kw := by
  induction kw with
  | nil => intro s r h; simp only [eatCI, Option.some.injEq] at h; exact ⟨[], h, rfl⟩
  | cons c kw ih =>
    intro s r h
    cases s with
    | nil => cases h
    | cons d s =>
      rw [eatCI] at h
      by_cases hd : low d = c
      · rw [if_pos hd] at h
        obtain ⟨k, h1, h2⟩ := ih s r h
        exact ⟨d :: k, by rw [h1]; rfl, by rw [List.map_cons, hd, h2]⟩
      · rw [if_neg hd] at h; cases h

theorem eatCI_append (k r : List Char) : eatCI (k.map low) (k ++ r) = some r := by
  induction k with
  | nil => rfl
  | cons c k ih => rw [List.map_cons, List.cons_append, eatCI, if_pos rfl, ih]

/-- The text before the first occurrence: for markers whose first letter does not occur again in them. -/
theorem upto_first (c0 : Char) (ks K t r : List Char) (hks : c0 ∉ ks) (hK : K.map low = c0 :: ks)
    (ht : ¬ Occurs (c0 :: ks) t) : upto (c0 :: ks) (t ++ (K ++ r)) = some (t, r) := by
  induction t with
  | nil =>
    rw [List.nil_append]
    cases K with
    | nil => cases hK
    | cons d K =>
      have := eatCI_append (d :: K) r
      rw [hK] at this
      rw [List.cons_append] at this ⊢
      rw [upto, this]
  | cons c t ih =>
    have ih := ih (by
      rintro ⟨a, k, b, h1, h2⟩
      exact ht ⟨c :: a, k, b, by rw [h1]; rfl, h2⟩)
    rw [List.cons_append, upto]
    cases he : eatCI (c0 :: ks) (c :: (t ++ (K ++ r))) with
    | none => rw [ih]; rfl
    | some u =>
      exfalso
      obtain ⟨k, h1, h2⟩ := eatCI_eq _ _ _ he
      have h1' : (c :: t) ++ (K ++ r) = k ++ u := h1
      rcases List.append_eq_append_iff.1 h1' with ⟨c', hc1, hc2⟩ | ⟨c', hc1, hc2⟩
      · -- the occurrence reaches into the marker
        cases c' with
        | nil =>
          rw [List.append_nil] at hc1
          exact ht ⟨[], k, [], by rw [List.nil_append, List.append_nil]; exact hc1.symm, h2⟩
        | cons d c' =>
          have hd : low d = c0 := by
            cases K with
            | nil => cases hK
            | cons e K =>
              simp only [List.cons_append, List.cons.injEq] at hc2
              simp only [List.map_cons, List.cons.injEq] at hK
              rw [← hc2.1]; exact hK.1
          rw [hc1] at h2
          simp only [List.cons_append, List.map_cons, List.map_append, List.cons.injEq] at h2
          apply hks
          rw [← h2.2, ← hd]
          exact List.mem_append_right _ List.mem_cons_self
      · exact ht ⟨[], k, c', by rw [List.nil_append]; exact hc1, h2⟩

theorem upto_none (kw t : List Char) (ht : ¬ Occurs kw t) : upto kw t = none := by
  induction t with
  | nil =>
    rw [upto, if_neg]
    rintro rfl
    exact ht ⟨[], [], [], rfl, rfl⟩
  | cons c t ih =>
    have ih := ih (by
      rintro ⟨a, k, b, h1, h2⟩
      exact ht ⟨c :: a, k, b, by rw [h1]; rfl, h2⟩)
    rw [upto]
    cases he : eatCI kw (c :: t) with
    | none => rw [ih]; rfl
    | some u =>
      obtain ⟨k, h1, h2⟩ := eatCI_eq _ _ _ he
      exact absurd ⟨[], k, u, h1, h2⟩ ht

theorem occurs_skip (kw t : List Char) (h : Occurs kw (skip t)) : Occurs kw t := by
  obtain ⟨a, k, b, h1, h2⟩ := h
  refine ⟨t.takeWhile isSpace ++ a, k, b, ?_, h2⟩
  rw [List.append_assoc, ← h1]
  unfold skip
  rw [List.takeWhile_append_dropWhile]

theorem skip_append (t s : List Char) (hs : ∀ c, s.head? = some c → isSpace c = false) : skip (t ++ s) = skip t ++ s := by
  induction t with
  | nil =>
    cases s with
    | nil => rfl
    | cons c s => rw [List.nil_append, skip_cons c s (hs c rfl)]; rfl
  | cons c t ih =>
    cases hc : isSpace c with
    | true =>
      have h1 : ∀ u, skip (c :: u) = skip u := fun u => skip_ws [c] u (by
        intro d hd; rw [List.mem_singleton.1 hd]; exact hc)
      rw [List.cons_append, h1, h1, ih]
    | false => rw [List.cons_append, skip_cons c _ hc, skip_cons c _ hc]; rfl

theorem low_space (c : Char) (h : isSpace c = true) : low c = c := by
  simp only [isSpace, Bool.or_eq_true, decide_eq_true_eq] at h
  rcases h with ((((h | h) | h) | h) | h) | h <;> rw [h] <;> decide

/-- A section ended by its marker. -/
theorem section_first (c0 : Char) (ks K t r : List Char) (h0 : isSpace c0 = false) (hks : c0 ∉ ks)
    (hK : K.map low = c0 :: ks) (ht : ¬ Occurs (c0 :: ks) t) :
    section_ (c0 :: ks) (t ++ (K ++ r)) = some (skip t, r) := by
  unfold section_
  rw [skip_append t (K ++ r), upto_first c0 ks K (skip t) r hks hK (fun h => ht (occurs_skip _ _ h))]
  intro c hc
  cases K with
  | nil => cases hK
  | cons d K =>
    simp only [List.cons_append, List.head?_cons, Option.some.injEq] at hc
    subst hc
    simp only [List.map_cons, List.cons.injEq] at hK
    cases hd : isSpace d with
    | false => rfl
    | true => rw [← hK.1, low_space d hd, hd] at h0; cases h0

theorem section_none (kw t : List Char) (ht : ¬ Occurs kw t) : section_ kw t = none :=
  upto_none kw _ fun h => ht (occurs_skip _ _ h)

end B2.Parse
