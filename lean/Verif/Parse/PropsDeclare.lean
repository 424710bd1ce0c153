import Verif.Parse.Declare

/-!
# C59: declaring new names
-/

namespace B2.Parse

/-- What the parser knows when `declared` have been declared: keywords, constants, and those names. -/
def knownNames (declared : List (List Char)) : List (List Char) := declared ++ constants ++ declarative

/-- C59 in full: any names that fit the naming rules, differ from each other and from everything known can be
declared. -/
def C59_full : Prop :=
  ∀ (declared ns : List (List Char)) (rest : List Char), (∀ n ∈ declared, IsName n) → ns ≠ [] → (∀ n ∈ ns, IsName n) →
    ns.Nodup → (∀ n ∈ ns, n ∉ knownNames declared) →
    declare (knownNames declared) (commaText ns ++ ';' :: rest) = some (ns, rest)

theorem known_chars (declared : List (List Char)) (hd : ∀ n ∈ declared, IsName n) :
    ∀ k ∈ knownNames declared, ∀ c ∈ k, isNameChar c = true := by
  intro k hk
  unfold knownNames at hk
  rcases List.mem_append.1 hk with hk | hk
  · rcases List.mem_append.1 hk with hk | hk
    · exact (hd k hk).2
    · exact (show ∀ k ∈ constants, ∀ c ∈ k, isNameChar c = true by decide) k hk
  · exact (show ∀ k ∈ declarative, ∀ c ∈ k, isNameChar c = true by decide) k hk

/-- C59 exactly as it holds: the declaration is accepted, with exactly these names, when no known name and
no earlier name of the list is a prefix of a later one, and is rejected otherwise.
Missing from the full claim: names that extend a known name. -/
theorem C59_partial (declared ns : List (List Char)) (w rest : List Char) (hd : ∀ n ∈ declared, IsName n)
    (hne : ns ≠ []) (hn : ∀ n ∈ ns, IsName n) (hw : Ws w) :
    declare (knownNames declared) (w ++ (commaText ns ++ ';' :: rest)) =
      (open Classical in
        if (∀ n ∈ ns, ∀ k ∈ knownNames declared, ¬ k <+: n) ∧ ns.Pairwise (fun a b => ¬ a <+: b) then some (ns, rest)
        else none) := by
  have h := declare_text (knownNames declared) ns w rest hne hw (known_chars declared hd) hn
  split_ifs with h1
  · exact h.1 h1
  · exact h.2 h1

/-- No name starting with `e`, `E`, `i` or `I` can ever be declared. -/
theorem C59_letters (declared : List (List Char)) (hd : ∀ n ∈ declared, IsName n) (c : Char) (n w rest : List Char)
    (hc : c = 'e' ∨ c = 'E' ∨ c = 'i' ∨ c = 'I') (hn : IsName (c :: n)) (hw : Ws w) :
    declare (knownNames declared) (w ++ ((c :: n) ++ ';' :: rest)) = none := by
  have h := declare_text (knownNames declared) [c :: n] w rest (by simp) hw (known_chars declared hd)
    (by intro m hm; rw [List.mem_singleton.1 hm]; exact hn)
  refine h.2 ?_
  rintro ⟨h1, _⟩
  refine h1 (c :: n) (by simp) [c] ?_ ⟨n, rfl⟩
  unfold knownNames
  refine List.mem_append_left _ (List.mem_append_right _ ?_)
  rcases hc with rfl | rfl | rfl | rfl <;> decide

/-- The order of declaration matters: a name and an extension of it can be declared in one order only. -/
theorem C59_order (declared : List (List Char)) (hd : ∀ n ∈ declared, IsName n) (a b rest : List Char)
    (ha : IsName a) (hb : IsName (a ++ b)) (hne : b ≠ [])
    (hfa : ∀ k ∈ knownNames declared, ¬ k <+: a) (hfb : ∀ k ∈ knownNames declared, ¬ k <+: a ++ b) :
    declare (knownNames declared) (commaText [a ++ b, a] ++ ';' :: rest) = some ([a ++ b, a], rest) ∧
    declare (knownNames declared) (commaText [a, a ++ b] ++ ';' :: rest) = none := by
  have hkc := known_chars declared hd
  have hw : Ws ([] : List Char) := by intro c hc; cases hc
  constructor
  · refine (declare_text (knownNames declared) [a ++ b, a] [] rest (by simp) hw hkc ?_).1 ⟨?_, ?_⟩
    · intro n hn
      simp only [List.mem_cons, List.not_mem_nil, or_false] at hn
      rcases hn with rfl | rfl <;> assumption
    · intro n hn
      simp only [List.mem_cons, List.not_mem_nil, or_false] at hn
      rcases hn with rfl | rfl <;> assumption
    · rw [List.pairwise_cons]
      refine ⟨?_, List.pairwise_singleton _ _⟩
      intro m hm hp
      rw [List.mem_singleton.1 hm] at hp
      have := hp.length_le
      rw [List.length_append] at this
      have := List.length_pos_iff.2 hne
      omega
  · refine (declare_text (knownNames declared) [a, a ++ b] [] rest (by simp) hw hkc ?_).2 ?_
    · intro n hn
      simp only [List.mem_cons, List.not_mem_nil, or_false] at hn
      rcases hn with rfl | rfl <;> assumption
    · rintro ⟨_, h2⟩
      rw [List.pairwise_cons] at h2
      exact h2.1 (a ++ b) (by simp) ⟨b, rfl⟩

/-- C59 in full fails: `x, x1` is rejected. -/
theorem C59_refuted : ¬ C59_full := by
  intro h
  have hx : IsName ['x'] := ⟨⟨'x', [], rfl, by decide⟩, by decide⟩
  have hx1 : IsName (['x'] ++ ['1']) := ⟨⟨'x', ['1'], rfl, by decide⟩, by decide⟩
  have h1 := h [] [['x'], ['x'] ++ ['1']] [] (by intro n hn; cases hn) (by simp)
    (by
      intro n hn
      simp only [List.mem_cons, List.not_mem_nil, or_false] at hn
      rcases hn with rfl | rfl <;> assumption)
    (by decide) (by decide)
  have h2 := (C59_order [] (by intro n hn; cases hn) ['x'] ['1'] [] hx hx1 (by decide) (by decide) (by decide)).2
  rw [h2] at h1
  cases h1

/-- `C59_partial` is not vacuous: `x, y` is accepted after `f1` was declared. -/
example : declare (knownNames [['f', '1']]) ([' '] ++ (commaText [['x'], ['y', '_', '1']] ++ ';' :: ['f'])) =
    some ([['x'], ['y', '_', '1']], ['f']) := by
  rw [C59_partial _ _ _ _ (by
      intro n hn
      rw [List.mem_singleton.1 hn]
      exact ⟨⟨'f', ['1'], rfl, by decide⟩, by decide⟩) (by simp) (by
      intro n hn
      simp only [List.mem_cons, List.not_mem_nil, or_false] at hn
      rcases hn with rfl | rfl
      · exact ⟨⟨'x', [], rfl, by decide⟩, by decide⟩
      · exact ⟨⟨'y', ['_', '1'], rfl, by decide⟩, by decide⟩)
    (by intro c hc; rw [List.mem_singleton.1 hc]; decide), if_pos]
  exact ⟨by decide, by decide⟩

end B2.Parse
