import Verif.Parse.Consumes

/-!
# Declarations in the system parser

Code: /repo/core/include/bertini2/io/parsing/system_rules.hpp 83-131 (tables), 164-228 (rules).
-/

namespace B2.Parse

/-- `declarative_symbols_`, system_rules.hpp 93-103. -/
def declarative : List (List Char) :=
  ["variable_group".toList, "hom_variable_group".toList, "variable".toList, "function".toList, "constant".toList,
    "parameter".toList, "implicit_parameter".toList, "pathvariable".toList, "random".toList, "random_real".toList]

/-- Initial `encountered_symbols_`, system_rules.hpp 125-134. -/
def constants : List (List Char) := [['p', 'i'], ['P', 'i'], ['e'], ['E'], ['i'], ['I']]

/-- `lexeme[(declarative_symbols_ | encountered_symbols_)]` matches at the beginning of the text. -/
def startsKnown (known : List (List Char)) (s : List Char) : Bool := known.any fun k => (eatStr k s).isSome

/-- `valid_variable_name_`, system_rules.hpp 228: letters, then letters, digits, brackets, underscores. -/
def validName (s : List Char) : Option (List Char × List Char) :=
  let a := s.takeWhile isAlpha
  let r := s.dropWhile isAlpha
  if a = [] then none else some (a ++ r.takeWhile isNameChar, r.dropWhile isNameChar)

/-- `unencountered_symbol_`, system_rules.hpp 219: the difference `a - b` of Qi matches `a` unless `b`
matches at the same place, however short that match is.  The rule has no skipper of its own, so white space
is skipped once before it.  `known` holds the keywords and the encountered symbols. -/
def fresh (known : List (List Char)) (s : List Char) : Option (List Char × List Char) :=
  let t := skip s
  if startsKnown known t then none else validName t

/-- The loop of `new_variable_ % ','`, system_rules.hpp 184-192; a new name is added to the encountered
symbols at once.  When no name follows a comma the list ends before the comma.  The test on lengths serves
termination only and always succeeds. -/
def declLoop (known : List (List Char)) (s : List Char) : List (List Char) × List Char :=
  match eat ',' s with
  | none => ([], s)
  | some r =>
    match fresh known r with
    | none => ([], s)
    | some (n, r') =>
      if _h : r'.length < s.length then
        let p := declLoop (n :: known) r'
        (n :: p.1, p.2)
      else ([], s)
termination_by s.length

/-- The part of a declaration after its keyword: `genericvargp_ > ';'`, system_rules.hpp 169-174, likewise
`genericfuncgp_ > ';'`, 201-208.  `none`: an expectation is not met and the whole parse fails. -/
def declare (known : List (List Char)) (s : List Char) : Option (List (List Char) × List Char) :=
  match fresh known s with
  | none => none
  | some (n, r) =>
    let p := declLoop (n :: known) r
    (eat ';' p.2).map fun r' => (n :: p.1, r')

/-! ## Specification -/

/-- A name that fits the naming rules. -/
def IsName (n : List Char) : Prop := (∃ c r, n = c :: r ∧ isAlpha c = true) ∧ ∀ c ∈ n, isNameChar c = true

/-- Names separated by commas. -/
def commaText : List (List Char) → List Char
  | [] => []
  | [n] => n
  | n :: ns => n ++ ',' :: commaText ns

/-! ## Lemmas -/

theorem isNameChar_alpha (c : Char) (h : isAlpha c = true) : isNameChar c = true := by
  unfold isNameChar isAlnum; rw [h]; rfl

theorem takeWhile_append_stop (p : Char → Bool) (a r : List Char) (ha : ∀ c ∈ a, p c = true)
    (hr : ∀ c, r.head? = some c → p c = false) : (a ++ r).takeWhile p = a ∧ (a ++ r).dropWhile p = r := by
  induction a with
  | nil =>
    cases r with
    | nil => exact ⟨rfl, rfl⟩
    | cons c r =>
      have := hr c rfl
      simp only [List.nil_append, List.takeWhile_cons, List.dropWhile_cons, this]
      exact ⟨rfl, rfl⟩
  | cons c a ih =>
    have hc := ha c List.mem_cons_self
    have := ih fun d hd => ha d (List.mem_cons_of_mem _ hd)
    simp only [List.cons_append, List.takeWhile_cons, List.dropWhile_cons, hc, if_true, this.1, this.2]
    exact ⟨trivial, trivial⟩

theorem mem_takeWhile (p : Char → Bool) (s : List Char) : ∀ c ∈ s.takeWhile p, p c = true := by
  induction s with
  | nil => intro c hc; cases hc
  | cons d s ih =>
    intro c hc
    rw [List.takeWhile_cons] at hc
    split at hc
    · rename_i hd
      rcases List.mem_cons.1 hc with rfl | h
      · exact hd
      · exact ih c h
    · cases hc

theorem head_dropWhile (p : Char → Bool) (s : List Char) : ∀ c, (s.dropWhile p).head? = some c → p c = false := by
  induction s with
  | nil => intro c hc; cases hc
  | cons d s ih =>
    intro c hc
    rw [List.dropWhile_cons] at hc
    split at hc
    · exact ih c hc
    · rename_i hd
      simp only [List.head?_cons, Option.some.injEq] at hc
      subst hc
      simpa using hd

theorem validName_name (n r : List Char) (hn : IsName n) (hr : ∀ c, r.head? = some c → isNameChar c = false) :
    validName (n ++ r) = some (n, r) := by
  obtain ⟨⟨c, n', rfl, hc⟩, hch⟩ := hn
  -- letters first
  obtain ⟨a, ha⟩ : ∃ a, a = (c :: n').takeWhile isAlpha := ⟨_, rfl⟩
  obtain ⟨b, hb⟩ : ∃ b, b = (c :: n').dropWhile isAlpha := ⟨_, rfl⟩
  have hab : c :: n' = a ++ b := by rw [ha, hb, List.takeWhile_append_dropWhile]
  have hane : a ≠ [] := by rw [ha, List.takeWhile_cons, hc]; simp
  have haal : ∀ d ∈ a, isAlpha d = true := by rw [ha]; exact mem_takeWhile _ _
  have hbr : ∀ d, (b ++ r).head? = some d → isAlpha d = false := by
    intro d hd
    cases hbc : b with
    | nil =>
      rw [hbc, List.nil_append] at hd
      have := hr d hd
      by_contra hcon
      rw [isNameChar_alpha d (by simpa using hcon)] at this
      cases this
    | cons e b' =>
      have : (List.dropWhile isAlpha (c :: n')).head? = some d := by
        rw [← hb, hbc]; rw [hbc] at hd; simpa using hd
      exact head_dropWhile _ _ d this
  have h1 := takeWhile_append_stop isAlpha a (b ++ r) haal hbr
  have hbn : ∀ d ∈ b, isNameChar d = true := fun d hd => hch d (by rw [hab]; exact List.mem_append_right _ hd)
  have h2 := takeWhile_append_stop isNameChar b r hbn hr
  unfold validName
  rw [hab, List.append_assoc]
  dsimp only
  rw [h1.1, h1.2, if_neg hane, h2.1, h2.2]

theorem eatStr_prefix (k s : List Char) : (eatStr k s).isSome = true ↔ k <+: s := by
  constructor
  · intro h
    obtain ⟨r, hr⟩ := Option.isSome_iff_exists.1 h
    exact ⟨r, (eatStr_eq k s r hr).symm⟩
  · rintro ⟨r, rfl⟩
    rw [eatStr_append]; rfl

theorem startsKnown_iff (known : List (List Char)) (s : List Char) :
    startsKnown known s = true ↔ ∃ k ∈ known, k <+: s := by
  unfold startsKnown
  rw [List.any_eq_true]
  constructor
  · rintro ⟨k, h1, h2⟩; exact ⟨k, h1, (eatStr_prefix k s).1 h2⟩
  · rintro ⟨k, h1, h2⟩; exact ⟨k, h1, (eatStr_prefix k s).2 h2⟩

/-- A word of name characters that the text `n r` starts with is within `n`. -/
theorem prefix_name (k n r : List Char) (hk : ∀ c ∈ k, isNameChar c = true)
    (hr : ∀ c, r.head? = some c → isNameChar c = false) : k <+: n ++ r ↔ k <+: n := by
  constructor
  · rintro ⟨t, ht⟩
    rcases List.append_eq_append_iff.1 ht with ⟨c', hc1, _⟩ | ⟨c', hc1, hc2⟩
    · exact ⟨c', hc1.symm⟩
    · cases c' with
      | nil => exact ⟨[], by rw [List.append_nil]; simpa using hc1⟩
      | cons d c' =>
        exfalso
        have h1 := hk d (by rw [hc1]; simp)
        have h2 := hr d (by rw [hc2]; rfl)
        rw [h1] at h2; cases h2
  · rintro ⟨t, rfl⟩
    exact ⟨t ++ r, by simp⟩

theorem name_skip (n r : List Char) (hn : IsName n) : skip (n ++ r) = n ++ r := by
  obtain ⟨⟨c, n', rfl, hc⟩, _⟩ := hn
  rw [List.cons_append, skip_cons c _ (alpha_facts c hc).1]

/-- The decision of `fresh` on a text that starts with a name. -/
theorem fresh_name (known : List (List Char)) (hkn : ∀ k ∈ known, ∀ c ∈ k, isNameChar c = true) (w n r : List Char)
    (hw : Ws w) (hn : IsName n) (hr : ∀ c, r.head? = some c → isNameChar c = false) :
    ((∀ k ∈ known, ¬ k <+: n) → fresh known (w ++ (n ++ r)) = some (n, r)) ∧
    (¬ (∀ k ∈ known, ¬ k <+: n) → fresh known (w ++ (n ++ r)) = none) := by
  have hs : skip (w ++ (n ++ r)) = n ++ r := by rw [skip_ws w _ hw, name_skip n r hn]
  have hst : startsKnown known (n ++ r) = true ↔ ∃ k ∈ known, k <+: n := by
    rw [startsKnown_iff]
    constructor
    · rintro ⟨k, h1, h2⟩; exact ⟨k, h1, (prefix_name k n r (hkn k h1) hr).1 h2⟩
    · rintro ⟨k, h1, h2⟩; exact ⟨k, h1, (prefix_name k n r (hkn k h1) hr).2 h2⟩
  unfold fresh
  dsimp only
  rw [hs]
  constructor
  · intro h
    rw [if_neg, validName_name n r hn hr]
    rw [hst]
    rintro ⟨k, h1, h2⟩
    exact h k h1 h2
  · intro h
    push Not at h
    rw [if_pos (hst.2 h)]

theorem notName_comma : ∀ c, ([','] : List Char).head? = some c → isNameChar c = false := by
  intro c hc; simp only [List.head?_cons, Option.some.injEq] at hc; subst hc; decide

theorem head_not (d : Char) (hd : isNameChar d = false) (s : List Char) :
    ∀ c, (d :: s).head? = some c → isNameChar c = false := by
  intro c hc; simp only [List.head?_cons, Option.some.injEq] at hc; subst hc; exact hd

/-- Text of further names: each with its comma. -/
def moreText : List (List Char) → List Char
  | [] => []
  | n :: ns => ',' :: (n ++ moreText ns)

theorem commaText_cons (n : List Char) (ns : List (List Char)) : commaText (n :: ns) = n ++ moreText ns := by
  induction ns generalizing n with
  | nil => simp [commaText, moreText]
  | cons m ns ih => rw [commaText, ih m, moreText]; simp

theorem more_head (ns : List (List Char)) (rest : List Char) :
    ∀ c, (moreText ns ++ ';' :: rest).head? = some c → isNameChar c = false := by
  cases ns with
  | nil => exact head_not ';' (by decide) rest
  | cons n ns => exact head_not ',' (by decide) _

/-- The names are new with respect to `known` and to each other, in order. -/
def AllFresh (known : List (List Char)) (ns : List (List Char)) : Prop :=
  (∀ n ∈ ns, ∀ k ∈ known, ¬ k <+: n) ∧ ns.Pairwise fun a b => ¬ a <+: b

theorem allFresh_cons (known : List (List Char)) (n : List Char) (ns : List (List Char)) :
    AllFresh known (n :: ns) ↔ (∀ k ∈ known, ¬ k <+: n) ∧ AllFresh (n :: known) ns := by
  unfold AllFresh
  rw [List.pairwise_cons]
  constructor
  · rintro ⟨h1, h2, h3⟩
    refine ⟨h1 n List.mem_cons_self, fun m hm k hk => ?_, h3⟩
    rcases List.mem_cons.1 hk with rfl | hk
    · exact h2 m hm
    · exact h1 m (List.mem_cons_of_mem _ hm) k hk
  · rintro ⟨h1, h2, h3⟩
    refine ⟨fun m hm k hk => ?_, fun m hm => h2 m hm n List.mem_cons_self, h3⟩
    rcases List.mem_cons.1 hm with rfl | hm
    · exact h1 k hk
    · exact h2 m hm k (List.mem_cons_of_mem _ hk)

theorem declLoop_text (ns : List (List Char)) : ∀ (known : List (List Char)) (rest : List Char),
    (∀ k ∈ known, ∀ c ∈ k, isNameChar c = true) → (∀ n ∈ ns, IsName n) →
    (AllFresh known ns → declLoop known (moreText ns ++ ';' :: rest) = (ns, ';' :: rest)) ∧
    (¬ AllFresh known ns → ∃ u, (declLoop known (moreText ns ++ ';' :: rest)).2 = ',' :: u) := by
  induction ns with
  | nil =>
    intro known rest hkn hn
    constructor
    · intro _
      rw [declLoop, moreText, List.nil_append, show eat ',' (';' :: rest) = none from
        eat_none ',' ';' [] rest (by intro c hc; cases hc) (by decide) (by decide)]
    · intro h
      exact absurd (show AllFresh known [] from ⟨fun n hn' => absurd hn' List.not_mem_nil, List.Pairwise.nil⟩) h
  | cons n ns ih =>
    intro known rest hkn hn
    have e : moreText (n :: ns) ++ ';' :: rest = ',' :: (n ++ (moreText ns ++ ';' :: rest)) := by
      rw [moreText]; simp
    have hnn := hn n List.mem_cons_self
    have heat : eat ',' (',' :: (n ++ (moreText ns ++ ';' :: rest))) = some (n ++ (moreText ns ++ ';' :: rest)) :=
      eat_ws ',' [] _ (by intro c hc; cases hc) (by decide)
    have hf := fresh_name known hkn [] n (moreText ns ++ ';' :: rest) (by intro c hc; cases hc) hnn (more_head ns rest)
    rw [List.nil_append] at hf
    have hkn' : ∀ k ∈ n :: known, ∀ c ∈ k, isNameChar c = true := by
      intro k hk
      rcases List.mem_cons.1 hk with rfl | hk
      · exact hnn.2
      · exact hkn k hk
    have hih := ih (n :: known) rest hkn' (fun m hm => hn m (List.mem_cons_of_mem _ hm))
    have hlen : (moreText ns ++ ';' :: rest).length < (',' :: (n ++ (moreText ns ++ ';' :: rest))).length := by
      simp only [List.length_append, List.length_cons]; omega
    rw [e, declLoop, heat]
    dsimp only
    by_cases h1 : ∀ k ∈ known, ¬ k <+: n
    · rw [hf.1 h1]
      dsimp only
      rw [dif_pos hlen]
      constructor
      · intro h
        rw [hih.1 ((allFresh_cons known n ns).1 h).2]
      · intro h
        have h2 : ¬ AllFresh (n :: known) ns := fun h2 => h ((allFresh_cons known n ns).2 ⟨h1, h2⟩)
        exact hih.2 h2
    · rw [hf.2 h1]
      constructor
      · intro h
        exact absurd ((allFresh_cons known n ns).1 h).1 h1
      · intro _
        exact ⟨_, rfl⟩

theorem declare_text (known : List (List Char)) (ns : List (List Char)) (w rest : List Char) (hne : ns ≠ []) (hw : Ws w)
    (hkn : ∀ k ∈ known, ∀ c ∈ k, isNameChar c = true) (hn : ∀ n ∈ ns, IsName n) :
    (AllFresh known ns → declare known (w ++ (commaText ns ++ ';' :: rest)) = some (ns, rest)) ∧
    (¬ AllFresh known ns → declare known (w ++ (commaText ns ++ ';' :: rest)) = none) := by
  cases ns with
  | nil => exact absurd rfl hne
  | cons n ns =>
    have hnn := hn n List.mem_cons_self
    have e : w ++ (commaText (n :: ns) ++ ';' :: rest) = w ++ (n ++ (moreText ns ++ ';' :: rest)) := by
      rw [commaText_cons]; simp
    have hf := fresh_name known hkn w n (moreText ns ++ ';' :: rest) hw hnn (more_head ns rest)
    have hkn' : ∀ k ∈ n :: known, ∀ c ∈ k, isNameChar c = true := by
      intro k hk
      rcases List.mem_cons.1 hk with rfl | hk
      · exact hnn.2
      · exact hkn k hk
    have hl := declLoop_text ns (n :: known) rest hkn' (fun m hm => hn m (List.mem_cons_of_mem _ hm))
    have hsemi : eat ';' (';' :: rest) = some rest := eat_ws ';' [] _ (by intro c hc; cases hc) (by decide)
    rw [e]
    unfold declare
    by_cases h1 : ∀ k ∈ known, ¬ k <+: n
    · rw [hf.1 h1]
      dsimp only
      constructor
      · intro h
        rw [hl.1 ((allFresh_cons known n ns).1 h).2]
        dsimp only
        rw [hsemi]; rfl
      · intro h
        have h2 : ¬ AllFresh (n :: known) ns := fun h2 => h ((allFresh_cons known n ns).2 ⟨h1, h2⟩)
        obtain ⟨u, hu⟩ := hl.2 h2
        rw [hu, show eat ';' (',' :: u) = none from
          eat_none ';' ',' [] u (by intro c hc; cases hc) (by decide) (by decide)]
        rfl
    · rw [hf.2 h1]
      constructor
      · intro h
        exact absurd ((allFresh_cons known n ns).1 h).1 h1
      · intro _; rfl

end B2.Parse
