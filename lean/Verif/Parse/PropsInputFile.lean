import Verif.Parse.InputFile

/-!
# C189: comments do not change how an input file is split
-/

namespace B2.Parse

/-! ### Specification -/

/-- The text with line ends written `\n` and without white space at the beginning of lines (so without blank lines); `start` tells
whether a line begins here. -/
def tidy (start : Bool) : List Char → List Char
  | [] => []
  | c :: s =>
    if start && isSpace c then tidy true s
    else (if isEol c then '\n' else c) :: tidy (isEol c) s

/-- The two sections, tidied. -/
def tidySections (p : CI) : CI := (tidy false p.1, tidy false p.2)

/-- **C189.** Two files which differ in their comments only are split into the same sections, up to blank lines and white space at
the beginning of lines, by either function. -/
def C189_full : Prop :=
  ∀ s s' : List Char, uncomment false s = uncomment false s' →
    (parseInputFile s).map tidySections = (parseInputFile s').map tidySections ∧
    (splitFile s).map tidySections = (splitFile s').map tidySections

/-! ### Tidying and the splitter -/

/-- A marker: not empty, without white space. -/
def Solid (kw : List Char) : Prop := kw ≠ [] ∧ ∀ k ∈ kw, isSpace k = false

theorem low_eol (c : Char) (h : isEol c = true) : isSpace (low c) = true := by
  have h1 := eol_space c h
  rw [low_space c h1]
  exact h1

theorem eat_tidy (kw : List Char) (hk : ∀ k ∈ kw, isSpace k = false) (s : List Char) :
    eatCI kw (tidy false s) = (eatCI kw s).map (tidy false) := by
  induction kw generalizing s with
  | nil => cases s <;> rfl
  | cons k ks ih =>
    cases s with
    | nil => rfl
    | cons c s =>
      simp only [tidy, Bool.false_and, Bool.false_eq_true, if_false, eatCI]
      by_cases he : isEol c = true
      · have h1 : ¬ low '\n' = k := by
          intro e
          have := hk k (by simp)
          rw [← e] at this
          exact absurd this (by decide)
        have h2 : ¬ low c = k := by
          intro e
          have := hk k (by simp)
          rw [← e, low_eol c he] at this
          cases this
        rw [if_pos he, if_neg h1, if_neg h2]
        rfl
      · have he' : isEol c = false := by simpa using he
        rw [if_neg he, he']
        by_cases h1 : low c = k
        · rw [if_pos h1, if_pos h1, ih (fun k hk' => hk k (by simp [hk']))]
        · rw [if_neg h1, if_neg h1]
          rfl

theorem eat_space (kw : List Char) (hk : Solid kw) (c : Char) (s : List Char) (h : isSpace c = true) :
    eatCI kw (c :: s) = none := by
  obtain ⟨k, ks, rfl⟩ := List.exists_cons_of_ne_nil hk.1
  simp only [eatCI]
  rw [if_neg]
  intro e
  have h1 := hk.2 k (by simp)
  rw [← e, low_space c h, h] at h1
  cases h1

theorem tidy_of_not (b : Bool) (c : Char) (s : List Char) (h : ¬ (b && isSpace c) = true) :
    tidy b (c :: s) = tidy false (c :: s) := by
  simp only [tidy, Bool.false_and, Bool.false_eq_true, if_false]
  rw [if_neg h]

theorem upto_tidy (kw : List Char) (hk : Solid kw) (b : Bool) (s : List Char) :
    upto kw (tidy b s) = (upto kw s).map fun p => (tidy b p.1, tidy false p.2) := by
  induction s generalizing b with
  | nil => simp [tidy, upto, hk.1]
  | cons c s ih =>
    by_cases hb : (b && isSpace c) = true
    · have hc : isSpace c = true := by
        simp only [Bool.and_eq_true] at hb
        exact hb.2
      have e1 : ∀ u, tidy b (c :: u) = tidy true u := by
        intro u
        simp only [tidy]
        rw [if_pos hb]
      rw [e1, ih true]
      simp only [upto, eat_space kw hk c s hc, Option.map_map]
      congr 1
      funext p
      simp only [Function.comp, e1]
    · rw [tidy_of_not b c s hb]
      have e1 : tidy false (c :: s) = (if isEol c then '\n' else c) :: tidy (isEol c) s := by
        simp only [tidy, Bool.false_and, Bool.false_eq_true, if_false]
      have e2 := eat_tidy kw hk.2 (c :: s)
      rw [e1] at e2 ⊢
      simp only [upto]
      rw [e2]
      cases hE : eatCI kw (c :: s) with
      | some r => simp [tidy]
      | none =>
        simp only [Option.map_none, Option.map_map]
        rw [ih, Option.map_map]
        congr 1
        funext p
        simp only [Function.comp]
        rw [tidy_of_not b c p.1 hb]
        simp only [tidy, Bool.false_and, Bool.false_eq_true, if_false]

theorem skip_tidy (b : Bool) (s : List Char) : skip (tidy b s) = tidy false (skip s) := by
  induction s generalizing b with
  | nil => rfl
  | cons c s ih =>
    by_cases hc : isSpace c = true
    · have e1 : skip (c :: s) = skip s := by simp [skip, hc]
      rw [e1]
      by_cases hb : (b && isSpace c) = true
      · simp only [tidy]
        rw [if_pos hb]
        exact ih true
      · simp only [tidy]
        rw [if_neg hb]
        have : isSpace (if isEol c then '\n' else c) = true := by
          by_cases he : isEol c = true
          · rw [if_pos he]; decide
          · rw [if_neg he]; exact hc
        rw [show skip ((if isEol c then '\n' else c) :: tidy (isEol c) s) = skip (tidy (isEol c) s) by simp [skip, this]]
        exact ih _
    · have e1 : skip (c :: s) = c :: s := by simp [skip, hc]
      have hb : ¬ (b && isSpace c) = true := by simp [hc]
      rw [e1, tidy_of_not b c s hb]
      have he : ¬ isEol c = true := fun h => hc (eol_space c h)
      simp only [tidy, Bool.false_and, Bool.false_eq_true, if_false]
      rw [if_neg he]
      simp [skip, hc]

theorem section_tidy (kw : List Char) (hk : Solid kw) (b : Bool) (s : List Char) :
    section_ kw (tidy b s) = (section_ kw s).map tidySections := by
  rw [section_, section_, skip_tidy, upto_tidy kw hk]
  rfl

theorem config_tidy (b : Bool) (s : List Char) : config_ (tidy b s) = (config_ s).map (tidy false) := by
  rw [config_, config_, upto_tidy kConfig ⟨by decide, by decide⟩, Option.map_map, Option.map_map]
  rfl

/-- The splitter on a tidied text. -/
theorem both_tidy (b : Bool) (s : List Char) : both (tidy b s) = (both s).map tidySections := by
  have hE : Solid kEnd := ⟨by decide, by decide⟩
  have hI : Solid kInput := ⟨by decide, by decide⟩
  have h15 : alt15 (tidy b s) = (alt15 s).map tidySections := by
    simp only [alt15, config_tidy]
    cases config_ s with
    | none => rfl
    | some r =>
      simp only [Option.map_some, Option.bind_some, section_tidy _ hE]
      cases section_ kEnd r with
      | none => rfl
      | some c =>
        simp only [Option.map_some, Option.bind_some, tidySections, section_tidy _ hI]
        cases section_ kInput c.2 with
        | none => rfl
        | some m =>
          simp only [Option.map_some, Option.bind_some, tidySections, section_tidy _ hE]
          cases section_ kEnd m.2 <;> rfl
  have h14 : alt14 (tidy b s) = (alt14 s).map tidySections := by
    simp only [alt14, config_tidy]
    cases config_ s with
    | none => rfl
    | some r =>
      simp only [Option.map_some, Option.bind_some, section_tidy _ hE]
      cases section_ kEnd r with
      | none => rfl
      | some c =>
        simp only [Option.map_some, Option.bind_some, tidySections, section_tidy _ hI]
        cases section_ kInput c.2 with
        | none => rfl
        | some m => simp only [Option.map_some, tidySections, skip_tidy]
  have h13 : alt13 (tidy b s) = (alt13 s).map tidySections := by
    simp only [alt13, config_tidy]
    cases config_ s with
    | none => rfl
    | some r =>
      simp only [Option.map_some, Option.bind_some, section_tidy _ hE]
      cases section_ kEnd r with
      | none => rfl
      | some c =>
        simp only [Option.map_some, Option.bind_some, tidySections, section_tidy _ hE]
        cases section_ kEnd c.2 <;> rfl
  have h11 : alt11 (tidy b s) = (alt11 s).map tidySections := by
    simp only [alt11, config_tidy]
    cases config_ s with
    | none => rfl
    | some r =>
      simp only [Option.map_some, Option.bind_some, section_tidy _ hI]
      cases section_ kInput r with
      | none => rfl
      | some c =>
        simp only [Option.map_some, Option.bind_some, tidySections, section_tidy _ hE]
        cases section_ kEnd c.2 <;> rfl
  have h12 : alt12 (tidy b s) = (alt12 s).map tidySections := by
    simp only [alt12, config_tidy]
    cases config_ s with
    | none => rfl
    | some r =>
      simp only [Option.map_some, Option.bind_some, section_tidy _ hE]
      cases section_ kEnd r with
      | none => rfl
      | some c => simp only [Option.map_some, tidySections, skip_tidy]
  have h10 : alt10 (tidy b s) = (alt10 s).map tidySections := by
    simp only [alt10, config_tidy]
    cases config_ s with
    | none => rfl
    | some r =>
      simp only [Option.map_some, Option.bind_some, section_tidy _ hI]
      cases section_ kInput r with
      | none => rfl
      | some c => simp only [Option.map_some, tidySections, skip_tidy]
  simp only [both, h15, h14, h13, h11, h12, h10]
  cases alt15 s <;> cases alt14 s <;> cases alt13 s <;> cases alt11 s <;> cases alt12 s <;> cases alt10 s <;> rfl

/-! ### Tidying and stripping -/

theorem tidy_newlines (b : Bool) (u : List Char) : tidy b (u ++ ['\n', '\n']) = tidy b (u ++ ['\n']) := by
  induction u generalizing b with
  | nil => cases b <;> decide
  | cons c u ih => simp only [List.cons_append, tidy, ih]

theorem tidy_skip (u : List Char) : tidy true u = tidy true (skip u) := by
  induction u with
  | nil => rfl
  | cons c u ih =>
    by_cases hc : isSpace c = true
    · rw [show skip (c :: u) = skip u by simp [skip, hc], ← ih]
      simp [tidy, hc]
    · rw [show skip (c :: u) = c :: u by simp [skip, hc]]

/-- Within a line nothing changes. -/
theorem tidy_line (v r : List Char) (hv : ∀ c ∈ v, isEol c = false) : tidy false (v ++ r) = v ++ tidy false r := by
  induction v with
  | nil => rfl
  | cons c v ih =>
    have hc := hv c (by simp)
    simp only [List.cons_append, tidy, Bool.false_and, Bool.false_eq_true, if_false, hc]
    rw [ih (fun d hd => hv d (by simp [hd]))]

theorem mem_takeWhile_true (q : Char → Bool) (l : List Char) (d : Char) (h : d ∈ l.takeWhile q) : q d = true := by
  induction l with
  | nil => cases h
  | cons c l ih =>
    by_cases hc : q c = true
    · rw [List.takeWhile_cons_of_pos hc] at h
      rcases List.mem_cons.1 h with rfl | h
      · exact hc
      · exact ih h
    · rw [List.takeWhile_cons_of_neg hc] at h
      cases h

theorem skip_append_newline (u : List Char) : skip (u ++ ['\n']) = if skip u = [] then [] else skip u ++ ['\n'] := by
  induction u with
  | nil => decide
  | cons c u ih =>
    by_cases hc : isSpace c = true
    · rw [List.cons_append, show skip (c :: (u ++ ['\n'])) = skip (u ++ ['\n']) by simp [skip, hc],
        show skip (c :: u) = skip u by simp [skip, hc], ih]
    · rw [List.cons_append, show skip (c :: (u ++ ['\n'])) = c :: (u ++ ['\n']) by simp [skip, hc],
        show skip (c :: u) = c :: u by simp [skip, hc]]
      simp

/-- A tidied text is its nonblank lines. -/
theorem tidy_canon (u : List Char) : tidy true (u ++ ['\n']) = (canon u).flatMap (· ++ ['\n']) := by
  induction hn : u.length using Nat.strong_induction_on generalizing u with
  | _ n ih =>
    rw [tidy_skip, skip_append_newline]
    have hcs : canon u = canon (skip u) := by
      conv_lhs => rw [← List.takeWhile_append_dropWhile (p := isSpace) (l := u)]
      exact canon_ws _ _ fun d hd => mem_takeWhile_true _ _ _ hd
    rw [hcs]
    cases hs : skip u with
    | nil =>
      rw [canon_nil]
      rfl
    | cons c v =>
      rw [if_neg (by simp)]
      have hlen : v.length < u.length := by
        have h1 : (skip u).length ≤ u.length := by
          rw [skip]
          exact (List.dropWhile_sublist _).length_le
        rw [hs, List.length_cons] at h1
        omega
      have hc : isSpace c = false := by
        have hh : (skip u).head? = some c := by rw [hs]; rfl
        rw [skip] at hh
        have h2 := List.head?_dropWhile_not (fun d => isSpace d) u
        simp only [hh] at h2
        exact h2
      have he : isEol c = false := by
        cases h : isEol c with
        | false => rfl
        | true => rw [eol_space c h] at hc; cases hc
      have hlt : ∀ d ∈ (v.takeWhile fun d => !isEol d), isEol d = false := by
        intro d hd
        simpa using mem_takeWhile_true _ _ _ hd
      have hv : v = (v.takeWhile fun d => !isEol d) ++ (v.dropWhile fun d => !isEol d) :=
        (List.takeWhile_append_dropWhile).symm
      have hdl : (v.dropWhile fun d => !isEol d).length ≤ v.length := (List.dropWhile_sublist _).length_le
      have hI := ih _ (by omega) (v.dropWhile fun d => !isEol d) rfl
      have hhd : ∀ d, (v.dropWhile fun d => !isEol d).head? = some d → isEol d = true := by
        intro d hd
        have h2 := List.head?_dropWhile_not (fun d => !isEol d) v
        simp only [hd] at h2
        simpa using h2
      have hcl := canon_line c _ _ hc hlt hhd
      rw [← hv] at hcl
      rw [hcl, List.flatMap_cons, ← hI]
      have e1 : tidy true (c :: v ++ ['\n']) = c :: tidy false (v ++ ['\n']) := by
        simp [tidy, hc, he]
      rw [e1]
      conv_lhs => rw [hv, List.append_assoc, tidy_line _ _ hlt]
      have key : ∀ w : List Char, (∀ d, w.head? = some d → isEol d = true) →
          tidy false (w ++ ['\n']) = '\n' :: tidy true (w ++ ['\n']) := by
        intro w hw
        cases w with
        | nil => decide
        | cons d w =>
          have hd := hw d rfl
          simp [tidy, hd, eol_space d hd]
      rw [key _ hhd]
      simp

theorem tidy_strip (s : List Char) : tidy true (strip s) = tidy true (uncomment false s ++ ['\n']) := by
  obtain ⟨u, hu⟩ := C60_newline s
  rw [tidy_canon, ← strip_canon, ← tidy_canon, hu, List.append_assoc]
  exact (tidy_newlines true u).symm

/-! ### C189 -/

/-- `ParseInputFile` splits the text without its comments (with a line end added): all files, wherever the comments are and
whatever they contain. -/
theorem C189_parse (s : List Char) :
    (parseInputFile s).map tidySections = (both (uncomment false s ++ ['\n'])).map tidySections := by
  rw [parseInputFile, ← both_tidy true, ← both_tidy true, tidy_strip]

/-- Blank lines, white space at the beginning of lines and the way lines end do not matter to `SplitIntoConfigAndInput`. -/
theorem C189_layout (s s' : List Char) (h : tidy true s = tidy true s') :
    (splitFile s).map tidySections = (splitFile s').map tidySections := by
  rw [splitFile, splitFile, ← both_tidy true, ← both_tidy true, h]

example : (splitFile "CONFIG\r\n\r\n  a:1;\r\nEND;\r\nINPUT\r\nx\r\nEND;\r\n".toList).map tidySections =
    some ("a:1;\n".toList, "x\n".toList) := by
  rw [C189_layout _ "CONFIG\na:1;\nEND;\nINPUT\nx\nEND;\n".toList (by decide +kernel)]
  decide +kernel

/-- **C189 for `ParseInputFile`, and for `SplitIntoConfigAndInput` on files without comments.** On files without comments, ending
with a line end, the two functions agree. Missing from `C189_full`: `SplitIntoConfigAndInput` on files with comments. -/
theorem C189_partial :
    (∀ s s' : List Char, uncomment false s = uncomment false s' →
      (parseInputFile s).map tidySections = (parseInputFile s').map tidySections) ∧
    (∀ u : List Char, '%' ∉ u →
      (splitFile (u ++ ['\n'])).map tidySections = (parseInputFile (u ++ ['\n'])).map tidySections) := by
  constructor
  · intro s s' h
    rw [C189_parse, C189_parse, h]
  · intro u hu
    rw [C189_parse, uncomment_id _ (by simp [hu]), splitFile, ← both_tidy true, ← both_tidy true, List.append_assoc]
    exact congrArg both (tidy_newlines true u).symm

/-- A file whose configuration begins with the comment `% to the END;`. -/
def commented : List Char := "CONFIG\n% to the END;\na:1;\nEND;\nINPUT\nx\nEND;\n".toList

/-- The same file, the comment empty. -/
def uncommented : List Char := "CONFIG\n%\na:1;\nEND;\nINPUT\nx\nEND;\n".toList

/-- `SplitIntoConfigAndInput` takes the `END;` in the comment for the end of the configuration; `ParseInputFile` does not. -/
theorem C189_comment : splitFile commented = some ("% to the ".toList, "x\n".toList) ∧
    splitFile uncommented = some ("%\na:1;\n".toList, "x\n".toList) ∧
    uncomment false commented = uncomment false uncommented ∧
    parseInputFile commented = some ("a:1;\n".toList, "x\n".toList) := by decide +kernel

example : (parseInputFile commented).map tidySections = (parseInputFile uncommented).map tidySections :=
  C189_partial.1 _ _ C189_comment.2.2.1

theorem C189_refuted : ¬ C189_full := by
  intro h
  obtain ⟨h1, h2, h3, -⟩ := C189_comment
  have := (h _ _ h3).2
  rw [h1, h2] at this
  revert this
  decide +kernel

end B2.Parse
