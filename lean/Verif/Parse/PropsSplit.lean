import Verif.Parse.Split

/-!
# C81: sections of an input file
-/

namespace B2.Parse

/-- C81 in full: a file `header CONFIG config END; between INPUT input END; rest`, in which no further marker
stands as a word in the sections, is split into the two sections (without their leading white space). -/
def C81_full : Prop :=
  ∀ h K1 c E1 m K2 i E2 t : List Char, K1.map low = kConfig → E1.map low = kEnd → K2.map low = kInput → E2.map low = kEnd →
    ¬ OccursWord kConfig h → ¬ OccursWord kEnd c → ¬ OccursWord kInput m → ¬ OccursWord kEnd i →
    (∀ d, c.getLast? = some d → isSpace d = true) → (∀ d, i.getLast? = some d → isSpace d = true) →
    both (h ++ (K1 ++ (c ++ (E1 ++ (m ++ (K2 ++ (i ++ (E2 ++ t)))))))) = some (skip c, skip i)

/-- C81 when the markers do not occur in the sections at all, not even inside other words: the two sections
come out, whatever the case of the markers, and whatever stands before, between and after.
Missing: sections in which a word ends like a marker. -/
theorem C81_partial (h K1 c E1 m K2 i E2 t : List Char) (hK1 : K1.map low = kConfig) (hE1 : E1.map low = kEnd)
    (hK2 : K2.map low = kInput) (hE2 : E2.map low = kEnd) (hh : ¬ Occurs kConfig h) (hc : ¬ Occurs kEnd c)
    (hm : ¬ Occurs kInput m) (hi : ¬ Occurs kEnd i) :
    both (h ++ (K1 ++ (c ++ (E1 ++ (m ++ (K2 ++ (i ++ (E2 ++ t)))))))) = some (skip c, skip i) := by
  have h1 := upto_first 'c' _ K1 h (c ++ (E1 ++ (m ++ (K2 ++ (i ++ (E2 ++ t)))))) (by decide) hK1 hh
  have h2 := section_first 'e' _ E1 c (m ++ (K2 ++ (i ++ (E2 ++ t)))) (by decide) (by decide) hE1 hc
  have h3 := section_first 'i' _ K2 m (i ++ (E2 ++ t)) (by decide) (by decide) hK2 hm
  have h4 := section_first 'e' _ E2 i t (by decide) (by decide) hE2 hi
  have h15 : alt15 (h ++ (K1 ++ (c ++ (E1 ++ (m ++ (K2 ++ (i ++ (E2 ++ t)))))))) = some (skip c, skip i) := by
    unfold alt15 config_
    rw [show upto kConfig (h ++ (K1 ++ (c ++ (E1 ++ (m ++ (K2 ++ (i ++ (E2 ++ t)))))))) = _ from h1]
    simp only [Option.map_some, Option.bind_some]
    rw [show section_ kEnd (c ++ (E1 ++ (m ++ (K2 ++ (i ++ (E2 ++ t)))))) = _ from h2]
    simp only [Option.bind_some]
    rw [show section_ kInput (m ++ (K2 ++ (i ++ (E2 ++ t)))) = _ from h3]
    simp only [Option.bind_some]
    rw [show section_ kEnd (i ++ (E2 ++ t)) = _ from h4]
    rfl
  unfold both
  rw [h15]; rfl

/-- The same without the last `END;`: the input is everything after `INPUT`. -/
theorem C81_no_end (h K1 c E1 m K2 i : List Char) (hK1 : K1.map low = kConfig) (hE1 : E1.map low = kEnd)
    (hK2 : K2.map low = kInput) (hh : ¬ Occurs kConfig h) (hc : ¬ Occurs kEnd c) (hm : ¬ Occurs kInput m)
    (hi : ¬ Occurs kEnd i) :
    both (h ++ (K1 ++ (c ++ (E1 ++ (m ++ (K2 ++ i)))))) = some (skip c, skip i) := by
  have h1 := upto_first 'c' _ K1 h (c ++ (E1 ++ (m ++ (K2 ++ i)))) (by decide) hK1 hh
  have h2 := section_first 'e' _ E1 c (m ++ (K2 ++ i)) (by decide) (by decide) hE1 hc
  have h3 := section_first 'i' _ K2 m i (by decide) (by decide) hK2 hm
  have h15 : alt15 (h ++ (K1 ++ (c ++ (E1 ++ (m ++ (K2 ++ i)))))) = none := by
    unfold alt15 config_
    rw [show upto kConfig (h ++ (K1 ++ (c ++ (E1 ++ (m ++ (K2 ++ i)))))) = _ from h1]
    simp only [Option.map_some, Option.bind_some]
    rw [show section_ kEnd (c ++ (E1 ++ (m ++ (K2 ++ i)))) = _ from h2]
    simp only [Option.bind_some]
    rw [show section_ kInput (m ++ (K2 ++ i)) = _ from h3]
    simp only [Option.bind_some]
    rw [section_none kEnd i hi]
    rfl
  have h14 : alt14 (h ++ (K1 ++ (c ++ (E1 ++ (m ++ (K2 ++ i)))))) = some (skip c, skip i) := by
    unfold alt14 config_
    rw [show upto kConfig (h ++ (K1 ++ (c ++ (E1 ++ (m ++ (K2 ++ i)))))) = _ from h1]
    simp only [Option.map_some, Option.bind_some]
    rw [show section_ kEnd (c ++ (E1 ++ (m ++ (K2 ++ i)))) = _ from h2]
    simp only [Option.bind_some]
    rw [show section_ kInput (m ++ (K2 ++ i)) = _ from h3]
    rfl
  unfold both
  rw [h15, h14]; rfl

/-- Without `INPUT` after the first `END;`: the input is what stands between the first and the second `END;`.  (Before the
first `END;` the word `INPUT` may stand: it is then part of the configuration.) -/
theorem C81_no_input (h K1 c E1 i E2 t : List Char) (hK1 : K1.map low = kConfig) (hE1 : E1.map low = kEnd)
    (hE2 : E2.map low = kEnd) (hh : ¬ Occurs kConfig h) (hc : ¬ Occurs kEnd c) (hi : ¬ Occurs kEnd i)
    (hn : ¬ Occurs kInput (i ++ (E2 ++ t))) :
    both (h ++ (K1 ++ (c ++ (E1 ++ (i ++ (E2 ++ t)))))) = some (skip c, skip i) := by
  have h1 := upto_first 'c' _ K1 h (c ++ (E1 ++ (i ++ (E2 ++ t)))) (by decide) hK1 hh
  have h2 := section_first 'e' _ E1 c (i ++ (E2 ++ t)) (by decide) (by decide) hE1 hc
  have h3 := section_first 'e' _ E2 i t (by decide) (by decide) hE2 hi
  have hn' := section_none kInput _ hn
  have hc1 : config_ (h ++ (K1 ++ (c ++ (E1 ++ (i ++ (E2 ++ t)))))) = some (c ++ (E1 ++ (i ++ (E2 ++ t)))) := by
    unfold config_
    rw [show upto kConfig _ = _ from h1]; rfl
  replace h2 : section_ kEnd (c ++ (E1 ++ (i ++ (E2 ++ t)))) = _ := h2
  replace h3 : section_ kEnd (i ++ (E2 ++ t)) = _ := h3
  simp only [both, alt15, alt14, alt13, hc1, h2, h3, hn', Option.bind_some, Option.bind_none, Option.map_some, Option.map_none,
    Option.none_or, Option.some_or]

/-- With `INPUT` but without an `END;` before it, and one `END;` after it. -/
theorem C81_input_first (h K1 c K2 i E2 t : List Char) (hK1 : K1.map low = kConfig) (hK2 : K2.map low = kInput)
    (hE2 : E2.map low = kEnd) (hh : ¬ Occurs kConfig h) (hc : ¬ Occurs kInput c) (hce : ¬ Occurs kEnd (c ++ (K2 ++ i)))
    (hi : ¬ Occurs kEnd i) (hn : ¬ Occurs kInput t) (ht : ¬ Occurs kEnd t) :
    both (h ++ (K1 ++ (c ++ (K2 ++ (i ++ (E2 ++ t)))))) = some (skip c, skip i) := by
  have h1 := upto_first 'c' _ K1 h (c ++ (K2 ++ (i ++ (E2 ++ t)))) (by decide) hK1 hh
  have h2 := section_first 'i' _ K2 c (i ++ (E2 ++ t)) (by decide) (by decide) hK2 hc
  have h3 := section_first 'e' _ E2 i t (by decide) (by decide) hE2 hi
  have h4 := section_first 'e' _ E2 (c ++ (K2 ++ i)) t (by decide) (by decide) hE2 hce
  have hc1 : config_ (h ++ (K1 ++ (c ++ (K2 ++ (i ++ (E2 ++ t)))))) = some (c ++ (K2 ++ (i ++ (E2 ++ t)))) := by
    unfold config_
    rw [show upto kConfig _ = _ from h1]; rfl
  replace h2 : section_ kInput (c ++ (K2 ++ (i ++ (E2 ++ t)))) = _ := h2
  replace h3 : section_ kEnd (i ++ (E2 ++ t)) = _ := h3
  replace h4 : section_ kEnd ((c ++ (K2 ++ i)) ++ (E2 ++ t)) = _ := h4
  rw [List.append_assoc, List.append_assoc] at h4
  simp only [both, alt15, alt14, alt13, alt11, hc1, h2, h3, h4, section_none kInput t hn, section_none kEnd t ht,
    Option.bind_some, Option.bind_none, Option.map_some, Option.map_none, Option.none_or, Option.some_or]

/-- With one `END;` and no `INPUT` after it: the input is everything after it. -/
theorem C81_config_only (h K1 c E1 i : List Char) (hK1 : K1.map low = kConfig) (hE1 : E1.map low = kEnd)
    (hh : ¬ Occurs kConfig h) (hc : ¬ Occurs kEnd c) (hi : ¬ Occurs kEnd i) (hci : ¬ Occurs kInput (c ++ (E1 ++ i)))
    (hn : ¬ Occurs kInput i) :
    both (h ++ (K1 ++ (c ++ (E1 ++ i)))) = some (skip c, skip i) := by
  have h1 := upto_first 'c' _ K1 h (c ++ (E1 ++ i)) (by decide) hK1 hh
  have h2 := section_first 'e' _ E1 c i (by decide) (by decide) hE1 hc
  have hc1 : config_ (h ++ (K1 ++ (c ++ (E1 ++ i)))) = some (c ++ (E1 ++ i)) := by
    unfold config_
    rw [show upto kConfig _ = _ from h1]; rfl
  replace h2 : section_ kEnd (c ++ (E1 ++ i)) = _ := h2
  simp only [both, alt15, alt14, alt13, alt11, alt12, hc1, h2, section_none kInput _ hci, section_none kInput i hn,
    section_none kEnd i hi, Option.bind_some, Option.bind_none, Option.map_some, Option.map_none, Option.none_or, Option.some_or]

/-- With `INPUT` and no `END;` at all. -/
theorem C81_input_only (h K1 c K2 i : List Char) (hK1 : K1.map low = kConfig) (hK2 : K2.map low = kInput)
    (hh : ¬ Occurs kConfig h) (hc : ¬ Occurs kInput c) (hce : ¬ Occurs kEnd (c ++ (K2 ++ i))) (hi : ¬ Occurs kEnd i) :
    both (h ++ (K1 ++ (c ++ (K2 ++ i)))) = some (skip c, skip i) := by
  have h1 := upto_first 'c' _ K1 h (c ++ (K2 ++ i)) (by decide) hK1 hh
  have h2 := section_first 'i' _ K2 c i (by decide) (by decide) hK2 hc
  have hc1 : config_ (h ++ (K1 ++ (c ++ (K2 ++ i)))) = some (c ++ (K2 ++ i)) := by
    unfold config_
    rw [show upto kConfig _ = _ from h1]; rfl
  replace h2 : section_ kInput (c ++ (K2 ++ i)) = _ := h2
  simp only [both, alt15, alt14, alt13, alt11, alt12, alt10, hc1, h2, section_none kEnd _ hce, section_none kEnd i hi,
    Option.bind_some, Option.bind_none, Option.map_some, Option.map_none, Option.none_or]

/-- A decidable form of `OccursWord`, for the witness. -/
def occursWordB (kw : List Char) : Option Char → List Char → Bool
  | p, s =>
    ((eatCI kw s).isSome && (match p with | some c => !isNameChar c | none => true)) ||
      match s with
      | [] => false
      | c :: s => occursWordB kw (some c) s

theorem occursWordB_of (kw : List Char) (a k b : List Char) (hk : k.map low = kw) : ∀ p : Option Char,
    (∀ c, (a.getLast?.or p) = some c → isNameChar c = false) → occursWordB kw p (a ++ (k ++ b)) = true := by
  induction a with
  | nil =>
    intro p hp
    have h1 : (eatCI kw (k ++ b)).isSome = true := by rw [← hk, eatCI_append]; rfl
    rw [List.nil_append, occursWordB.eq_def]
    dsimp only
    rw [h1]
    cases p with
    | none => rfl
    | some c =>
      have := hp c rfl
      simp [this]
  | cons d a ih =>
    intro p hp
    have := ih (some d) (by
      intro c hc
      apply hp c
      cases ha : a.getLast? with
      | none =>
        rw [ha] at hc
        have : a = [] := List.getLast?_eq_none_iff.1 ha
        subst this
        simpa using hc
      | some e =>
        rw [ha] at hc
        simp only [Option.some_or, Option.some.injEq] at hc
        rw [List.getLast?_cons, ha, ← hc]
        rfl)
    rw [List.cons_append, occursWordB.eq_def]
    dsimp only
    rw [this, Bool.or_true]

theorem not_occursWord (kw t : List Char) (h : occursWordB kw none t = false) : ¬ OccursWord kw t := by
  rintro ⟨a, k, b, rfl, hk, ha⟩
  rw [occursWordB_of kw a k b hk none (by intro c hc; exact ha c (by simpa using hc))] at h
  cases h

/-- C81 in full fails: `function legend;` ends the input section. -/
theorem C81_refuted : ¬ C81_full := by
  intro h
  have h1 := h [] "CONFIG".toList "\n".toList "END;".toList "\n".toList "INPUT".toList "\nfunction legend;\n".toList
    "END;".toList [] (by decide +kernel) (by decide +kernel) (by decide +kernel) (by decide +kernel) (not_occursWord _ _ (by decide +kernel))
    (not_occursWord _ _ (by decide +kernel)) (not_occursWord _ _ (by decide +kernel)) (not_occursWord _ _ (by decide +kernel)) (by decide +kernel) (by decide +kernel)
  revert h1
  decide +kernel

/-- A decidable form of `Occurs`. -/
theorem not_occurs (kw t : List Char) (h : upto kw t = none) : ¬ Occurs kw t := by
  rintro ⟨a, k, b, rfl, hk⟩
  induction a with
  | nil =>
    rw [List.nil_append] at h
    cases hkb : k ++ b with
    | nil =>
      obtain ⟨rfl, rfl⟩ := List.append_eq_nil_iff.1 hkb
      rw [List.map_nil] at hk
      subst hk
      rw [hkb, upto] at h
      cases h
    | cons c u =>
      have h1 : eatCI kw (c :: u) = some b := by rw [← hkb, ← hk, eatCI_append]
      rw [hkb, upto, h1] at h
      cases h
  | cons c a ih =>
    apply ih
    rw [List.cons_append, upto] at h
    cases he : eatCI kw (c :: (a ++ (k ++ b))) with
    | some u => rw [he] at h; cases h
    | none =>
      rw [he] at h
      cases hu : upto kw (a ++ (k ++ b)) with
      | none => rfl
      | some p => rw [hu] at h; cases h

/-- `C81_partial` is not vacuous. -/
example : both "abcd Config\n\ntracktype: 1;\nend; between INPUT\nvariable x;\nEND; efgh".toList =
    some ("tracktype: 1;\n".toList, "variable x;\n".toList) :=
  C81_partial "abcd ".toList "Config".toList "\n\ntracktype: 1;\n".toList "end;".toList " between ".toList "INPUT".toList
    "\nvariable x;\n".toList "END;".toList " efgh".toList (by decide +kernel) (by decide +kernel) (by decide +kernel) (by decide +kernel)
    (not_occurs _ _ (by decide +kernel)) (not_occurs _ _ (by decide +kernel)) (not_occurs _ _ (by decide +kernel)) (not_occurs _ _ (by decide +kernel))

/-- Cases of the other forms. -/
example : both "CONFIG\na INPUT b\nEND;\nvariable x;\nEND;\n".toList = some ("a INPUT b\n".toList, "variable x;\n".toList) :=
  C81_no_input [] "CONFIG".toList "\na INPUT b\n".toList "END;".toList "\nvariable x;\n".toList "END;".toList "\n".toList
    (by decide +kernel) (by decide +kernel) (by decide +kernel) (not_occurs _ _ (by decide +kernel)) (not_occurs _ _ (by decide +kernel))
    (not_occurs _ _ (by decide +kernel)) (not_occurs _ _ (by decide +kernel))

example : both "CONFIG\na;\nINPUT\nvariable x;\nEND;\n".toList = some ("a;\n".toList, "variable x;\n".toList) :=
  C81_input_first [] "CONFIG".toList "\na;\n".toList "INPUT".toList "\nvariable x;\n".toList "END;".toList "\n".toList
    (by decide +kernel) (by decide +kernel) (by decide +kernel) (not_occurs _ _ (by decide +kernel)) (not_occurs _ _ (by decide +kernel))
    (not_occurs _ _ (by decide +kernel)) (not_occurs _ _ (by decide +kernel)) (not_occurs _ _ (by decide +kernel)) (not_occurs _ _ (by decide +kernel))

example : both "CONFIG\na;\nEND;\nvariable x;\n".toList = some ("a;\n".toList, "variable x;\n".toList) :=
  C81_config_only [] "CONFIG".toList "\na;\n".toList "END;".toList "\nvariable x;\n".toList
    (by decide +kernel) (by decide +kernel) (not_occurs _ _ (by decide +kernel)) (not_occurs _ _ (by decide +kernel))
    (not_occurs _ _ (by decide +kernel)) (not_occurs _ _ (by decide +kernel)) (not_occurs _ _ (by decide +kernel))

example : both "CONFIG\na;\nINPUT\nvariable x;\n".toList = some ("a;\n".toList, "variable x;\n".toList) :=
  C81_input_only [] "CONFIG".toList "\na;\n".toList "INPUT".toList "\nvariable x;\n".toList
    (by decide +kernel) (by decide +kernel) (not_occurs _ _ (by decide +kernel)) (not_occurs _ _ (by decide +kernel))
    (not_occurs _ _ (by decide +kernel)) (not_occurs _ _ (by decide +kernel))

end B2.Parse
