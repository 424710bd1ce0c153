import Verif.Parse.Spec

/-!
# The parser accepts the grammar
-/

namespace B2.Parse

open B2

/-! ### Tokens -/

theorem skip_ws (w s : List Char) (hw : Ws w) : skip (w ++ s) = skip s := by
  induction w with
  | nil => rfl
  | cons c w ih =>
    have hc : isSpace c = true := hw c (by simp)
    simp only [skip, List.cons_append, List.dropWhile_cons, hc, if_true]
    exact ih fun d hd => hw d (by simp [hd])

theorem skip_cons (c : Char) (s : List Char) (hc : isSpace c = false) : skip (c :: s) = c :: s := by
  simp [skip, hc]

theorem skip_length (s : List Char) : (skip s).length ≤ s.length := by
  induction s with
  | nil => simp [skip]
  | cons c s ih =>
    simp only [skip, List.dropWhile_cons] at ih ⊢
    split
    · simp only [List.length_cons]; omega
    · simp

theorem eat_ws (c : Char) (w s : List Char) (hw : Ws w) (hc : isSpace c = false) : eat c (w ++ c :: s) = some s := by
  rw [eat, skip_ws w _ hw, skip_cons c s hc]
  simp

theorem eat_none (c d : Char) (w s : List Char) (hw : Ws w) (hd : isSpace d = false) (hcd : d ≠ c) :
    eat c (w ++ d :: s) = none := by
  rw [eat, skip_ws w _ hw, skip_cons d s hd]
  simp [hcd]

theorem eat_length (c : Char) (s r : List Char) (h : eat c s = some r) : r.length < s.length := by
  unfold eat at h
  have := skip_length s
  split at h
  · cases h
  · rename_i d r' he
    split_ifs at h
    cases h
    rw [he] at this
    simp only [List.length_cons] at this
    omega

theorem eatStr_append (k s : List Char) : eatStr k (k ++ s) = some s := by
  induction k with
  | nil => cases s <;> rfl
  | cons c k ih => simp [eatStr, ih]

theorem eatStr_eq (k : List Char) : ∀ (s r : List Char), eatStr k s = some r → s = k ++ r := by
  induction k with
  | nil => intro s r h; simp only [eatStr, Option.some.injEq] at h; simp [h]
  | cons c k ih =>
    intro s r h
    cases s with
    | nil => cases h
    | cons d s =>
      simp only [eatStr] at h
      split_ifs at h with hd
      rw [ih s r h, hd]
      rfl

/-- The text cannot continue a name or number, and the next token does not start with a letter or
digit. -/
structure Sep (s : List Char) : Prop where
  head : ∀ c, s.head? = some c → isNameChar c = false ∧ c ≠ '.'
  next : nextAlnum s = false

theorem isAlnum_name (c : Char) (h : isNameChar c = false) : isAlnum c = false := by
  unfold isNameChar at h
  simp only [Bool.or_eq_false_iff] at h
  exact h.1.1.1

theorem isDigit_alnum (c : Char) (h : isAlnum c = false) : isDigit c = false := by
  unfold isAlnum at h
  simp only [Bool.or_eq_false_iff] at h
  exact h.2

theorem takeDigits (ds s : List Char) (hd : Digits ds) (hs : ∀ c, s.head? = some c → isDigit c = false) :
    (ds ++ s).takeWhile isDigit = ds ∧ (ds ++ s).dropWhile isDigit = s := by
  induction ds with
  | nil =>
    cases s with
    | nil => simp
    | cons c s =>
      have := hs c rfl
      simp [this]
  | cons c ds ih =>
    have hc : isDigit c = true := hd c (by simp)
    have := ih fun d h => hd d (by simp [h])
    simp [hc, this.1, this.2]

theorem digit_ne (c d : Char) (hc : isDigit c = true) (hd : isDigit d = false) : c ≠ d := by
  rintro rfl; rw [hc] at hd; cases hd

theorem optMinus_other (c : Char) (s : List Char) (h : c ≠ '-') : optMinus (c :: s) = (false, c :: s) := by
  unfold optMinus
  split
  · rename_i r he
    injection he with h1 h2
    exact absurd h1 h
  · rfl

theorem expo_none (s : List Char) (h : ∀ c, s.head? = some c → isAlnum c = false) : expo s = none := by
  unfold expo
  cases s with
  | nil => rfl
  | cons c s =>
    have := h c rfl
    dsimp only
    rw [if_neg]
    rintro (rfl | rfl) <;> revert this <;> decide

theorem longNum_int (ds s : List Char) (hne : ds ≠ []) (hd : Digits ds) (hs : Sep s) :
    longNum (ds ++ s) = none ∧ longNum ('-' :: (ds ++ s)) = none := by
  have hsd : ∀ c, s.head? = some c → isDigit c = false := fun c hc =>
    isDigit_alnum c (isAlnum_name c (hs.head c hc).1)
  have htd := takeDigits ds s hd hsd
  have hdrop : ∀ (v : ℚ × List Char), (match (ds ++ s).dropWhile isDigit with
      | '.' :: _ => some v
      | _ => none) = none := by
    intro v
    rw [htd.2]
    split
    · rename_i r
      exact absurd rfl (hs.head '.' rfl).2
    · rfl
  have key : ∀ b : Bool, optMinus (if b then '-' :: (ds ++ s) else ds ++ s) = (b, ds ++ s) := by
    intro b
    cases b
    · cases ds with
      | nil => exact absurd rfl hne
      | cons c ds =>
        exact optMinus_other c _ (digit_ne c '-' (hd c (by simp)) (by decide))
    · rfl
  have h1 := key false
  have h2 := key true
  simp only [Bool.false_eq_true, if_false] at h1
  simp only [if_true] at h2
  constructor
  · unfold longNum
    rw [h1]
    dsimp only
    rw [htd.2]
    split
    · exact absurd rfl (hs.head '.' rfl).2
    · rfl
  · unfold longNum
    rw [h2]
    dsimp only
    rw [htd.2]
    split
    · exact absurd rfl (hs.head '.' rfl).2
    · rfl

theorem number_int (w ds s : List Char) (hw : Ws w) (hn : Numeral ds) (hs : Sep s) :
    number (w ++ ds ++ s) = .ok (.int (natOf ds)) s ∧
    number (w ++ '-' :: ds ++ s) = .ok (.int (-(natOf ds : ℤ))) s := by
  obtain ⟨hne, hd, h0⟩ := hn
  have hsd : ∀ c, s.head? = some c → isDigit c = false := fun c hc =>
    isDigit_alnum c (isAlnum_name c (hs.head c hc).1)
  have htd := takeDigits ds s hd hsd
  have hex : expo s = none := expo_none s fun c hc => isAlnum_name c (hs.head c hc).1
  have hz : ¬ (ds.head? = some '0' ∧ ds ≠ ['0']) := fun h => h.2 (h0 h.1)
  cases ds with
  | nil => exact absurd rfl hne
  | cons c ds =>
    have hcd : isDigit c = true := hd c (by simp)
    have hcs : isSpace c = false := by
      cases hh : isSpace c with
      | false => rfl
      | true =>
        exfalso
        simp only [isSpace, Bool.or_eq_true, decide_eq_true_eq] at hh
        rcases hh with ((((h | h) | h) | h) | h) | h <;> rw [h] at hcd <;> revert hcd <;> decide
    have hcm : c ≠ '-' := digit_ne c '-' hcd (by decide)
    have hl := longNum_int (c :: ds) s hne hd hs
    constructor
    · unfold number
      rw [List.append_assoc, skip_ws w _ hw, List.cons_append, skip_cons c _ hcs]
      rw [List.cons_append] at hl htd
      rw [hl.1]
      dsimp only
      unfold intNum
      rw [optMinus_other c _ hcm]
      dsimp only
      rw [optMinus_other c _ hcm]
      dsimp only
      rw [htd.1, htd.2, if_neg hne, if_neg (by simp), if_neg (by rw [hex]; simp), if_neg hz]
      simp
    · unfold number
      rw [List.append_assoc, skip_ws w _ hw, List.cons_append, skip_cons '-' _ (by decide)]
      rw [hl.2]
      dsimp only
      unfold intNum
      have h2 : optMinus ('-' :: (c :: ds ++ s)) = (true, c :: ds ++ s) := rfl
      rw [h2]
      dsimp only
      rw [List.cons_append] at htd ⊢
      rw [optMinus_other c _ hcm]
      dsimp only
      rw [htd.1, htd.2, if_neg hne, if_neg (by simp), if_neg (by rw [hex]; simp), if_neg hz]
      simp

/-- A decimal literal up to the optional exponent. -/
theorem longNum_dec (a b t : List Char) (ha : Digits a) (hb : Digits b) (hab : ¬ (a = [] ∧ b = []))
    (ht : ∀ c, t.head? = some c → isDigit c = false) :
    longNum (a ++ '.' :: (b ++ t)) = match expo t with
      | some (x, r) => some ((natOf (a ++ b) : ℚ) / 10 ^ b.length * (10 : ℚ) ^ x, r)
      | none => some ((natOf (a ++ b) : ℚ) / 10 ^ b.length, t) := by
  have htb := takeDigits b t hb ht
  have hta := takeDigits a ('.' :: (b ++ t)) ha (by intro c hc; simp at hc; subst hc; decide)
  have hmin : optMinus (a ++ '.' :: (b ++ t)) = (false, a ++ '.' :: (b ++ t)) := by
    cases a with
    | nil => rfl
    | cons c a => exact optMinus_other c _ (digit_ne c '-' (ha c (by simp)) (by decide))
  unfold longNum
  rw [hmin]
  dsimp only
  rw [hta.1, hta.2]
  split
  · rename_i r he
    injection he with _ h2
    subst h2
    rw [htb.1, htb.2, if_neg hab]
    cases expo t with
    | none => simp
    | some q => simp
  · rename_i h
    exact absurd rfl (h (b ++ t))

theorem skip_dec (w a t : List Char) (hw : Ws w) (ha : Digits a) : skip (w ++ (a ++ '.' :: t)) = a ++ '.' :: t := by
  rw [skip_ws w _ hw]
  cases a with
  | nil => exact skip_cons '.' _ (by decide)
  | cons c a =>
    rw [List.cons_append]
    refine skip_cons c _ ?_
    have hcd : isDigit c = true := ha c (by simp)
    cases hh : isSpace c with
    | false => rfl
    | true =>
      exfalso
      simp only [isSpace, Bool.or_eq_true, decide_eq_true_eq] at hh
      rcases hh with ((((h | h) | h) | h) | h) | h <;> rw [h] at hcd <;> revert hcd <;> decide

theorem number_dec (w a b s : List Char) (hw : Ws w) (ha : Digits a) (hb : Digits b) (hab : ¬ (a = [] ∧ b = []))
    (hs : Sep s) :
    number (w ++ (a ++ '.' :: b) ++ s) = .ok (.float ((natOf (a ++ b) : ℚ) / 10 ^ b.length) 0) s := by
  have hsd : ∀ c, s.head? = some c → isDigit c = false := fun c hc =>
    isDigit_alnum c (isAlnum_name c (hs.head c hc).1)
  have hex : expo s = none := expo_none s fun c hc => isAlnum_name c (hs.head c hc).1
  have e : w ++ (a ++ '.' :: b) ++ s = w ++ (a ++ '.' :: (b ++ s)) := by simp
  unfold number
  rw [e, skip_dec w a _ hw ha, longNum_dec a b s ha hb hab hsd, hex]

/-- The exponent of a decimal literal. -/
theorem expo_some (e : Char) (m : Bool) (ds s : List Char) (he : e = 'e' ∨ e = 'E') (hne : ds ≠ []) (hd : Digits ds)
    (hsd : ∀ c, s.head? = some c → isDigit c = false) :
    expo (e :: ((if m then '-' :: ds else ds) ++ s)) = some ((if m then -(natOf ds : ℤ) else natOf ds), s) := by
  have htd := takeDigits ds s hd hsd
  unfold expo
  dsimp only
  rw [if_pos he]
  cases m with
  | true =>
    have h2 : optMinus ((if true = true then '-' :: ds else ds) ++ s) = (true, ds ++ s) := rfl
    rw [h2]
    dsimp only
    rw [htd.1, htd.2, if_neg hne]
  | false =>
    cases ds with
    | nil => exact absurd rfl hne
    | cons c ds =>
      have h2 : optMinus ((if false = true then '-' :: c :: ds else c :: ds) ++ s) = (false, c :: ds ++ s) := by
        simpa using optMinus_other c (ds ++ s) (digit_ne c '-' (hd c (by simp)) (by decide))
      rw [h2]
      dsimp only
      rw [htd.1, htd.2, if_neg hne]

theorem number_decExp (w a b : List Char) (e : Char) (m : Bool) (ds s : List Char) (hw : Ws w) (ha : Digits a)
    (hb : Digits b) (hab : ¬ (a = [] ∧ b = [])) (he : e = 'e' ∨ e = 'E') (hne : ds ≠ []) (hd : Digits ds) (hs : Sep s) :
    number (w ++ (a ++ '.' :: (b ++ e :: (if m then '-' :: ds else ds))) ++ s) =
      .ok (.float ((natOf (a ++ b) : ℚ) / 10 ^ b.length * (10 : ℚ) ^ (if m then -(natOf ds : ℤ) else (natOf ds : ℤ))) 0) s := by
  have hsd : ∀ c, s.head? = some c → isDigit c = false := fun c hc =>
    isDigit_alnum c (isAlnum_name c (hs.head c hc).1)
  have e1 : w ++ (a ++ '.' :: (b ++ e :: (if m then '-' :: ds else ds))) ++ s =
      w ++ (a ++ '.' :: (b ++ (e :: ((if m then '-' :: ds else ds) ++ s)))) := by simp
  unfold number
  rw [e1, skip_dec w a _ hw ha, longNum_dec a b _ ha hb hab (by
    intro c hc; simp at hc; subst hc; rcases he with rfl | rfl <;> decide),
    expo_some e m ds s he hne hd hsd]

/-- A text starting with something that is no digit, point or minus is no number. -/
theorem number_fail (w : List Char) (c : Char) (s : List Char) (hw : Ws w) (hc : isDigit c = false) (hp : c ≠ '.')
    (hm : c ≠ '-') (hsp : isSpace c = false) : number (w ++ c :: s) = .fail := by
  unfold number
  rw [skip_ws w _ hw, skip_cons c s hsp]
  have h1 : longNum (c :: s) = none := by
    unfold longNum
    rw [optMinus_other c s hm]
    dsimp only
    have : (c :: s).dropWhile isDigit = c :: s := by simp [hc]
    rw [this]
    split
    · rename_i r he
      injection he with h1 h2
      exact absurd h1 hp
    · rfl
  rw [h1]
  dsimp only
  unfold intNum
  rw [optMinus_other c s hm]
  dsimp only
  rw [optMinus_other c s hm]
  dsimp only
  have : (c :: s).takeWhile isDigit = [] := by simp [hc]
  rw [this, if_pos rfl]

/-- A minus not followed by a number is no number. -/
theorem number_minus (w s : List Char) (hw : Ws w) (h : NoNumber s) : number (w ++ '-' :: s) = .fail := by
  unfold number
  rw [skip_ws w _ hw, skip_cons '-' s (by decide)]
  have h1 : longNum ('-' :: s) = none := by
    unfold longNum
    have h2 : optMinus ('-' :: s) = (true, s) := rfl
    rw [h2]
    dsimp only
    cases s with
    | nil => rfl
    | cons c s =>
      have := h c rfl
      have h3 : (c :: s).dropWhile isDigit = c :: s := by simp [this.1]
      rw [h3]
      split
      · rename_i r he
        injection he with h1 h2
        exact absurd h1 this.2.1
      · rfl
  rw [h1]
  dsimp only
  unfold intNum
  have h2 : optMinus ('-' :: s) = (true, s) := rfl
  rw [h2]
  dsimp only
  cases s with
  | nil => rfl
  | cons c s =>
    have := h c rfl
    rw [optMinus_other c s this.2.2]
    dsimp only
    have h4 : (c :: s).takeWhile isDigit = [] := by simp [this.1]
    rw [h4, if_pos rfl]

/-! ### Symbols -/

theorem longest_none (T : Table) (s : List Char) (h : ∀ k n, (k, n) ∈ T → (eatStr k s).isSome = false) :
    longest T s = none := by
  induction T with
  | nil => rfl
  | cons p T ih =>
    obtain ⟨k, n⟩ := p
    have h1 := h k n (by simp)
    rw [longest, h1]
    simp only [Bool.false_eq_true, if_false]
    exact ih fun k n hk => h k n (by simp [hk])

theorem longest_some (T : Table) (s k : List Char) (n : Node) (h : longest T s = some (k, n)) :
    (k, n) ∈ T ∧ (eatStr k s).isSome = true ∧
      ∀ k' n', (k', n') ∈ T → (eatStr k' s).isSome = true → k'.length ≤ k.length := by
  induction T generalizing k n with
  | nil => cases h
  | cons p T ih =>
    obtain ⟨k0, n0⟩ := p
    rw [longest] at h
    by_cases h0 : (eatStr k0 s).isSome = true
    · rw [if_pos h0] at h
      cases hl : longest T s with
      | none =>
        rw [hl] at h
        simp only [Option.some.injEq, Prod.mk.injEq] at h
        obtain ⟨rfl, rfl⟩ := h
        refine ⟨by simp, h0, ?_⟩
        intro k' n' hk' hs
        rcases List.mem_cons.1 hk' with he | hk'
        · injection he with h1 h2; rw [h1]
        · exfalso
          clear ih
          induction T with
          | nil => cases hk'
          | cons q T ih2 =>
            obtain ⟨k1, n1⟩ := q
            rw [longest] at hl
            by_cases h1 : (eatStr k1 s).isSome = true
            · rw [if_pos h1] at hl
              split at hl
              · split_ifs at hl
              · cases hl
            · rw [if_neg h1] at hl
              rcases List.mem_cons.1 hk' with he | hk'
              · injection he with h2 h3; subst h2; exact h1 hs
              · exact ih2 hl (by simp [hk']) hk'
      | some q =>
        obtain ⟨k1, n1⟩ := q
        rw [hl] at h
        dsimp only at h
        obtain ⟨i1, i2, i3⟩ := ih k1 n1 hl
        by_cases hlt : k0.length < k1.length
        · rw [if_pos hlt] at h
          simp only [Option.some.injEq, Prod.mk.injEq] at h
          obtain ⟨rfl, rfl⟩ := h
          refine ⟨by simp [i1], i2, ?_⟩
          intro k' n' hk' hs
          rcases List.mem_cons.1 hk' with he | hk'
          · injection he with h1 h2; rw [h1]; omega
          · exact i3 k' n' hk' hs
        · rw [if_neg hlt] at h
          simp only [Option.some.injEq, Prod.mk.injEq] at h
          obtain ⟨rfl, rfl⟩ := h
          refine ⟨by simp, h0, ?_⟩
          intro k' n' hk' hs
          rcases List.mem_cons.1 hk' with he | hk'
          · injection he with h1 h2; rw [h1]
          · have := i3 k' n' hk' hs; omega
    · rw [if_neg h0] at h
      obtain ⟨i1, i2, i3⟩ := ih k n h
      refine ⟨by simp [i1], i2, ?_⟩
      intro k' n' hk' hs
      rcases List.mem_cons.1 hk' with he | hk'
      · injection he with h1 h2; rw [h1] at hs; exact absurd hs h0
      · exact i3 k' n' hk' hs

/-- A name of the table that the text `name ++ s` starts with, when `s` cannot continue a name, is not
longer than `name`. -/
theorem name_prefix (T : Table) (hT : Good T) (name s k : List Char) (n : Node) (hk : (k, n) ∈ T)
    (hs : ∀ c, s.head? = some c → isNameChar c = false) (h : (eatStr k (name ++ s)).isSome = true) :
    k.length ≤ name.length := by
  obtain ⟨r, hr⟩ := Option.isSome_iff_exists.1 h
  have he := eatStr_eq k _ r hr
  by_contra hlt
  push Not at hlt
  have h1 : s.head? = k[name.length]? := by
    have h2 : (name ++ s)[name.length]? = (k ++ r)[name.length]? := by rw [he]
    rw [List.getElem?_append_right (le_refl _), Nat.sub_self, List.getElem?_append_left hlt] at h2
    rw [← h2]
    cases s <;> rfl
  rw [List.getElem?_eq_getElem hlt] at h1
  have h3 := hs _ h1
  have h4 := (hT.names k n hk).2 _ (List.getElem_mem hlt)
  rw [h3] at h4
  cases h4

theorem alpha_facts (c : Char) (h : isAlpha c = true) :
    isSpace c = false ∧ isDigit c = false ∧ c ≠ '.' ∧ c ≠ '-' ∧ c ≠ '(' ∧ c ≠ '+' := by
  have hx : ∀ d : Char, isAlpha d = false → c ≠ d := by
    rintro d hd rfl; rw [h] at hd; cases hd
  refine ⟨?_, ?_, hx _ (by decide), hx _ (by decide), hx _ (by decide), hx _ (by decide)⟩
  · cases hh : isSpace c with
    | false => rfl
    | true =>
      exfalso
      simp only [isSpace, Bool.or_eq_true, decide_eq_true_eq] at hh
      rcases hh with ((((h' | h') | h') | h') | h') | h' <;> rw [h'] at h <;> revert h <;> decide
  · cases hh : isDigit c with
    | false => rfl
    | true =>
      exfalso
      simp only [isDigit, isAlpha, decide_eq_true_eq, Char.le_def, UInt32.le_iff_toNat_le] at hh h
      have e1 : ('9' : Char).val.toNat = 57 := rfl
      have e2 : ('a' : Char).val.toNat = 97 := rfl
      have e3 : ('A' : Char).val.toNat = 65 := rfl
      omega

theorem symbol_name (T : Table) (hT : Good T) (w name s : List Char) (n : Node) (hw : Ws w) (hn : (name, n) ∈ T)
    (hs : Sep s) : symbol T (w ++ name ++ s) = .ok n s := by
  obtain ⟨⟨c, r, hc, hca⟩, hall⟩ := hT.names name n hn
  have hskip : skip (w ++ name ++ s) = name ++ s := by
    rw [List.append_assoc, skip_ws w _ hw, hc, List.cons_append, skip_cons c _ (alpha_facts c hca).1]
  unfold symbol
  rw [hskip]
  have hsome : (eatStr name (name ++ s)).isSome = true := by rw [eatStr_append]; rfl
  cases hl : longest T (name ++ s) with
  | none =>
    exfalso
    clear hT hc hall
    induction T with
    | nil => cases hn
    | cons q T ih =>
      obtain ⟨k1, n1⟩ := q
      rw [longest] at hl
      by_cases h1 : (eatStr k1 (name ++ s)).isSome = true
      · rw [if_pos h1] at hl
        split at hl
        · split_ifs at hl
        · cases hl
      · rw [if_neg h1] at hl
        rcases List.mem_cons.1 hn with he | hn
        · injection he with h2 h3; subst h2; exact h1 hsome
        · exact ih hn hl
  | some q =>
    obtain ⟨k, m⟩ := q
    obtain ⟨h1, h2, h3⟩ := longest_some T _ k m hl
    have h4 := h3 name n hn hsome
    have h5 := name_prefix T hT name s k m h1 (fun c hc => (hs.head c hc).1) h2
    obtain ⟨r2, hr2⟩ := Option.isSome_iff_exists.1 h2
    have h6 := eatStr_eq k _ r2 hr2
    have h7 : k = name := by
      have := congrArg (List.take name.length) h6
      rw [List.take_left, List.take_append_of_le_length (by omega), List.take_of_length_le (by omega)] at this
      exact this.symm
    subst h7
    rw [hT.inj k n m hn h1]
    simp

/-- A text that starts with something that is no letter is no name. -/
theorem symbol_nonalpha (T : Table) (hT : Good T) (w : List Char) (c : Char) (s : List Char) (hw : Ws w)
    (hsp : isSpace c = false) (hc : isAlpha c = false) : symbol T (w ++ c :: s) = number (w ++ c :: s) := by
  unfold symbol
  have hskip : skip (w ++ c :: s) = c :: s := by rw [skip_ws w _ hw, skip_cons c s hsp]
  rw [hskip, longest_none]
  intro k n hk
  obtain ⟨⟨d, r, hd, hda⟩, _⟩ := hT.names k n hk
  rw [hd, eatStr]
  rw [if_neg]
  · rfl
  · rintro rfl; rw [hda] at hc; cases hc

theorem digit_facts (c : Char) (h : isDigit c = true) : isSpace c = false ∧ isAlpha c = false := by
  constructor
  · cases hh : isSpace c with
    | false => rfl
    | true =>
      exfalso
      simp only [isSpace, Bool.or_eq_true, decide_eq_true_eq] at hh
      rcases hh with ((((h' | h') | h') | h') | h') | h' <;> rw [h'] at h <;> revert h <;> decide
  · cases hh : isAlpha c with
    | false => rfl
    | true => rw [(alpha_facts c hh).2.1] at h; cases h

theorem elem_of_symbol (T : Table) (s r : List Char) (n : Node) (h : symbol T s = .ok n r) (hr : nextAlnum r = false) :
    elem T s = .ok n r := by
  rw [elem, h]
  simp [hr]

theorem keyword_fn (f : Fn) (s : List Char) : keyword allFns (f.name ++ s) = some (f, s) := by
  cases f <;> simp [keyword, allFns, Fn.name, eatStr]

theorem fn_name_cons (f : Fn) : ∃ c r, f.name = c :: r ∧ isAlpha c = true := by
  cases f <;> exact ⟨_, _, rfl, by decide⟩

theorem fn_name_alpha (f : Fn) : ∀ c ∈ f.name, isAlpha c = true := by
  cases f <;> decide

/-- At a function name the first alternative of `exp_elem_` fails. -/
theorem elem_fn (T : Table) (hT : Good T) (f : Fn) (w s : List Char) (hw : Ws w)
    (hs : ∀ c, s.head? = some c → isNameChar c = false) : elem T (w ++ (f.name ++ s)) = elemAlt T (w ++ (f.name ++ s)) := by
  obtain ⟨c, r, hc, hca⟩ := fn_name_cons f
  obtain ⟨a1, a2, a3, a4, -, -⟩ := alpha_facts c hca
  rw [elem]
  have hskip : skip (w ++ (f.name ++ s)) = f.name ++ s := by
    rw [skip_ws w _ hw, hc, List.cons_append, skip_cons c _ a1]
  unfold symbol
  rw [hskip]
  cases hl : longest T (f.name ++ s) with
  | none =>
    dsimp only
    rw [hc, List.cons_append, number_fail w c _ hw a2 a3 a4 a1]
  | some q =>
    obtain ⟨k, m⟩ := q
    dsimp only
    obtain ⟨h1, h2, h3⟩ := longest_some T _ k m hl
    have h5 := name_prefix T hT f.name s k m h1 hs h2
    obtain ⟨r2, hr2⟩ := Option.isSome_iff_exists.1 h2
    have h6 := eatStr_eq k _ r2 hr2
    have hlt : k.length < f.name.length := by
      rcases Nat.lt_or_ge k.length f.name.length with h | h
      · exact h
      · exfalso
        have h7 : k = f.name := by
          have := congrArg (List.take f.name.length) h6
          rw [List.take_left, List.take_append_of_le_length h, List.take_of_length_le h5] at this
          exact this.symm
        exact hT.nofn k m h1 f h7
    have hd : (f.name ++ s).drop k.length = f.name[k.length] :: ((f.name ++ s).drop (k.length + 1)) := by
      rw [List.drop_eq_getElem_cons (by rw [List.length_append]; omega)]
      rw [List.getElem_append_left hlt]
    have hal := fn_name_alpha f _ (List.getElem_mem hlt)
    have hna : nextAlnum ((f.name ++ s).drop k.length) = true := by
      unfold nextAlnum
      rw [hd, skip_cons _ _ (alpha_facts _ hal).1]
      simp [isAlnum, hal]
    rw [hna]
    rfl

/-! ### The grammar -/

theorem conv_ne (T : Table) (hT : Good T) (full lit : Bool) (k : ℕ) (s : List Char) (n : Node)
    (h : Conv T full lit k s n) : 0 < s.length := by
  induction h with
  | int w ds _ hn =>
    have := List.length_pos_iff.2 hn.1
    simp only [List.length_append]; omega
  | sym w name n _ hn =>
    obtain ⟨⟨c, r, hc, _⟩, _⟩ := hT.names name n hn
    rw [hc]
    simp only [List.length_append, List.length_cons]; omega
  | up => assumption
  | _ => simp only [List.length_append, List.length_cons]; omega

/-- The next token is not the character `c`. -/
def NotNext (c : Char) (s : List Char) : Prop := eat c s = none

theorem sep_op (w : List Char) (c : Char) (s : List Char) (hw : Ws w) (h1 : isNameChar c = false) (h2 : c ≠ '.')
    (h3 : isSpace c = false) : Sep (w ++ c :: s) := by
  constructor
  · intro d hd
    cases w with
    | nil => simp only [List.nil_append, List.head?_cons, Option.some.injEq] at hd; subst hd; exact ⟨h1, h2⟩
    | cons e w =>
      simp only [List.cons_append, List.head?_cons, Option.some.injEq] at hd
      subst hd
      have he : isSpace e = true := hw e (by simp)
      simp only [isSpace, Bool.or_eq_true, decide_eq_true_eq] at he
      rcases he with ((((h' | h') | h') | h') | h') | h' <;> rw [h'] <;> decide
  · unfold nextAlnum
    rw [skip_ws w _ hw, skip_cons c s h3]
    exact isAlnum_name c h1

/-- What the parser does on a text of each level, followed by `rest`. -/
def Accepts (T : Table) (k : ℕ) (s : List Char) (n : Node) : Prop :=
  ∀ rest, Sep rest →
    match k with
    | 4 => elem T (s ++ rest) = .ok n rest
    | 3 => factor T (s ++ rest) = powLoop T n rest
    | 2 => NotNext '^' rest → term T (s ++ rest) = mulLoop T n rest
    | 1 => NotNext '^' rest → NotNext '*' rest → NotNext '/' rest → expr T (s ++ rest) = addLoop T n rest
    | _ => NotNext '^' rest → NotNext '*' rest → NotNext '/' rest → NotNext '+' rest → NotNext '-' rest →
        expr T (s ++ rest) = .ok n rest

theorem powLoop_stop (T : Table) (n : Node) (s : List Char) (h : NotNext '^' s) : powLoop T n s = .ok n s := by
  rw [powLoop, h]

theorem mulLoop_stop (T : Table) (n : Node) (s : List Char) (h : NotNext '*' s) (h2 : NotNext '/' s) :
    mulLoop T n s = .ok n s := by
  rw [mulLoop, h, h2]

theorem addLoop_stop (T : Table) (n : Node) (s : List Char) (h : NotNext '+' s) (h2 : NotNext '-' s) :
    addLoop T n s = .ok n s := by
  rw [addLoop, h, h2]

theorem accepts (T : Table) (hT : Good T) (lit : Bool) (k : ℕ) (s : List Char) (n : Node)
    (h : Conv T false lit k s n) : Accepts T k s n := by
  induction h with
  | int w ds hw hn =>
    intro rest hs
    refine elem_of_symbol T _ _ _ ?_ hs.next
    have hnum := (number_int w ds rest hw hn hs).1
    obtain ⟨hne, hd, _⟩ := hn
    cases ds with
    | nil => exact absurd rfl hne
    | cons c ds =>
      have hf := digit_facts c (hd c (by simp))
      rw [← hnum, List.append_assoc, List.cons_append, symbol_nonalpha T hT w c _ hw hf.1 hf.2]
  | neglit w ds _ hw hn =>
    intro rest hs
    refine elem_of_symbol T _ _ _ ?_ hs.next
    have hnum := (number_int w ds rest hw hn hs).2
    rw [← hnum, List.append_assoc, List.cons_append, symbol_nonalpha T hT w '-' _ hw (by decide) (by decide)]
  | dec w a b hw ha hb hab =>
    intro rest hs
    refine elem_of_symbol T _ _ _ ?_ hs.next
    have hnum := number_dec w a b rest hw ha hb hab hs
    rw [← hnum]
    cases a with
    | nil =>
      rw [List.append_assoc, List.nil_append, List.cons_append, symbol_nonalpha T hT w '.' _ hw (by decide) (by decide)]
    | cons c a =>
      have hf := digit_facts c (ha c (by simp))
      rw [List.append_assoc, List.cons_append, List.cons_append, symbol_nonalpha T hT w c _ hw hf.1 hf.2]
  | decExp w a b e m ds hw ha hb hab he hne hd =>
    intro rest hs
    refine elem_of_symbol T _ _ _ ?_ hs.next
    have hnum := number_decExp w a b e m ds rest hw ha hb hab he hne hd hs
    rw [← hnum]
    cases a with
    | nil =>
      rw [List.append_assoc, List.nil_append, List.cons_append, symbol_nonalpha T hT w '.' _ hw (by decide) (by decide)]
    | cons c a =>
      have hf := digit_facts c (ha c (by simp))
      rw [List.append_assoc, List.cons_append, List.cons_append, symbol_nonalpha T hT w c _ hw hf.1 hf.2]
  | sym w name n hw hn =>
    intro rest hs
    exact elem_of_symbol T _ _ _ (symbol_name T hT w name rest n hw hn hs) hs.next
  | paren w s w' n hw hw' hc ih =>
    intro rest hs
    have e0 : w ++ '(' :: (s ++ (w' ++ [')'])) ++ rest = w ++ '(' :: (s ++ (w' ++ ')' :: rest)) := by simp
    have hin := ih (w' ++ ')' :: rest) (sep_op w' ')' rest hw' (by decide) (by decide) (by decide))
      (eat_none _ _ w' rest hw' (by decide) (by decide)) (eat_none _ _ w' rest hw' (by decide) (by decide))
      (eat_none _ _ w' rest hw' (by decide) (by decide)) (eat_none _ _ w' rest hw' (by decide) (by decide))
      (eat_none _ _ w' rest hw' (by decide) (by decide))
    show elem T _ = _
    rw [e0, elem, symbol_nonalpha T hT w '(' _ hw (by decide) (by decide),
      number_fail w '(' _ hw (by decide) (by decide) (by decide) (by decide)]
    dsimp only
    have heat := eat_ws '(' w (s ++ (w' ++ ')' :: rest)) hw (by decide)
    rw [elemAlt, heat]
    dsimp only
    rw [dif_pos (eat_length _ _ _ heat), hin]
    dsimp only
    rw [eat_ws ')' w' rest hw' (by decide)]
  | fn f w w1 s w' n hw hw1 hw' hc ih =>
    intro rest hs
    have e0 : w ++ (f.name ++ (w1 ++ '(' :: (s ++ (w' ++ [')'])))) ++ rest =
        w ++ (f.name ++ (w1 ++ '(' :: (s ++ (w' ++ ')' :: rest)))) := by simp
    have hin := ih (w' ++ ')' :: rest) (sep_op w' ')' rest hw' (by decide) (by decide) (by decide))
      (eat_none _ _ w' rest hw' (by decide) (by decide)) (eat_none _ _ w' rest hw' (by decide) (by decide))
      (eat_none _ _ w' rest hw' (by decide) (by decide)) (eat_none _ _ w' rest hw' (by decide) (by decide))
      (eat_none _ _ w' rest hw' (by decide) (by decide))
    show elem T _ = _
    have hsep := sep_op w1 '(' (s ++ (w' ++ ')' :: rest)) hw1 (by decide) (by decide) (by decide)
    rw [e0, elem_fn T hT f w _ hw fun c hc => (hsep.head c hc).1, elemAlt]
    obtain ⟨c, r, hcn, hca⟩ := fn_name_cons f
    obtain ⟨a1, a2, a3, a4, a5, a6⟩ := alpha_facts c hca
    have hno : ∀ d, c ≠ d → eat d (w ++ (f.name ++ (w1 ++ '(' :: (s ++ (w' ++ ')' :: rest))))) = none := by
      intro d hd
      rw [hcn, List.cons_append]
      exact eat_none d c w _ hw a1 hd
    rw [hno _ a5, hno _ a4, hno _ a6]
    dsimp only
    have hskip : skip (w ++ (f.name ++ (w1 ++ '(' :: (s ++ (w' ++ ')' :: rest))))) =
        f.name ++ (w1 ++ '(' :: (s ++ (w' ++ ')' :: rest))) := by
      rw [skip_ws w _ hw, hcn, List.cons_append, skip_cons c _ a1]
    rw [hskip, keyword_fn]
    dsimp only
    have heat := eat_ws '(' w1 (s ++ (w' ++ ')' :: rest)) hw1 (by decide)
    rw [heat]
    dsimp only
    have hlen := eat_length _ _ _ heat
    rw [dif_pos (by simp only [List.length_append, List.length_cons] at hlen ⊢; omega), hin]
    dsimp only
    rw [eat_ws ')' w' rest hw' (by decide)]
  | pow a w b x y hw ha hb iha ihb =>
    intro rest hs
    show factor T _ = _
    have e0 : a ++ (w ++ '^' :: b) ++ rest = a ++ (w ++ '^' :: (b ++ rest)) := by simp
    rw [e0]
    have h1 : factor T (a ++ (w ++ '^' :: (b ++ rest))) = powLoop T x (w ++ '^' :: (b ++ rest)) :=
      iha _ (sep_op w '^' _ hw (by decide) (by decide) (by decide))
    have h2 : elem T (b ++ rest) = .ok y rest := ihb rest hs
    have heat := eat_ws '^' w (b ++ rest) hw (by decide)
    rw [h1, powLoop, heat]
    dsimp only
    rw [dif_pos (eat_length _ _ _ heat), h2]
    dsimp only
    rw [dif_pos (by have := eat_length _ _ _ heat; simp only [List.length_append, List.length_cons] at this ⊢; omega)]
  | mul a w b x y hw ha hb iha ihb =>
    intro rest hs hp
    show term T _ = _
    have e0 : a ++ (w ++ '*' :: b) ++ rest = a ++ (w ++ '*' :: (b ++ rest)) := by simp
    rw [e0]
    have h1 : term T (a ++ (w ++ '*' :: (b ++ rest))) = mulLoop T x (w ++ '*' :: (b ++ rest)) :=
      iha _ (sep_op w '*' _ hw (by decide) (by decide) (by decide)) (eat_none _ _ w _ hw (by decide) (by decide))
    have h2 : factor T (b ++ rest) = powLoop T y rest := ihb rest hs
    rw [powLoop_stop T y rest hp] at h2
    have heat := eat_ws '*' w (b ++ rest) hw (by decide)
    rw [h1, mulLoop, heat]
    dsimp only
    rw [dif_pos (eat_length _ _ _ heat), h2]
    dsimp only
    rw [dif_pos (by have := eat_length _ _ _ heat; simp only [List.length_append, List.length_cons] at this ⊢; omega)]
  | div a w b x y hw ha hb iha ihb =>
    intro rest hs hp
    show term T _ = _
    have e0 : a ++ (w ++ '/' :: b) ++ rest = a ++ (w ++ '/' :: (b ++ rest)) := by simp
    rw [e0]
    have h1 : term T (a ++ (w ++ '/' :: (b ++ rest))) = mulLoop T x (w ++ '/' :: (b ++ rest)) :=
      iha _ (sep_op w '/' _ hw (by decide) (by decide) (by decide)) (eat_none _ _ w _ hw (by decide) (by decide))
    have h2 : factor T (b ++ rest) = powLoop T y rest := ihb rest hs
    rw [powLoop_stop T y rest hp] at h2
    have heat := eat_ws '/' w (b ++ rest) hw (by decide)
    rw [h1, mulLoop, eat_none '*' '/' w _ hw (by decide) (by decide), heat]
    dsimp only
    rw [dif_pos (eat_length _ _ _ heat), h2]
    dsimp only
    rw [dif_pos (by have := eat_length _ _ _ heat; simp only [List.length_append, List.length_cons] at this ⊢; omega)]
  | add a w b x y hw ha hb iha ihb =>
    intro rest hs hp hm hd
    show expr T _ = _
    have e0 : a ++ (w ++ '+' :: b) ++ rest = a ++ (w ++ '+' :: (b ++ rest)) := by simp
    rw [e0]
    have h1 : expr T (a ++ (w ++ '+' :: (b ++ rest))) = addLoop T x (w ++ '+' :: (b ++ rest)) :=
      iha _ (sep_op w '+' _ hw (by decide) (by decide) (by decide)) (eat_none _ _ w _ hw (by decide) (by decide))
        (eat_none _ _ w _ hw (by decide) (by decide)) (eat_none _ _ w _ hw (by decide) (by decide))
    have h2 : term T (b ++ rest) = mulLoop T y rest := ihb rest hs hp
    rw [mulLoop_stop T y rest hm hd] at h2
    have heat := eat_ws '+' w (b ++ rest) hw (by decide)
    rw [h1, addLoop, heat]
    dsimp only
    rw [dif_pos (eat_length _ _ _ heat), h2]
    dsimp only
    rw [dif_pos (by have := eat_length _ _ _ heat; simp only [List.length_append, List.length_cons] at this ⊢; omega)]
  | sub a w b x y hw ha hb iha ihb =>
    intro rest hs hp hm hd
    show expr T _ = _
    have e0 : a ++ (w ++ '-' :: b) ++ rest = a ++ (w ++ '-' :: (b ++ rest)) := by simp
    rw [e0]
    have h1 : expr T (a ++ (w ++ '-' :: (b ++ rest))) = addLoop T x (w ++ '-' :: (b ++ rest)) :=
      iha _ (sep_op w '-' _ hw (by decide) (by decide) (by decide)) (eat_none _ _ w _ hw (by decide) (by decide))
        (eat_none _ _ w _ hw (by decide) (by decide)) (eat_none _ _ w _ hw (by decide) (by decide))
    have h2 : term T (b ++ rest) = mulLoop T y rest := ihb rest hs hp
    rw [mulLoop_stop T y rest hm hd] at h2
    have heat := eat_ws '-' w (b ++ rest) hw (by decide)
    rw [h1, addLoop, eat_none '+' '-' w _ hw (by decide) (by decide), heat]
    dsimp only
    rw [dif_pos (eat_length _ _ _ heat), h2]
    dsimp only
    rw [dif_pos (by have := eat_length _ _ _ heat; simp only [List.length_append, List.length_cons] at this ⊢; omega)]
  | neg w s n hw hst hc ih =>
    intro rest hs hp hm hd ha hb
    show expr T _ = _
    have hne := conv_ne T hT _ _ _ _ _ hc
    have e0 : w ++ '-' :: s ++ rest = w ++ '-' :: (s ++ rest) := by simp
    have hst' : NoNumber (s ++ rest) := by
      rcases hst with h | h
      · cases h
      · intro c hcc
        cases s with
        | nil => simp at hne
        | cons d s => exact h c (by simpa using hcc)
    have h1 : expr T (s ++ rest) = .ok n rest := by
      have h2 : term T (s ++ rest) = mulLoop T n rest := ih rest hs hp
      rw [mulLoop_stop T n rest hm hd] at h2
      rw [expr, h2]
      dsimp only
      rw [dif_pos (by rw [List.length_append]; omega), addLoop_stop T n rest ha hb]
    have heat := eat_ws '-' w (s ++ rest) hw (by decide)
    have h3 : elem T (w ++ '-' :: (s ++ rest)) = .ok (.neg n) rest := by
      rw [elem, symbol_nonalpha T hT w '-' _ hw (by decide) (by decide), number_minus w _ hw hst']
      dsimp only
      rw [elemAlt, eat_none '(' '-' w _ hw (by decide) (by decide), heat]
      dsimp only
      rw [dif_pos (eat_length _ _ _ heat), h1]
    have hlen : rest.length < (w ++ '-' :: (s ++ rest)).length := by
      simp only [List.length_append, List.length_cons]; omega
    have h4 : factor T (w ++ '-' :: (s ++ rest)) = .ok (.neg n) rest := by
      rw [factor, h3]
      dsimp only
      rw [dif_pos hlen, powLoop_stop T _ rest hp]
    have h5 : term T (w ++ '-' :: (s ++ rest)) = .ok (.neg n) rest := by
      rw [term, h4]
      dsimp only
      rw [dif_pos hlen, mulLoop_stop T _ rest hm hd]
    rw [e0, expr, h5]
    dsimp only
    rw [dif_pos hlen, addLoop_stop T _ rest ha hb]
  | negAdd a w b x y hf => cases hf
  | negSub a w b x y hf => cases hf
  | up k s n hk hc ih =>
    have hne := conv_ne T hT _ _ _ _ _ hc
    intro rest hs
    have hlen : rest.length < (s ++ rest).length := by rw [List.length_append]; omega
    have hk' : k = 0 ∨ k = 1 ∨ k = 2 ∨ k = 3 := by omega
    rcases hk' with rfl | rfl | rfl | rfl
    · intro hp hm hd ha hb
      have h1 : expr T (s ++ rest) = addLoop T n rest := ih rest hs hp hm hd
      rw [addLoop_stop T n rest ha hb] at h1
      exact h1
    · intro hp hm hd
      have h1 : term T (s ++ rest) = mulLoop T n rest := ih rest hs hp
      rw [mulLoop_stop T n rest hm hd] at h1
      show expr T _ = _
      rw [expr, h1]
      dsimp only
      rw [dif_pos hlen]
    · intro hp
      have h1 : factor T (s ++ rest) = powLoop T n rest := ih rest hs
      rw [powLoop_stop T n rest hp] at h1
      show term T _ = _
      rw [term, h1]
      dsimp only
      rw [dif_pos hlen]
    · have h1 : elem T (s ++ rest) = .ok n rest := ih rest hs
      show factor T _ = _
      rw [factor, h1]
      dsimp only
      rw [dif_pos hlen]

theorem skip_all (w : List Char) (hw : Ws w) : skip w = [] := by
  have := skip_ws w [] hw
  rw [List.append_nil] at this
  rw [this]
  rfl

/-- White space at the end ends every rule. -/
theorem end_facts (w : List Char) (hw : Ws w) : Sep w ∧ ∀ c, NotNext c w := by
  refine ⟨⟨?_, ?_⟩, ?_⟩
  · intro c hc
    have he : isSpace c = true := hw c (List.mem_of_head? hc)
    simp only [isSpace, Bool.or_eq_true, decide_eq_true_eq] at he
    rcases he with ((((h' | h') | h') | h') | h') | h' <;> rw [h'] <;> decide
  · unfold nextAlnum; rw [skip_all w hw]
  · intro c
    unfold NotNext eat
    rw [skip_all w hw]

theorem parse_of_conv (T : Table) (hT : Good T) (lit : Bool) (s w : List Char) (n : Node) (hw : Ws w)
    (h : Conv T false lit 0 s n) : parse T (s ++ w) = some n := by
  have hf := end_facts w hw
  have h1 : expr T (s ++ w) = .ok n w :=
    accepts T hT lit 0 s n h w hf.1 (hf.2 _) (hf.2 _) (hf.2 _) (hf.2 _) (hf.2 _)
  rw [parse, h1]
  dsimp only
  rw [if_pos (skip_all w hw)]

end B2.Parse
