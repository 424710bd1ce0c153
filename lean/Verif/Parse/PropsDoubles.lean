/-
C181: numbers in double precision written and read back.  C182: the texts read as numbers in double precision.
-/
import Verif.Parse.Doubles
import Verif.Parse.PropsNumbers
import Verif.Parse.Declare
import Verif.Parse.ConfigProof

namespace B2.Parse.Doubles

open B2.Parse B2.Parse.Config

/-! ### Specification -/

/-- An optional sign. -/
def SignText (sg : List Char) (neg : Bool) : Prop :=
  sg = [] ∧ neg = false ∨ sg = ['+'] ∧ neg = false ∨ sg = ['-'] ∧ neg = true

/-- An optional exponent. -/
def ExpText (l : List Char) (e : ℤ) : Prop :=
  l = [] ∧ e = 0 ∨ ∃ c sg neg ds, (c = 'e' ∨ c = 'E') ∧ SignText sg neg ∧ ds ≠ [] ∧ Digits ds ∧ l = c :: (sg ++ ds) ∧
    e = if neg then -(natOf ds : ℤ) else natOf ds

/-- The text is a number in the notation of C++, of the given value. -/
inductive RealText : List Char → Val → Prop
  | whole (sg : List Char) (neg : Bool) (a ex : List Char) (e : ℤ) : SignText sg neg → a ≠ [] → Digits a → ExpText ex e →
      RealText (sg ++ (a ++ ex)) (.fin ((if neg then -1 else 1) * ((natOf a : ℚ) * (10 : ℚ) ^ e)))
  | point (sg : List Char) (neg : Bool) (a b ex : List Char) (e : ℤ) : SignText sg neg → ¬ (a = [] ∧ b = []) → Digits a →
      Digits b → ExpText ex e → RealText (sg ++ (a ++ '.' :: (b ++ ex)))
        (.fin ((if neg then -1 else 1) * ((natOf (a ++ b) : ℚ) / 10 ^ b.length * (10 : ℚ) ^ e)))
  | inf (sg : List Char) (neg : Bool) (w : List Char) : SignText sg neg →
      (lower w = ['i', 'n', 'f'] ∨ lower w = ['i', 'n', 'f', 'i', 'n', 'i', 't', 'y']) → RealText (sg ++ w) (.inf neg)
  | nan (sg : List Char) (neg : Bool) (w par : List Char) : SignText sg neg → lower w = ['n', 'a', 'n'] →
      (par = [] ∨ ∃ x, ')' ∉ x ∧ par = '(' :: (x ++ [')'])) → RealText (sg ++ (w ++ par)) (.nan neg)

/-- What may follow a number without being read as part of it. -/
def Stop (t : List Char) : Prop :=
  ∀ c, t.head? = some c → isDigit c = false ∧ isAlpha c = false ∧ c ≠ '.' ∧ c ≠ '('

instance (w : List Char) : Decidable (Ws w) := inferInstanceAs (Decidable (∀ c ∈ w, isSpace c = true))

instance (w : List Char) : Decidable (Digits w) := inferInstanceAs (Decidable (∀ c ∈ w, isDigit c = true))

/-! ### Signs and exponents -/

theorem sign_of {sg r : List Char} {neg : Bool} (h : SignText sg neg)
    (hr : ∀ c, r.head? = some c → c ≠ '-' ∧ c ≠ '+') : sign (sg ++ r) = (neg, r) := by
  rcases h with ⟨rfl, rfl⟩ | ⟨rfl, rfl⟩ | ⟨rfl, rfl⟩
  · cases r with
    | nil => rfl
    | cons c r =>
      have := hr c rfl
      show sign (c :: r) = _
      unfold sign
      split
      · rename_i heq; cases heq; exact absurd rfl this.1
      · rename_i heq; cases heq; exact absurd rfl this.2
      · rfl
  · rfl
  · rfl

theorem sign_inv (s : List Char) : ∃ sg, SignText sg (sign s).1 ∧ s = sg ++ (sign s).2 := by
  unfold sign
  split
  · exact ⟨['-'], Or.inr (Or.inr ⟨rfl, rfl⟩), rfl⟩
  · exact ⟨['+'], Or.inr (Or.inl ⟨rfl, rfl⟩), rfl⟩
  · exact ⟨[], Or.inl ⟨rfl, rfl⟩, rfl⟩

theorem digit_not {c : Char} (h : isDigit c = true) : c ≠ '-' ∧ c ≠ '+' ∧ c ≠ '.' ∧ isSpace c = false := by
  refine ⟨?_, ?_, ?_, digit_space h⟩ <;> (rintro rfl; revert h; decide)

theorem head_digits {a r : List Char} (ha : Digits a) (hne : a ≠ []) {c : Char} (h : (a ++ r).head? = some c) :
    isDigit c = true := by
  cases a with
  | nil => exact absurd rfl hne
  | cons d a =>
    simp only [List.cons_append, List.head?_cons, Option.some.injEq] at h
    subst h
    exact ha d (by simp)

theorem stop_digit {t : List Char} (ht : Stop t) : ∀ c, t.head? = some c → isDigit c = false := fun c hc => (ht c hc).1

theorem expo_of {ex t : List Char} {e : ℤ} (h : ExpText ex e) (ht : Stop t) : expo (ex ++ t) = (e, t) := by
  rcases h with ⟨rfl, rfl⟩ | ⟨c, sg, neg, ds, hc, hs, hne, hd, rfl, rfl⟩
  · cases t with
    | nil => rfl
    | cons c t =>
      have h := (ht c rfl).2.1
      have hn : ¬ (c = 'e' ∨ c = 'E') := by
        rintro (rfl | rfl) <;> revert h <;> decide
      show expo (c :: t) = _
      unfold expo
      simp only [if_neg hn]
  · have h1 : sign (sg ++ (ds ++ t)) = (neg, ds ++ t) := by
      refine sign_of hs fun d hd' => ?_
      have := digit_not (head_digits hd hne hd')
      exact ⟨this.1, this.2.1⟩
    obtain ⟨h2, h3⟩ := takeWhile_append_stop isDigit ds t hd (stop_digit ht)
    show expo (c :: (sg ++ ds ++ t)) = _
    unfold expo
    simp only [if_pos hc, List.append_assoc, h1, h2, h3, if_neg hne]

theorem expo_inv (s : List Char) : ∃ ex, ExpText ex (expo s).1 ∧ s = ex ++ (expo s).2 := by
  unfold expo
  split
  · rename_i c r
    by_cases hc : c = 'e' ∨ c = 'E'
    · by_cases hne : (sign r).2.takeWhile isDigit = []
      · rw [if_pos hc, if_pos hne]
        exact ⟨[], Or.inl ⟨rfl, rfl⟩, rfl⟩
      · rw [if_pos hc, if_neg hne]
        obtain ⟨sg, hs, hr⟩ := sign_inv r
        refine ⟨c :: (sg ++ (sign r).2.takeWhile isDigit), Or.inr ⟨c, sg, (sign r).1, _, hc, hs, hne,
          (digits_eq _).1, rfl, rfl⟩, ?_⟩
        show c :: r = c :: (sg ++ (sign r).2.takeWhile isDigit ++ (sign r).2.dropWhile isDigit)
        rw [List.append_assoc, List.takeWhile_append_dropWhile, ← hr]
    · rw [if_neg hc]
      exact ⟨[], Or.inl ⟨rfl, rfl⟩, rfl⟩
  · exact ⟨[], Or.inl ⟨rfl, rfl⟩, rfl⟩

/-! ### The number itself -/

theorem body_whole {neg : Bool} {a ex t : List Char} {e : ℤ} (hne : a ≠ []) (ha : Digits a) (hx : ExpText ex e)
    (ht : Stop t) : body neg (a ++ (ex ++ t)) = some (.fin ((if neg then -1 else 1) * ((natOf a : ℚ) * (10 : ℚ) ^ e)), t) := by
  have hstop : ∀ c, (ex ++ t).head? = some c → isDigit c = false ∧ c ≠ '.' := by
    intro c hc
    rcases hx with ⟨rfl, -⟩ | ⟨d, sg, ng, ds, hd, -, -, -, rfl, -⟩
    · exact ⟨(ht c hc).1, (ht c hc).2.2.1⟩
    · simp only [List.cons_append, List.head?_cons, Option.some.injEq] at hc
      subst hc
      rcases hd with rfl | rfl <;> exact ⟨by decide, by decide⟩
  obtain ⟨h2, h3⟩ := takeWhile_append_stop isDigit a (ex ++ t) ha fun c hc => (hstop c hc).1
  unfold body
  rw [h2, h3]
  split
  · rename_i r heq
    exact absurd rfl (hstop '.' (by rw [heq]; rfl)).2
  · rw [if_neg hne, expo_of hx ht]
    simp [value]

theorem body_point {neg : Bool} {a b ex t : List Char} {e : ℤ} (hne : ¬ (a = [] ∧ b = [])) (ha : Digits a) (hb : Digits b)
    (hx : ExpText ex e) (ht : Stop t) : body neg (a ++ '.' :: (b ++ (ex ++ t))) =
      some (.fin ((if neg then -1 else 1) * ((natOf (a ++ b) : ℚ) / 10 ^ b.length * (10 : ℚ) ^ e)), t) := by
  have hstop : ∀ c, (ex ++ t).head? = some c → isDigit c = false := by
    intro c hc
    rcases hx with ⟨rfl, -⟩ | ⟨d, sg, ng, ds, hd, -, -, -, rfl, -⟩
    · exact (ht c hc).1
    · simp only [List.cons_append, List.head?_cons, Option.some.injEq] at hc
      subst hc
      rcases hd with rfl | rfl <;> decide
  obtain ⟨h2, h3⟩ := takeWhile_append_stop isDigit a ('.' :: (b ++ (ex ++ t))) ha fun c hc => by
    simp only [List.head?_cons, Option.some.injEq] at hc
    subst hc
    decide
  obtain ⟨h4, h5⟩ := takeWhile_append_stop isDigit b (ex ++ t) hb hstop
  unfold body
  rw [h2, h3]
  simp only [h4, h5, if_neg hne, expo_of hx ht, value]

theorem eatNoCase_alpha {nm s r : List Char} (h : eatNoCase nm s = some r) :
    s.head? = none ∨ nm = [] ∨ ∃ c, s.head? = some c ∧ nm.head? = some (lowerC c) := by
  cases nm with
  | nil => exact Or.inr (Or.inl rfl)
  | cons k ks =>
    cases s with
    | nil => exact Or.inl rfl
    | cons d r =>
      refine Or.inr (Or.inr ⟨d, rfl, ?_⟩)
      by_cases hd : lowerC d = k
      · rw [hd]; rfl
      · simp [eatNoCase, hd] at h

theorem lowerC_other {c : Char} (h : isAlpha c = false) : lowerC c = c := by
  unfold lowerC
  refine if_neg fun hc => ?_
  unfold isAlpha at h
  simp only [decide_eq_false_iff_not, not_or] at h
  exact h.2 hc

/-- The text does not start with a letter: no word is read. -/
theorem eatNoCase_none {k : Char} {ks s : List Char} (hk : isAlpha k = true)
    (hs : ∀ c, s.head? = some c → isAlpha c = false) : eatNoCase (k :: ks) s = none := by
  cases s with
  | nil => rfl
  | cons d r =>
    have hd := hs d rfl
    have : lowerC d ≠ k := by
      rw [lowerC_other hd]
      rintro rfl
      rw [hd] at hk
      cases hk
    simp [eatNoCase, this]

theorem word_none {neg : Bool} {s : List Char} (hs : ∀ c, s.head? = some c → isAlpha c = false) : word neg s = none := by
  unfold word
  rw [eatNoCase_none (by decide) hs, eatNoCase_none (by decide) hs]

theorem lower_cons {w : List Char} {k : Char} {ks : List Char} (h : lower w = k :: ks) :
    ∃ c r, w = c :: r ∧ lowerC c = k ∧ lower r = ks := by
  cases w with
  | nil => cases h
  | cons c r =>
    simp only [lower, List.map_cons, List.cons.injEq] at h
    exact ⟨c, r, rfl, h.1, h.2⟩

theorem digit_lower {c : Char} (h : isDigit c = true) : lowerC c = c ∧ isAlpha c = false := by
  have : isAlpha c = false := by
    unfold isDigit at h
    unfold isAlpha
    simp only [decide_eq_true_eq] at h
    simp only [decide_eq_false_iff_not, not_or, not_and, not_le]
    have h9 : c.val ≤ 57 := h.2
    constructor
    · intro h1
      have h1' : (97 : UInt32) ≤ c.val := h1
      exact absurd (UInt32.le_trans h1' h9) (by decide)
    · intro h1
      have h1' : (65 : UInt32) ≤ c.val := h1
      exact absurd (UInt32.le_trans h1' h9) (by decide)
  exact ⟨lowerC_other this, this⟩

theorem head_of_lower {w r : List Char} {k : Char} {ks : List Char} (h : lower w = k :: ks) (hk : isAlpha k = true) :
    ∀ c, (w ++ r).head? = some c → isDigit c = false ∧ c ≠ '-' ∧ c ≠ '+' ∧ isSpace c = false := by
  intro c hc
  obtain ⟨d, r', rfl, hd, -⟩ := lower_cons h
  simp only [List.cons_append, List.head?_cons, Option.some.injEq] at hc
  subst hc
  refine ⟨?_, ?_, ?_, ?_⟩
  · cases hh : isDigit d with
    | false => rfl
    | true =>
      have := digit_lower hh
      rw [← hd, this.1, this.2] at hk
      cases hk
  · rintro rfl; rw [← hd] at hk; revert hk; decide
  · rintro rfl; rw [← hd] at hk; revert hk; decide
  · cases hh : isSpace d with
    | false => rfl
    | true =>
      unfold isSpace at hh
      simp only [Bool.or_eq_true, decide_eq_true_eq] at hh
      rw [← hd] at hk
      rcases hh with ((((h | h) | h) | h) | h) | h <;> subst h <;> revert hk <;> decide

theorem takeWhile_none {s : List Char} (h : ∀ c, s.head? = some c → isDigit c = false) : s.takeWhile isDigit = [] :=
  (takeWhile_append_stop isDigit [] s (by simp) h).1

theorem word_inf {neg : Bool} {w t : List Char}
    (hw : lower w = ['i', 'n', 'f'] ∨ lower w = ['i', 'n', 'f', 'i', 'n', 'i', 't', 'y']) (ht : Stop t) :
    word neg (w ++ t) = some (.inf neg, t) := by
  have h1 : eatNoCase ['n', 'a', 'n'] (w ++ t) = none := by
    rcases hw with hw | hw <;>
    · obtain ⟨c, r, rfl, hc, -⟩ := lower_cons hw
      have : lowerC c ≠ 'n' := by rw [hc]; decide
      simp [eatNoCase, this]
  unfold word
  rw [h1]
  rcases hw with hw | hw
  · have h2 : eatNoCase ['i', 'n', 'f'] (w ++ t) = some t := eatNoCase_some.mpr ⟨w, rfl, hw⟩
    have h3 : eatNoCase ['i', 'n', 'i', 't', 'y'] t = none := eatNoCase_none (by decide) fun c hc => (ht c hc).2.1
    simp only [h2, h3]
  · obtain ⟨c1, w1, rfl, e1, hw⟩ := lower_cons hw
    obtain ⟨c2, w2, rfl, e2, hw⟩ := lower_cons hw
    obtain ⟨c3, w3, rfl, e3, hw⟩ := lower_cons hw
    have h2 : eatNoCase ['i', 'n', 'f'] (c1 :: c2 :: c3 :: w3 ++ t) = some (w3 ++ t) :=
      eatNoCase_some.mpr ⟨[c1, c2, c3], rfl, by simp [lower, e1, e2, e3]⟩
    have h3 : eatNoCase ['i', 'n', 'i', 't', 'y'] (w3 ++ t) = some t := eatNoCase_some.mpr ⟨w3, rfl, hw⟩
    simp only [h2, h3]

theorem word_nan {neg : Bool} {w par t : List Char} (hw : lower w = ['n', 'a', 'n'])
    (hp : par = [] ∨ ∃ x, ')' ∉ x ∧ par = '(' :: (x ++ [')'])) (ht : Stop t) :
    word neg (w ++ (par ++ t)) = some (.nan neg, t) := by
  have h1 : eatNoCase ['n', 'a', 'n'] (w ++ (par ++ t)) = some (par ++ t) := eatNoCase_some.mpr ⟨w, rfl, hw⟩
  unfold word
  rw [h1]
  rcases hp with rfl | ⟨x, hx, rfl⟩
  · cases t with
    | nil => rfl
    | cons c t =>
      have hc := (ht c rfl).2.2.2
      show (match some (c :: t) with
        | some ('(' :: r) => _
        | some r => _
        | none => _) = _
      split
      · rename_i heq; cases heq; exact absurd rfl hc
      · rename_i heq; cases heq; rfl
      · rename_i heq; cases heq
  · have := (takeWhile_append_stop (fun c => decide (c ≠ ')')) x (')' :: t) (fun c hc => by
      simp only [decide_eq_true_eq]; rintro rfl; exact hx hc) (fun c hc => by
      simp only [List.head?_cons, Option.some.injEq] at hc
      subst hc
      decide)).2
    have e : '(' :: (x ++ [')']) ++ t = '(' :: (x ++ ')' :: t) := by simp
    rw [e]
    simp only [this]

theorem dbl_of {p l t : List Char} {v : Val} (hp : Ws p) (h : RealText l v) (ht : Stop t) :
    dbl (p ++ (l ++ t)) = some (v, t) := by
  unfold dbl
  rw [skip_ws p _ hp]
  have key : ∀ {sg r : List Char} {neg : Bool}, SignText sg neg →
      (∀ c, r.head? = some c → c ≠ '-' ∧ c ≠ '+' ∧ isSpace c = false) → sign (skip (sg ++ r)) = (neg, r) := by
    intro sg r neg hs hr
    have : skip (sg ++ r) = sg ++ r := by
      rcases hs with ⟨rfl, -⟩ | ⟨rfl, -⟩ | ⟨rfl, -⟩
      · cases r with
        | nil => rfl
        | cons c r => exact skip_cons c r (hr c rfl).2.2
      · exact skip_cons _ _ (by decide)
      · exact skip_cons _ _ (by decide)
    rw [this]
    exact sign_of hs fun c hc => ⟨(hr c hc).1, (hr c hc).2.1⟩
  cases h with
  | whole sg neg a ex e hs hne ha hx =>
    have hk := key (r := a ++ (ex ++ t)) hs fun c hc => by
      have := digit_not (head_digits ha hne hc)
      exact ⟨this.1, this.2.1, this.2.2.2⟩
    rw [List.append_assoc, List.append_assoc, hk]
    unfold unsigned
    have hb := body_whole (neg := neg) hne ha hx ht
    have hw : ¬ (a ++ (ex ++ t)).takeWhile isDigit = [] := by
      cases a with
      | nil => exact absurd rfl hne
      | cons d a => simp [List.takeWhile_cons, ha d (by simp)]
    rw [if_neg hw, hb]
  | point sg neg a b ex e hs hne ha hb hx =>
    have e1 : sg ++ (a ++ '.' :: (b ++ ex)) ++ t = sg ++ (a ++ '.' :: (b ++ (ex ++ t))) := by simp
    have hk := key (r := a ++ '.' :: (b ++ (ex ++ t))) hs fun c hc => by
      by_cases h0 : a = []
      · subst h0
        simp only [List.nil_append, List.head?_cons, Option.some.injEq] at hc
        subst hc
        decide
      · have := digit_not (head_digits ha h0 hc)
        exact ⟨this.1, this.2.1, this.2.2.2⟩
    rw [e1, hk]
    unfold unsigned
    have hbd := body_point (neg := neg) hne ha hb hx ht
    by_cases hw : (a ++ '.' :: (b ++ (ex ++ t))).takeWhile isDigit = []
    · rw [if_pos hw]
      have h0 : a = [] := by
        cases a with
        | nil => rfl
        | cons d a => simp [List.takeWhile_cons, ha d (by simp)] at hw
      have hwn : word neg (a ++ '.' :: (b ++ (ex ++ t))) = none := by
        subst h0
        refine word_none fun c hc => ?_
        simp only [List.nil_append, List.head?_cons, Option.some.injEq] at hc
        subst hc
        decide
      rw [hwn]
      exact hbd
    · rw [if_neg hw, hbd]
  | inf sg neg w hs hw =>
    have hh : ∀ c, (w ++ t).head? = some c → isDigit c = false ∧ c ≠ '-' ∧ c ≠ '+' ∧ isSpace c = false := by
      rcases hw with hw | hw
      · exact head_of_lower hw (by decide)
      · exact head_of_lower hw (by decide)
    rw [List.append_assoc, key hs fun c hc => (hh c hc).2]
    unfold unsigned
    rw [if_pos (takeWhile_none fun c hc => (hh c hc).1), word_inf hw ht]
  | nan sg neg w par hs hw hp =>
    have hh : ∀ c, (w ++ (par ++ t)).head? = some c → isDigit c = false ∧ c ≠ '-' ∧ c ≠ '+' ∧ isSpace c = false :=
      head_of_lower hw (by decide)
    rw [List.append_assoc, List.append_assoc, key hs fun c hc => (hh c hc).2]
    unfold unsigned
    rw [if_pos (takeWhile_none fun c hc => (hh c hc).1), word_nan hw hp ht]

theorem body_inv {sg s r : List Char} {neg : Bool} {v : Val} (hs : SignText sg neg) (h : body neg s = some (v, r)) :
    ∃ l, RealText l v ∧ sg ++ s = l ++ r := by
  unfold body at h
  split at h
  · rename_i q heq
    split_ifs at h with hne
    simp only [Option.some.injEq, Prod.mk.injEq] at h
    obtain ⟨rfl, rfl⟩ := h
    obtain ⟨ex, hx, hq⟩ := expo_inv (q.dropWhile isDigit)
    refine ⟨_, RealText.point sg neg _ _ ex _ hs hne (digits_eq s).1 (digits_eq q).1 hx, ?_⟩
    have e1 := (digits_eq s).2
    rw [heq] at e1
    have e2 := (digits_eq q).2
    rw [hq] at e2
    conv_lhs => rw [e1, e2]
    simp
  · rename_i hnd
    split_ifs at h with hne
    simp only [Option.some.injEq, Prod.mk.injEq] at h
    obtain ⟨rfl, rfl⟩ := h
    obtain ⟨ex, hx, hq⟩ := expo_inv (s.dropWhile isDigit)
    have hv : value neg (s.takeWhile isDigit) [] (expo (s.dropWhile isDigit)).1 =
        (if neg then -1 else 1) * ((natOf (s.takeWhile isDigit) : ℚ) * (10 : ℚ) ^ (expo (s.dropWhile isDigit)).1) := by
      simp [value]
    rw [hv]
    refine ⟨_, RealText.whole sg neg _ ex _ hs hne (digits_eq s).1 hx, ?_⟩
    have e1 := (digits_eq s).2
    rw [hq] at e1
    conv_lhs => rw [e1]
    simp

theorem word_inv {sg s r : List Char} {neg : Bool} {v : Val} (hs : SignText sg neg) (h : word neg s = some (v, r)) :
    ∃ l, RealText l v ∧ sg ++ s = l ++ r := by
  unfold word at h
  split at h
  · rename_i q heq
    obtain ⟨w, rfl, hw⟩ := eatNoCase_some.mp heq
    split at h
    · cases h
    · rename_i c q' hq
      simp only [Option.some.injEq, Prod.mk.injEq] at h
      obtain ⟨rfl, rfl⟩ := h
      have e1 : q = q.takeWhile (fun c => decide (c ≠ ')')) ++ q.dropWhile (fun c => decide (c ≠ ')')) := by
        rw [List.takeWhile_append_dropWhile]
      rw [hq] at e1
      have hc : c = ')' := by
        have := List.head?_dropWhile_not (fun c => decide (c ≠ ')')) q
        rw [hq] at this
        simpa using this
      subst hc
      refine ⟨_, RealText.nan sg neg w ('(' :: (q.takeWhile (fun c => decide (c ≠ ')')) ++ [')'])) hs hw
        (Or.inr ⟨_, fun hm => ?_, rfl⟩), ?_⟩
      · have := List.mem_takeWhile_imp hm
        simp at this
      · conv_lhs => rw [e1]
        simp
  · rename_i q hnp heq
    obtain ⟨w, rfl, hw⟩ := eatNoCase_some.mp heq
    simp only [Option.some.injEq, Prod.mk.injEq] at h
    obtain ⟨rfl, rfl⟩ := h
    exact ⟨_, RealText.nan sg neg w [] hs hw (Or.inl rfl), by simp⟩
  · split at h
    · cases h
    · rename_i q heq
      obtain ⟨w, rfl, hw⟩ := eatNoCase_some.mp heq
      split at h
      · rename_i q' heq'
        obtain ⟨w', rfl, hw'⟩ := eatNoCase_some.mp heq'
        simp only [Option.some.injEq, Prod.mk.injEq] at h
        obtain ⟨rfl, rfl⟩ := h
        refine ⟨_, RealText.inf sg neg (w ++ w') hs (Or.inr ?_), by simp⟩
        unfold lower at hw hw' ⊢
        rw [List.map_append, hw, hw']
        rfl
      · simp only [Option.some.injEq, Prod.mk.injEq] at h
        obtain ⟨rfl, rfl⟩ := h
        exact ⟨_, RealText.inf sg neg w hs (Or.inl hw), by simp⟩

theorem skip_inv (s : List Char) : ∃ p, Ws p ∧ s = p ++ skip s :=
  ⟨s.takeWhile isSpace, fun _ hc => List.mem_takeWhile_imp hc, by unfold skip; rw [List.takeWhile_append_dropWhile]⟩

theorem dbl_inv {s r : List Char} {v : Val} (h : dbl s = some (v, r)) :
    ∃ p l, Ws p ∧ RealText l v ∧ s = p ++ (l ++ r) := by
  obtain ⟨p, hp, e⟩ := skip_inv s
  obtain ⟨sg, hs, e2⟩ := sign_inv (skip s)
  have : ∃ l, RealText l v ∧ sg ++ (sign (skip s)).2 = l ++ r := by
    unfold dbl unsigned at h
    split_ifs at h with hw
    · split at h
      · rename_i x heq
        simp only [Option.some.injEq] at h
        subst h
        exact word_inv hs heq
      · exact body_inv hs h
    · exact body_inv hs h
  obtain ⟨l, hl, e3⟩ := this
  exact ⟨p, l, hp, hl, by rw [← e3, ← e2]; exact e⟩

/-! ### C182 -/

theorem stop_of {q t : List Char} (hq : Ws q) (ht : Stop t) : Stop (q ++ t) := by
  intro c hc
  cases q with
  | nil => exact ht c hc
  | cons d q =>
    simp only [List.cons_append, List.head?_cons, Option.some.injEq] at hc
    subst hc
    have := hq d (by simp)
    unfold isSpace at this
    simp only [Bool.or_eq_true, decide_eq_true_eq] at this
    rcases this with ((((h | h) | h) | h) | h) | h <;> subst h <;> decide

theorem stop_nil : Stop [] := fun _ hc => by cases hc

theorem stop_ws {q : List Char} (hq : Ws q) : Stop q := by
  have := stop_of hq stop_nil
  rwa [List.append_nil] at this

theorem stop_blank {q t : List Char} (hq : Ws q) (hne : q ≠ []) : Stop (q ++ t) := by
  intro c hc
  refine stop_ws hq c ?_
  cases q with
  | nil => exact absurd rfl hne
  | cons d q => exact hc

theorem stop_cons {c : Char} (t : List Char) (h : isDigit c = false ∧ isAlpha c = false ∧ c ≠ '.' ∧ c ≠ '(') :
    Stop (c :: t) := by
  intro d hd
  simp only [List.head?_cons, Option.some.injEq] at hd
  subst hd
  exact h

theorem whole_some {α : Type} {o : Option (α × List Char)} {a : α} :
    whole o = some a ↔ ∃ t, Ws t ∧ o = some (a, t) := by
  constructor
  · intro h
    cases o with
    | none => cases h
    | some x =>
      obtain ⟨b, t⟩ := x
      simp only [whole] at h
      by_cases ht : skip t = []
      · rw [if_pos ht] at h
        cases h
        obtain ⟨p, hp, e⟩ := skip_inv t
        rw [ht, List.append_nil] at e
        exact ⟨t, e ▸ hp, rfl⟩
      · rw [if_neg ht] at h
        cases h
  · rintro ⟨t, ht, rfl⟩
    exact if_pos (Numbers.skip_of_ws ht)

theorem eat_of {p t : List Char} {c : Char} (hp : Ws p) (hc : isSpace c = false) : eat c (p ++ c :: t) = some t := by
  unfold eat
  rw [skip_ws p _ hp, skip_cons c t hc]
  exact if_pos rfl

theorem eat_inv {s t : List Char} {c : Char} (h : eat c s = some t) : ∃ p, Ws p ∧ s = p ++ c :: t := by
  obtain ⟨p, hp, e⟩ := skip_inv s
  unfold eat at h
  split at h
  · cases h
  · rename_i d r heq
    by_cases hd : d = c
    · rw [if_pos hd] at h
      cases h
      subst hd
      exact ⟨p, hp, by rw [← heq]; exact e⟩
    · rw [if_neg hd] at h
      cases h

/-- A number does not start with a parenthesis, a comma or the like. -/
theorem dbl_none {p t : List Char} {c : Char} (hp : Ws p) (hs : isSpace c = false) (hd : isDigit c = false)
    (ha : isAlpha c = false) (h1 : c ≠ '-') (h2 : c ≠ '+') (h3 : c ≠ '.') : dbl (p ++ c :: t) = none := by
  unfold dbl
  rw [skip_ws p _ hp, skip_cons c t hs]
  have hsg : sign (c :: t) = (false, c :: t) := by
    refine sign_of (sg := []) (Or.inl ⟨rfl, rfl⟩) fun d h => ?_
    simp only [List.head?_cons, Option.some.injEq] at h
    subst h
    exact ⟨h1, h2⟩
  rw [hsg]
  have hh : ∀ d, (c :: t).head? = some d → isDigit d = false ∧ isAlpha d = false := by
    intro d h
    simp only [List.head?_cons, Option.some.injEq] at h
    subst h
    exact ⟨hd, ha⟩
  have hw := word_none (neg := false) fun d h => (hh d h).2
  have ht := takeWhile_append_stop isDigit [] (c :: t) (by simp) fun d h => (hh d h).1
  rw [List.nil_append] at ht
  have hb : body false (c :: t) = none := by
    unfold body
    rw [ht.1, ht.2]
    split
    · rename_i r heq
      simp only [List.cons.injEq] at heq
      exact absurd heq.1 h3
    · exact if_pos rfl
  unfold unsigned
  rw [if_pos ht.1, hw]
  exact hb

/-- Specification: the text is one number, with white space around it. -/
def One (s : List Char) (x : Val) : Prop := ∃ p l t, Ws p ∧ Ws t ∧ RealText l x ∧ s = p ++ (l ++ t)

/-- Specification: the text is two numbers one after the other. -/
def Two (s : List Char) (x y : Val) : Prop :=
  ∃ p l q m t, Ws p ∧ Ws q ∧ Ws t ∧ RealText l x ∧ RealText m y ∧ s = p ++ (l ++ (q ++ (m ++ t)))

/-- Specification: two numbers with white space between them. -/
def TwoBlank (s : List Char) (x y : Val) : Prop :=
  ∃ p l q m t, Ws p ∧ Ws q ∧ q ≠ [] ∧ Ws t ∧ RealText l x ∧ RealText m y ∧ s = p ++ (l ++ (q ++ (m ++ t)))

/-- Specification: `(x)` with white space anywhere. -/
def Paren (s : List Char) (x : Val) : Prop :=
  ∃ p q l r t, Ws p ∧ Ws q ∧ Ws r ∧ Ws t ∧ RealText l x ∧ s = p ++ '(' :: (q ++ (l ++ (r ++ ')' :: t)))

/-- Specification: `(x, y)` with white space anywhere. -/
def Pair (s : List Char) (x y : Val) : Prop :=
  ∃ p q l r u m v t, Ws p ∧ Ws q ∧ Ws r ∧ Ws u ∧ Ws v ∧ Ws t ∧ RealText l x ∧ RealText m y ∧
    s = p ++ '(' :: (q ++ (l ++ (r ++ ',' :: (u ++ (m ++ (v ++ ')' :: t))))))

/-- **C182** (real numbers): a text is read as a double exactly when it is one number. -/
theorem C182_real (s : List Char) (x : Val) : readReal s = some x ↔ One s x := by
  unfold readReal
  rw [whole_some]
  constructor
  · rintro ⟨t, ht, h⟩
    obtain ⟨p, l, hp, hl, rfl⟩ := dbl_inv h
    exact ⟨p, l, t, hp, ht, hl, rfl⟩
  · rintro ⟨p, l, t, hp, ht, hl, rfl⟩
    exact ⟨t, ht, dbl_of hp hl (stop_ws ht)⟩

theorem dbl_ws {t : List Char} (ht : Ws t) : dbl t = none := by
  unfold dbl
  rw [Numbers.skip_of_ws ht]
  rfl

/-- **C182** (classic format): what is read as a complex number is one number, the imaginary part being 0, or two numbers
one after the other; every such text with white space between the two numbers is read, with these values. -/
theorem C182_classic (s : List Char) (x y : Val) :
    (readClassic s = some (x, y) → One s x ∧ y = .fin 0 ∨ Two s x y) ∧
    (One s x ∧ y = .fin 0 ∨ TwoBlank s x y → readClassic s = some (x, y)) := by
  unfold readClassic
  rw [whole_some]
  constructor
  · rintro ⟨t, ht, h⟩
    unfold classicRule at h
    cases hx : dbl s with
    | none => simp [hx] at h
    | some a =>
      obtain ⟨x', r⟩ := a
      obtain ⟨p, l, hp, hl, rfl⟩ := dbl_inv hx
      simp only [hx] at h
      cases hy : dbl r with
      | none =>
        simp only [hy, Option.some.injEq, Prod.mk.injEq] at h
        obtain ⟨⟨rfl, rfl⟩, rfl⟩ := h
        exact Or.inl ⟨⟨p, l, r, hp, ht, hl, rfl⟩, rfl⟩
      | some b =>
        obtain ⟨y', r'⟩ := b
        obtain ⟨q, m, hq, hm, rfl⟩ := dbl_inv hy
        simp only [hy, Option.some.injEq, Prod.mk.injEq] at h
        obtain ⟨⟨rfl, rfl⟩, rfl⟩ := h
        exact Or.inr ⟨p, l, q, m, r', hp, hq, ht, hl, hm, rfl⟩
  · rintro (⟨⟨p, l, t, hp, ht, hl, rfl⟩, rfl⟩ | ⟨p, l, q, m, t, hp, hq, hne, ht, hl, hm, rfl⟩)
    · refine ⟨t, ht, ?_⟩
      unfold classicRule
      simp only [dbl_of hp hl (stop_ws ht), dbl_ws ht]
    · refine ⟨t, ht, ?_⟩
      unfold classicRule
      have h1 : dbl (p ++ (l ++ (q ++ (m ++ t)))) = some (x, q ++ (m ++ t)) := dbl_of hp hl (stop_blank hq hne)
      have h2 : dbl (q ++ (m ++ t)) = some (y, t) := dbl_of hq hm (stop_ws ht)
      simp only [h1, h2]

theorem parenRule_none {s : List Char} (h : eat '(' s = none) : parenRule s = ((.fin 0, .fin 0), none) := by
  unfold parenRule
  rw [h]

theorem eat_paren_none {s r : List Char} {x : Val} (h : dbl s = some (x, r)) : eat '(' s = none := by
  cases he : eat '(' s with
  | none => rfl
  | some t =>
    obtain ⟨p, hp, rfl⟩ := eat_inv he
    rw [dbl_none hp (by decide) (by decide) (by decide) (by decide) (by decide) (by decide)] at h
    cases h

/-- **C182** (C++ format): a text is read as a complex number exactly when it is one number or one number in parentheses,
the imaginary part being 0, or two numbers in parentheses with a comma between them. -/
theorem C182_cpp (s : List Char) (x y : Val) :
    readCpp s = some (x, y) ↔ (One s x ∨ Paren s x) ∧ y = .fin 0 ∨ Pair s x y := by
  unfold readCpp
  rw [whole_some]
  constructor
  · rintro ⟨t, ht, h⟩
    unfold cppRule at h
    split at h
    · rename_i v r heq
      simp only [Option.some.injEq, Prod.mk.injEq] at h
      obtain ⟨rfl, rfl⟩ := h
      unfold parenRule at heq
      split at heq
      · simp at heq
      · rename_i r1 he
        obtain ⟨p, hp, rfl⟩ := eat_inv he
        split at heq
        · simp at heq
        · rename_i x' r2 hx
          obtain ⟨q, l, hq, hl, rfl⟩ := dbl_inv hx
          split at heq
          · rename_i y' r3 hy
            simp only [Prod.mk.injEq] at heq
            obtain ⟨⟨rfl, rfl⟩, hc⟩ := heq
            obtain ⟨v, hv, rfl⟩ := eat_inv hc
            cases hcm : eat ',' r2 with
            | none => rw [hcm] at hy; cases hy
            | some r4 =>
              rw [hcm] at hy
              obtain ⟨w, hw, rfl⟩ := eat_inv hcm
              obtain ⟨u, m, hu, hm, rfl⟩ := dbl_inv (show dbl r4 = some _ from hy)
              exact Or.inr ⟨p, q, l, w, u, m, v, _, hp, hq, hw, hu, hv, ht, hl, hm, rfl⟩
          · simp only [Prod.mk.injEq] at heq
            obtain ⟨⟨rfl, rfl⟩, hc⟩ := heq
            obtain ⟨v, hv, rfl⟩ := eat_inv hc
            exact Or.inl ⟨Or.inr ⟨p, q, l, v, _, hp, hq, hv, ht, hl, rfl⟩, rfl⟩
    · rename_i v heq
      cases hx : dbl s with
      | none => simp [hx] at h
      | some a =>
        obtain ⟨x', r⟩ := a
        rw [parenRule_none (eat_paren_none hx)] at heq
        simp only [Prod.mk.injEq, and_true] at heq
        subst heq
        simp only [hx, Option.some.injEq, Prod.mk.injEq] at h
        obtain ⟨⟨rfl, rfl⟩, rfl⟩ := h
        obtain ⟨p, l, hp, hl, rfl⟩ := dbl_inv hx
        exact Or.inl ⟨Or.inl ⟨p, l, r, hp, ht, hl, rfl⟩, rfl⟩
  · rintro (⟨⟨p, l, t, hp, ht, hl, rfl⟩ | ⟨p, q, l, r, t, hp, hq, hr, ht, hl, rfl⟩, rfl⟩ |
      ⟨p, q, l, r, u, m, v, t, hp, hq, hr, hu, hv, ht, hl, hm, rfl⟩)
    · refine ⟨t, ht, ?_⟩
      have h1 := dbl_of hp hl (stop_ws ht)
      unfold cppRule
      rw [parenRule_none (eat_paren_none h1)]
      simp only [h1]
    · refine ⟨t, ht, ?_⟩
      have h1 := dbl_of hq hl (stop_of hr (stop_cons (c := ')') t (by decide)))
      have h2 : eat ',' (r ++ ')' :: t) = none := by
        unfold eat
        rw [skip_ws r _ hr, skip_cons ')' t (by decide)]
        exact if_neg (by decide)
      have h3 : parenRule (p ++ '(' :: (q ++ (l ++ (r ++ ')' :: t)))) = ((x, .fin 0), some t) := by
        unfold parenRule
        simp only [eat_of hp (show isSpace '(' = false by decide), h1, h2, Option.bind_none,
          eat_of hr (show isSpace ')' = false by decide)]
      unfold cppRule
      rw [h3]
    · refine ⟨t, ht, ?_⟩
      have h1 := dbl_of hq hl (stop_of hr (stop_cons (c := ',') (u ++ (m ++ (v ++ ')' :: t))) (by decide)))
      have h2 := dbl_of hu hm (stop_of hv (stop_cons (c := ')') t (by decide)))
      have h3 : parenRule (p ++ '(' :: (q ++ (l ++ (r ++ ',' :: (u ++ (m ++ (v ++ ')' :: t))))))) = ((x, y), some t) := by
        unfold parenRule
        simp only [eat_of hp (show isSpace '(' = false by decide), h1, eat_of hr (show isSpace ',' = false by decide),
          Option.bind_some, h2, eat_of hv (show isSpace ')' = false by decide)]
      unfold cppRule
      rw [h3]

/-- Witness: a pair with blanks, a sign and an exponent. -/
example : Pair "( 1.5 , -2e+1)".toList (.fin (3 / 2)) (.fin (-20)) := by
  refine ⟨[], [' '], "1.5".toList, [' '], [' '], "-2e+1".toList, [], [], ?_, ?_, ?_, ?_, ?_, ?_, ?_, ?_, by decide⟩
  · intro c hc; cases hc
  · decide
  · decide
  · decide
  · intro c hc; cases hc
  · intro c hc; cases hc
  · have := RealText.point [] false ['1'] ['5'] [] 0 (Or.inl ⟨rfl, rfl⟩) (by simp) (by decide) (by decide)
      (Or.inl ⟨rfl, rfl⟩)
    have e : (natOf (['1'] ++ ['5'])) = 15 := by decide
    rw [e] at this
    norm_num at this
    exact this
  · have := RealText.whole ['-'] true ['2'] "e+1".toList 1 (Or.inr (Or.inr ⟨rfl, rfl⟩)) (by simp) (by decide)
      (Or.inr ⟨'e', ['+'], false, ['1'], Or.inl rfl, Or.inr (Or.inl ⟨rfl, rfl⟩), by simp, by decide, by decide, by decide⟩)
    have e : natOf ['2'] = 2 := by decide
    rw [e] at this
    norm_num at this
    exact this

/-! ### C181 -/

/-- At least one digit before and after the point. -/
def Dbl.Ok : Dbl → Prop
  | .fin _ a b _ => a ≠ [] ∧ Digits a ∧ b ≠ [] ∧ Digits b
  | _ => True

/-- The value of a double. -/
def Dbl.val : Dbl → Val
  | .fin neg a b e => .fin ((if neg then -1 else 1) * ((natOf (a ++ b) : ℚ) / 10 ^ b.length * (10 : ℚ) ^ e))
  | .inf neg => .inf neg
  | .nan neg => .nan neg

/-- The full claim: a number in double precision that was written is read back by the parser of the same format. -/
def C181_full : Prop := ∀ x y : Dbl, x.Ok → y.Ok → readReal (writeReal x) = some x.val ∧
  readClassic (writeClassic x y) = some (x.val, y.val) ∧ readCpp (writeCpp x y) = some (x.val, y.val)

theorem exp_text (e : ℤ) : ExpText ('e' :: minus (decide (e < 0)) (Numbers.expDigits e.natAbs)) e := by
  obtain ⟨h1, h2, h3⟩ := Numbers.expDigits_spec e.natAbs
  by_cases he : e < 0
  · refine Or.inr ⟨'e', ['-'], true, _, Or.inl rfl, Or.inr (Or.inr ⟨rfl, rfl⟩), h2, h1, ?_, ?_⟩
    · simp [minus, he]
    · rw [h3, if_pos rfl]; omega
  · refine Or.inr ⟨'e', [], false, _, Or.inl rfl, Or.inl ⟨rfl, rfl⟩, h2, h1, ?_, ?_⟩
    · simp [minus, he]
    · rw [h3, if_neg (by simp)]; omega

theorem minus_sign (neg : Bool) (l : List Char) : ∃ sg, SignText sg neg ∧ minus neg l = sg ++ l := by
  cases neg
  · exact ⟨[], Or.inl ⟨rfl, rfl⟩, rfl⟩
  · exact ⟨['-'], Or.inr (Or.inr ⟨rfl, rfl⟩), rfl⟩

theorem text_real {x : Dbl} (h : x.Ok) : RealText (text x) x.val := by
  cases x with
  | fin neg a b e =>
    obtain ⟨ha, hd, hb, hdb⟩ := h
    obtain ⟨sg, hs, hm⟩ := minus_sign (neg && !(Dbl.fin neg a b e).zero)
      (a ++ '.' :: (b ++ 'e' :: minus (decide (e < 0)) (Numbers.expDigits e.natAbs)))
    simp only [text]
    rw [hm]
    have := RealText.point sg _ a b _ e hs (fun h => ha h.1) hd hdb (exp_text e)
    by_cases hz : natOf (a ++ b) = 0
    · rw [hz] at this
      simp only [Dbl.val]
      rw [hz]
      simpa using this
    · have hf : (neg && !(Dbl.fin neg a b e).zero) = neg := by simp [Dbl.zero, hz]
      rw [hf] at this
      exact this
  | inf neg =>
    obtain ⟨sg, hs, hm⟩ := minus_sign neg ['i', 'n', 'f']
    simp only [text]
    rw [hm]
    exact RealText.inf sg neg _ hs (Or.inl (by decide))
  | nan neg =>
    obtain ⟨sg, hs, hm⟩ := minus_sign neg ['n', 'a', 'n']
    simp only [text]
    rw [hm]
    have := RealText.nan sg neg ['n', 'a', 'n'] [] hs (by decide) (Or.inl rfl)
    rwa [List.append_nil] at this

theorem zero_val {y : Dbl} (h : y.zero = true) : y.val = .fin 0 := by
  cases y with
  | fin neg a b e =>
    have : natOf (a ++ b) = 0 := by simpa [Dbl.zero] using h
    simp only [Dbl.val]
    rw [this]
    simp
  | inf neg => cases h
  | nan neg => cases h

theorem ws_nil : Ws [] := fun _ hc => by cases hc

theorem ws_blank : Ws [' '] := by decide

/-- **C181** (partial): complex numbers that were written are read back, in both formats.  Missing: the real numbers of the
classic format. -/
theorem C181_partial (x y : Dbl) (hx : x.Ok) (hy : y.Ok) :
    readClassic (writeClassic x y) = some (x.val, y.val) ∧ readCpp (writeCpp x y) = some (x.val, y.val) := by
  constructor
  · exact (C182_classic _ _ _).2 (Or.inr ⟨[], text x, [' '], text y, [], ws_nil, ws_blank, by simp, ws_nil, text_real hx,
      text_real hy, by simp [writeClassic]⟩)
  · rw [C182_cpp]
    unfold writeCpp
    cases hz : y.zero with
    | true =>
      exact Or.inl ⟨Or.inl ⟨[], text x, [], ws_nil, ws_nil, text_real hx, by simp⟩, zero_val hz⟩
    | false =>
      exact Or.inr ⟨[], [], text x, [], [' '], text y, [], [], ws_nil, ws_nil, ws_nil, ws_blank, ws_nil, ws_nil,
        text_real hx, text_real hy, by simp⟩

/-- **C181** (what is missing): no real number written in the classic format is read back: its text is followed by a zero.
The parser of complex numbers reads it. -/
theorem C181_real (x : Dbl) (hx : x.Ok) :
    readReal (writeReal x) = none ∧ readClassic (writeReal x) = some (x.val, .fin 0) := by
  have hz : zeroDbl.Ok := by
    refine ⟨by simp, ?_, by simp, ?_⟩ <;> decide
  constructor
  · have h1 : dbl (writeReal x) = some (x.val, ' ' :: text zeroDbl) := by
      have := dbl_of (t := ' ' :: text zeroDbl) ws_nil (text_real hx) (stop_cons _ (by decide))
      simpa [writeReal, writeClassic] using this
    unfold readReal
    rw [h1]
    unfold whole
    refine if_neg ?_
    intro h
    have : text zeroDbl = "0.0e00".toList := by
      simp only [text, zeroDbl, minus, Dbl.zero, Numbers.expDigits]
      rw [showNat]
      decide
    rw [this] at h
    revert h
    decide
  · have := (C181_partial x zeroDbl hx hz).1
    have hv : zeroDbl.val = .fin 0 := zero_val (by decide)
    rw [hv] at this
    exact this

/-- The full claim fails. -/
theorem C181_refuted : ¬ C181_full := by
  intro h
  have hz : zeroDbl.Ok := by
    refine ⟨by simp, ?_, by simp, ?_⟩ <;> decide
  have := (h zeroDbl zeroDbl hz hz).1
  rw [(C181_real zeroDbl hz).1] at this
  cases this

/-- Witness: 1.5 - 2.0e10 i meets the hypotheses. -/
example : (Dbl.fin false ['1'] ['5'] 0).Ok ∧ (Dbl.fin true ['2'] ['0'] 10).Ok := by
  refine ⟨⟨by simp, ?_, by simp, ?_⟩, ⟨by simp, ?_, by simp, ?_⟩⟩ <;> decide

end B2.Parse.Doubles
