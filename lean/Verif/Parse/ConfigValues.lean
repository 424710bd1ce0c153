import Mathlib.Data.List.TakeWhile
import Verif.Parse.ConfigSpec

/-!
# The values of settings are read as specified
-/

namespace B2.Parse.Config

open B2.Parse

theorem skip_eq (s : List Char) : ∃ p, Ws p ∧ s = p ++ skip s :=
  ⟨s.takeWhile isSpace, fun c hc => List.mem_takeWhile_imp hc, by unfold skip; rw [List.takeWhile_append_dropWhile]⟩

theorem digits_eq (s : List Char) : Digits (s.takeWhile isDigit) ∧ s = s.takeWhile isDigit ++ s.dropWhile isDigit :=
  ⟨fun _ hc => List.mem_takeWhile_imp hc, by rw [List.takeWhile_append_dropWhile]⟩

theorem digit_space {c : Char} (h : isDigit c = true) : isSpace c = false := (digit_facts c h).1

/-- The rest of a value up to the semicolon does not continue a number. -/
theorem tail_head {q rest : List Char} (hq : Ws q) : ∀ c, (q ++ ';' :: rest).head? = some c →
    isAlnum c = false ∧ isDigit c = false ∧ c ≠ '.' := by
  intro c hc
  cases q with
  | nil =>
    simp only [List.nil_append, List.head?_cons, Option.some.injEq] at hc
    subst hc; decide
  | cons d q =>
    simp only [List.cons_append, List.head?_cons, Option.some.injEq] at hc
    subst hc
    have := hq d (by simp)
    simp only [isSpace, Bool.or_eq_true, decide_eq_true_eq] at this
    rcases this with ((((h | h) | h) | h) | h) | h <;> subst h <;> decide

theorem split_semi {c r v rest : List Char} (h : v ++ ';' :: rest = c ++ r) (hc : ';' ∉ c) :
    ∃ q, v = c ++ q ∧ r = q ++ ';' :: rest := by
  rcases List.append_eq_append_iff.1 h with ⟨a, h1, h2⟩ | ⟨a, h1, h2⟩
  · cases a with
    | nil => exact ⟨[], by simpa using h1.symm, by simpa using h2.symm⟩
    | cons d a =>
      injection h2 with h3 h4
      subst h3
      exact absurd (by rw [h1]; simp) hc
  · exact ⟨a, h1, h2⟩

theorem eat_skip_ne {c d : Char} {q rest : List Char} (h : skip q = d :: rest) (hd : d ≠ c) : eat c q = none := by
  rw [eat, h]
  simp [hd]

theorem skip_append {a b : List Char} (h : skip a ≠ []) : skip (a ++ b) = skip a ++ b := by
  obtain ⟨p, hp, e⟩ := skip_eq a
  cases hs : skip a with
  | nil => exact absurd hs h
  | cons d r =>
    have hd : isSpace d = false := by
      cases hh : isSpace d with
      | false => rfl
      | true =>
        exfalso
        have := List.head_dropWhile_not isSpace (l := a) (by unfold skip at hs; rw [hs]; simp)
        simp only [skip] at hs
        simp [hs, hh] at this
    rw [hs] at e
    rw [e, List.append_assoc, skip_ws p _ hp, List.cons_append, skip_cons d _ hd]

theorem skip_cons_nonspace {a r : List Char} {d : Char} (h : skip a = d :: r) : isSpace d = false := by
  cases hh : isSpace d with
  | false => rfl
  | true =>
    exfalso
    have := List.head_dropWhile_not isSpace (l := a) (by unfold skip at h; rw [h]; simp)
    simp only [skip] at h
    simp [h, hh] at this

theorem skip_nil_ws {a : List Char} (h : skip a = []) : Ws a := by
  obtain ⟨p, hp, e⟩ := skip_eq a
  rw [h, List.append_nil] at e
  rw [e]; exact hp

theorem mem_of_skip {a : List Char} {c : Char} (h : c ∈ skip a) : c ∈ a := by
  obtain ⟨p, -, e⟩ := skip_eq a
  rw [e]; exact List.mem_append_right _ h

theorem semi_end {q rest rest' : List Char} (hq : ';' ∉ q) (h : eat ';' (q ++ ';' :: rest) = some rest') :
    Ws q ∧ rest' = rest := by
  by_cases hs : skip q = []
  · have hw := skip_nil_ws hs
    rw [eat_ws ';' q rest hw (by decide)] at h
    exact ⟨hw, (Option.some.inj h).symm⟩
  · exfalso
    cases hd : skip q with
    | nil => exact hs hd
    | cons d r =>
      rw [eat_skip_ne (c := ';') (d := d) (rest := r ++ ';' :: rest) (by rw [skip_append hs, hd]; rfl)
        (by rintro rfl; exact hq (mem_of_skip (by rw [hd]; simp)))] at h
      cases h

/-! ### Natural numbers -/

theorem uintP_ok {s r : List Char} {n : ℕ} (h : uintP s = .ok n r) :
    ∃ p ds, Ws p ∧ Digits ds ∧ ds ≠ [] ∧ s = p ++ (ds ++ r) ∧ n = natOf ds ∧ n < 2 ^ 32 := by
  unfold uintP at h
  dsimp only at h
  split_ifs at h with h1 h2
  injection h with h3 h4
  subst h3 h4
  obtain ⟨p, hp, e⟩ := skip_eq s
  refine ⟨p, _, hp, (digits_eq (skip s)).1, h1, ?_, rfl, by omega⟩
  rw [← (digits_eq (skip s)).2]
  exact e

theorem skip_digits {p ds t : List Char} (hp : Ws p) (hd : Digits ds) (hne : ds ≠ []) :
    skip (p ++ (ds ++ t)) = ds ++ t := by
  rw [skip_ws p _ hp]
  cases ds with
  | nil => exact absurd rfl hne
  | cons c ds => exact skip_cons c _ (digit_space (hd c (by simp)))

theorem uintP_of {p ds t : List Char} (hp : Ws p) (hd : Digits ds) (hne : ds ≠ []) (hlt : natOf ds < 2 ^ 32)
    (ht : ∀ c, t.head? = some c → isDigit c = false) : uintP (p ++ (ds ++ t)) = .ok (natOf ds) t := by
  unfold uintP
  dsimp only
  rw [skip_digits hp hd hne, (takeDigits ds t hd ht).1, (takeDigits ds t hd ht).2, if_neg hne, if_neg (by omega)]

/-! ### Integers -/

theorem signP_eq (s : List Char) : ∃ sg, s = sg ++ (signP s).2 ∧
    ((sg = [] ∨ sg = ['+']) ∧ (signP s).1 = false ∨ sg = ['-'] ∧ (signP s).1 = true) := by
  unfold signP
  split
  · exact ⟨['-'], rfl, Or.inr ⟨rfl, rfl⟩⟩
  · exact ⟨['+'], rfl, Or.inl ⟨Or.inr rfl, rfl⟩⟩
  · exact ⟨[], rfl, Or.inl ⟨Or.inl rfl, rfl⟩⟩

theorem intP_ok {s r : List Char} {n : ℤ} (h : intP s = .ok n r) :
    ∃ p sg ds, Ws p ∧ Digits ds ∧ ds ≠ [] ∧ s = p ++ (sg ++ (ds ++ r)) ∧
      ((sg = [] ∨ sg = ['+']) ∧ n = natOf ds ∨ sg = ['-'] ∧ n = -(natOf ds : ℤ)) ∧ -2 ^ 31 ≤ n ∧ n < 2 ^ 31 := by
  unfold intP at h
  dsimp only at h
  obtain ⟨p, hp, e⟩ := skip_eq s
  obtain ⟨sg, e2, hsg⟩ := signP_eq (skip s)
  have key : ∀ (b : Bool) (y : List Char), signP (skip s) = (b, y) →
      (if y.takeWhile isDigit = [] then V.fail
        else if (if b then -(natOf (y.takeWhile isDigit) : ℤ) else natOf (y.takeWhile isDigit)) < -2 ^ 31 ∨
          2 ^ 31 ≤ (if b then -(natOf (y.takeWhile isDigit) : ℤ) else natOf (y.takeWhile isDigit)) then V.fail
        else V.ok (if b then -(natOf (y.takeWhile isDigit) : ℤ) else natOf (y.takeWhile isDigit))
          (y.dropWhile isDigit)) = V.ok n r →
      y.takeWhile isDigit ≠ [] ∧ r = y.dropWhile isDigit ∧
        (if b then -(natOf (y.takeWhile isDigit) : ℤ) else natOf (y.takeWhile isDigit)) = n ∧ -2 ^ 31 ≤ n ∧ n < 2 ^ 31 := by
    intro b y _ h
    by_cases h1 : y.takeWhile isDigit = []
    · rw [if_pos h1] at h; cases h
    · rw [if_neg h1] at h
      generalize (if b then -(natOf (y.takeWhile isDigit) : ℤ) else natOf (y.takeWhile isDigit)) = z at h ⊢
      by_cases h2 : z < -2 ^ 31 ∨ 2 ^ 31 ≤ z
      · rw [if_pos h2] at h; cases h
      · rw [if_neg h2] at h
        simp only [V.ok.injEq] at h
        refine ⟨h1, h.2.symm, h.1, by omega, by omega⟩
  obtain ⟨k1, rfl, k3, k4, k5⟩ := key (signP (skip s)).1 (signP (skip s)).2 rfl h
  refine ⟨p, sg, _, hp, (digits_eq _).1, k1, ?_, ?_, k4, k5⟩
  · rw [← (digits_eq (signP (skip s)).2).2, ← e2]
    exact e
  · rcases hsg with ⟨a, b⟩ | ⟨a, b⟩
    · rw [b] at k3
      exact Or.inl ⟨a, k3.symm⟩
    · rw [b] at k3
      exact Or.inr ⟨a, k3.symm⟩

theorem signP_digits {ds t : List Char} (hd : Digits ds) (hne : ds ≠ []) : signP (ds ++ t) = (false, ds ++ t) := by
  cases ds with
  | nil => exact absurd rfl hne
  | cons c ds =>
    have hc := hd c (by simp)
    unfold signP
    split
    · rename_i r he
      injection he with h1 _
      subst h1
      exact absurd hc (by decide)
    · rename_i r he
      injection he with h1 _
      subst h1
      exact absurd hc (by decide)
    · rfl

theorem intP_of {p sg ds t : List Char} {n : ℤ} (hp : Ws p) (hd : Digits ds) (hne : ds ≠ [])
    (hn : (sg = [] ∨ sg = ['+']) ∧ n = natOf ds ∨ sg = ['-'] ∧ n = -(natOf ds : ℤ)) (h1 : -2 ^ 31 ≤ n) (h2 : n < 2 ^ 31)
    (ht : ∀ c, t.head? = some c → isDigit c = false) : intP (p ++ (sg ++ (ds ++ t))) = .ok n t := by
  have htd := takeDigits ds t hd ht
  have key : ∃ b : Bool, signP (skip (p ++ (sg ++ (ds ++ t)))) = (b, ds ++ t) ∧
      (if b then -(natOf ds : ℤ) else (natOf ds : ℤ)) = n := by
    rcases hn with ⟨rfl | rfl, rfl⟩ | ⟨rfl, rfl⟩
    · exact ⟨false, by rw [List.nil_append, skip_digits hp hd hne, signP_digits hd hne], rfl⟩
    · exact ⟨false, by rw [List.cons_append, List.nil_append, skip_ws p _ hp, skip_cons '+' _ (by decide)]; rfl, rfl⟩
    · exact ⟨true, by rw [List.cons_append, List.nil_append, skip_ws p _ hp, skip_cons '-' _ (by decide)]; rfl, rfl⟩
  obtain ⟨b, e, hb⟩ := key
  unfold intP
  dsimp only
  rw [e]
  dsimp only
  rw [htd.1, htd.2, hb, if_neg hne, if_neg (by omega)]

/-! ### Decimal numbers -/

/-- `number_string_` after skipping. -/
def numCore (s : List Char) : V ℚ :=
  match longNum s with
  | some (v, r) => .ok v r
  | none => intStr s

theorem longNum_neg {x : List Char} (h : optMinus x = (false, x)) :
    longNum ('-' :: x) = (longNum x).map fun p => (-p.1, p.2) := by
  unfold longNum
  rw [h]
  have h2 : optMinus ('-' :: x) = (true, x) := rfl
  rw [h2]
  dsimp only
  split
  · rename_i r1 _
    by_cases hab : x.takeWhile isDigit = [] ∧ r1.takeWhile isDigit = []
    · rw [if_pos hab, if_pos hab]; rfl
    · rw [if_neg hab, if_neg hab]
      cases expo (r1.dropWhile isDigit) with
      | none =>
        simp only [Option.map_some, Option.some.injEq, Prod.mk.injEq, and_true, reduceIte, Bool.false_eq_true]
        ring
      | some q =>
        simp only [Option.map_some, Option.some.injEq, Prod.mk.injEq, and_true, reduceIte, Bool.false_eq_true]
        ring
  · rfl

theorem longNum_pos {x : List Char} (h : optMinus x = (false, x)) :
    longNum x = match x.dropWhile isDigit with
      | '.' :: r =>
        if x.takeWhile isDigit = [] ∧ r.takeWhile isDigit = [] then none
        else match expo (r.dropWhile isDigit) with
          | some (y, r'') => some ((natOf (x.takeWhile isDigit ++ r.takeWhile isDigit) : ℚ) /
              10 ^ (r.takeWhile isDigit).length * (10 : ℚ) ^ y, r'')
          | none => some ((natOf (x.takeWhile isDigit ++ r.takeWhile isDigit) : ℚ) / 10 ^ (r.takeWhile isDigit).length,
              r.dropWhile isDigit)
      | _ => none := by
  rw [longNum, h]
  simp only [Bool.false_eq_true, if_false, one_mul]
  rfl

theorem intStr_pos {x : List Char} (h : optMinus x = (false, x)) :
    intStr x = if x.takeWhile isDigit = [] then .fail
      else match expo (x.dropWhile isDigit) with
        | some (y, r') => .ok ((natOf (x.takeWhile isDigit) : ℚ) * (10 : ℚ) ^ y) r'
        | none => .ok (natOf (x.takeWhile isDigit) : ℚ) (x.dropWhile isDigit) := by
  rw [intStr, h]
  dsimp only
  rw [h]
  simp only [Bool.false_eq_true, if_false, one_mul, or_self, and_self]
  rfl

theorem intStr_neg {x : List Char} (h : optMinus x = (false, x)) :
    intStr ('-' :: x) = (intStr x).map fun v => -v := by
  have h2 : optMinus ('-' :: x) = (true, x) := rfl
  rw [intStr_pos h, intStr, h2]
  dsimp only
  rw [h]
  simp only [Bool.false_eq_true, and_false, or_false, if_false, if_true]
  by_cases h3 : x.takeWhile isDigit = []
  · rw [if_pos h3, if_pos h3]; rfl
  · rw [if_neg h3, if_neg h3]
    cases expo (x.dropWhile isDigit) with
    | none => simp [V.map]
    | some q => simp [V.map]

theorem numCore_neg {x : List Char} (h : optMinus x = (false, x)) :
    numCore ('-' :: x) = (numCore x).map fun v => -v := by
  unfold numCore
  rw [longNum_neg h, intStr_neg h]
  cases longNum x with
  | none => rfl
  | some q => rfl

theorem expo_ok {s r : List Char} {x : ℤ} (h : expo s = some (x, r)) :
    ∃ (e : Char) (m : Bool) (ds : List Char), (e = 'e' ∨ e = 'E') ∧ ds ≠ [] ∧ Digits ds ∧ s = e :: ((if m then '-' :: ds else ds) ++ r) ∧
      x = (if m then -(natOf ds : ℤ) else natOf ds) := by
  unfold expo at h
  split at h
  · cases h
  · rename_i c s'
    split_ifs at h with h1
    dsimp only at h
    by_cases h2 : (optMinus s').2.takeWhile isDigit = []
    · rw [if_pos h2] at h; cases h
    · rw [if_neg h2] at h
      simp only [Option.some.injEq, Prod.mk.injEq] at h
      refine ⟨c, (optMinus s').1, _, h1, h2, (digits_eq (optMinus s').2).1, ?_, ?_⟩
      · rw [← h.2]
        congr 1
        have e := (digits_eq (optMinus s').2).2
        unfold optMinus at e ⊢
        split
        · simp only [if_true, List.cons_append]
          congr 1
        · simpa using e
      · exact h.1.symm

theorem numCore_sound {x r : List Char} {v : ℚ} (hx : optMinus x = (false, x)) (h : numCore x = .ok v r) :
    ∃ l, Literal l v ∧ x = l ++ r := by
  unfold numCore at h
  cases hl : longNum x with
  | some q =>
    rw [hl] at h
    simp only [V.ok.injEq] at h
    obtain ⟨rfl, rfl⟩ := h
    rw [longNum_pos hx] at hl
    have ea := digits_eq x
    split at hl
    · rename_i r1 hr1
      have eb := digits_eq r1
      by_cases hab : x.takeWhile isDigit = [] ∧ r1.takeWhile isDigit = []
      · rw [if_pos hab] at hl; cases hl
      rw [if_neg hab] at hl
      have ex : x = x.takeWhile isDigit ++ '.' :: (r1.takeWhile isDigit ++ r1.dropWhile isDigit) := by
        rw [← eb.2, ← hr1, ← ea.2]
      split at hl
      · rename_i xx rr he
        obtain ⟨e, m, ds, h1, h2, h3, h4, h5⟩ := expo_ok he
        simp only [Option.some.injEq] at hl
        subst hl
        refine ⟨_, by
          have := Literal.pointExp (x.takeWhile isDigit) (r1.takeWhile isDigit) e m ds ea.1 eb.1 hab h1 h2 h3
          rw [← h5] at this
          simpa using this, ?_⟩
        rw [h4] at ex
        simpa using ex
      · simp only [Option.some.injEq] at hl
        subst hl
        refine ⟨_, by simpa using Literal.point (x.takeWhile isDigit) (r1.takeWhile isDigit) ea.1 eb.1 hab, ?_⟩
        simpa using ex
    · cases hl
  | none =>
    rw [hl] at h
    dsimp only at h
    rw [intStr_pos hx] at h
    have ea := digits_eq x
    by_cases h1 : x.takeWhile isDigit = []
    · rw [if_pos h1] at h; cases h
    · rw [if_neg h1] at h
      split at h
      · rename_i xx rr he
        obtain ⟨e, m, ds, h1', h2', h3', h4, h5⟩ := expo_ok he
        simp only [V.ok.injEq] at h
        obtain ⟨rfl, rfl⟩ := h
        refine ⟨_, by
          have := Literal.wholeExp (x.takeWhile isDigit) e m ds h1 ea.1 h1' h2' h3'
          rw [← h5] at this
          simpa using this, ?_⟩
        rw [h4] at ea
        simpa using ea.2
      · simp only [V.ok.injEq] at h
        obtain ⟨rfl, rfl⟩ := h
        exact ⟨_, by simpa using Literal.whole (x.takeWhile isDigit) h1 ea.1, ea.2⟩

theorem numCore_minus2 (x : List Char) (v : ℚ) (r : List Char) : numCore ('-' :: '-' :: x) ≠ .ok v r := by
  unfold numCore
  have h1 : longNum ('-' :: '-' :: x) = none := rfl
  rw [h1]
  dsimp only
  unfold intStr
  have h2 : optMinus ('-' :: '-' :: x) = (true, '-' :: x) := rfl
  have h3 : optMinus ('-' :: x) = (true, x) := rfl
  rw [h2]
  dsimp only
  rw [h3]
  dsimp only
  by_cases h4 : x.takeWhile isDigit = []
  · rw [if_pos h4]; simp
  · rw [if_neg h4, if_pos (by simp)]; simp

theorem numP_ok {s r : List Char} {v : ℚ} (h : numP s = .ok v r) :
    ∃ p l y, Ws p ∧ Literal l y ∧ (s = p ++ (l ++ r) ∧ v = y ∨ s = p ++ ('-' :: (l ++ r)) ∧ v = -y) := by
  obtain ⟨p, hp, e⟩ := skip_eq s
  change numCore (skip s) = .ok v r at h
  by_cases hm : optMinus (skip s) = (false, skip s)
  · obtain ⟨l, hl, e2⟩ := numCore_sound hm h
    exact ⟨p, l, v, hp, hl, Or.inl ⟨by rw [← e2]; exact e, rfl⟩⟩
  · cases hs : skip s with
    | nil => rw [hs] at hm; exact absurd rfl hm
    | cons c x =>
      rw [hs] at hm h e
      have hc : c = '-' := by
        by_contra hc
        exact hm (optMinus_other c x hc)
      subst hc
      by_cases hx : optMinus x = (false, x)
      · rw [numCore_neg hx] at h
        cases hn : numCore x with
        | fail => rw [hn] at h; cases h
        | err => rw [hn] at h; cases h
        | ok y r' =>
          rw [hn] at h
          simp only [V.map, V.ok.injEq] at h
          obtain ⟨rfl, rfl⟩ := h
          obtain ⟨l, hl, e2⟩ := numCore_sound hx hn
          exact ⟨p, l, y, hp, hl, Or.inr ⟨by rw [← e2]; exact e, rfl⟩⟩
      · exfalso
        cases x with
        | nil => exact hx rfl
        | cons d x =>
          have hd : d = '-' := by
            by_contra hd
            exact hx (optMinus_other d x hd)
          subst hd
          exact numCore_minus2 x v r h

theorem literal_head {l : List Char} {y : ℚ} (h : Literal l y) : ∃ c r, l = c :: r ∧ (isDigit c = true ∨ c = '.') := by
  cases h with
  | whole a hne hd =>
    cases l with
    | nil => exact absurd rfl hne
    | cons c a => exact ⟨c, a, rfl, Or.inl (hd c (by simp))⟩
  | wholeExp a e m ds hne hd =>
    cases a with
    | nil => exact absurd rfl hne
    | cons c a => exact ⟨c, _, rfl, Or.inl (hd c (by simp))⟩
  | point a b hd =>
    cases a with
    | nil => exact ⟨'.', _, rfl, Or.inr rfl⟩
    | cons c a => exact ⟨c, _, rfl, Or.inl (hd c (by simp))⟩
  | pointExp a b e m ds hd =>
    cases a with
    | nil => exact ⟨'.', _, rfl, Or.inr rfl⟩
    | cons c a => exact ⟨c, _, rfl, Or.inl (hd c (by simp))⟩

theorem literal_minus {l : List Char} {y : ℚ} (h : Literal l y) (t : List Char) : optMinus (l ++ t) = (false, l ++ t) := by
  obtain ⟨c, r, rfl, hc⟩ := literal_head h
  refine optMinus_other c _ ?_
  rintro rfl
  rcases hc with hc | hc <;> revert hc <;> decide

theorem literal_skip {l : List Char} {y : ℚ} (h : Literal l y) (t : List Char) : skip (l ++ t) = l ++ t := by
  obtain ⟨c, r, rfl, hc⟩ := literal_head h
  refine skip_cons c _ ?_
  rcases hc with hc | rfl
  · exact digit_space hc
  · decide

theorem longNum_whole {a t : List Char} (ha : Digits a) (hne : a ≠ [])
    (ht : ∀ c, t.head? = some c → isDigit c = false ∧ c ≠ '.') : longNum (a ++ t) = none := by
  have hm : optMinus (a ++ t) = (false, a ++ t) := by
    cases a with
    | nil => exact absurd rfl hne
    | cons c a => exact optMinus_other c _ (digit_ne c '-' (ha c (by simp)) (by decide))
  unfold longNum
  rw [hm]
  dsimp only
  rw [(takeDigits a t ha fun c hc => (ht c hc).1).2]
  split
  · exact absurd rfl (ht '.' rfl).2
  · rfl

theorem intStr_whole {a t : List Char} (ha : Digits a) (hne : a ≠ [])
    (ht : ∀ c, t.head? = some c → isDigit c = false) :
    intStr (a ++ t) = match expo t with
      | some (x, r) => .ok ((natOf a : ℚ) * (10 : ℚ) ^ x) r
      | none => .ok (natOf a : ℚ) t := by
  have hm : optMinus (a ++ t) = (false, a ++ t) := by
    cases a with
    | nil => exact absurd rfl hne
    | cons c a => exact optMinus_other c _ (digit_ne c '-' (ha c (by simp)) (by decide))
  rw [intStr_pos hm, (takeDigits a t ha ht).1, (takeDigits a t ha ht).2, if_neg hne]

theorem numCore_lit {l t : List Char} {y : ℚ} (h : Literal l y)
    (ht : ∀ c, t.head? = some c → isAlnum c = false ∧ isDigit c = false ∧ c ≠ '.') : numCore (l ++ t) = .ok y t := by
  have hex : expo t = none := expo_none t fun c hc => (ht c hc).1
  have htd : ∀ c, t.head? = some c → isDigit c = false := fun c hc => (ht c hc).2.1
  unfold numCore
  cases h with
  | whole a hne hd =>
    rw [longNum_whole hd hne fun c hc => (ht c hc).2]
    dsimp only
    rw [intStr_whole hd hne htd, hex]
  | wholeExp a e m ds hne hd he hne' hd' =>
    have e1 : a ++ e :: (if m then '-' :: ds else ds) ++ t = a ++ (e :: ((if m then '-' :: ds else ds) ++ t)) := by simp
    have hh : ∀ c, (e :: ((if m then '-' :: ds else ds) ++ t)).head? = some c → isDigit c = false ∧ c ≠ '.' := by
      intro c hc
      simp only [List.head?_cons, Option.some.injEq] at hc
      subst hc
      rcases he with rfl | rfl <;> decide
    rw [e1, longNum_whole hd hne hh]
    dsimp only
    rw [intStr_whole hd hne fun c hc => (hh c hc).1, expo_some e m ds t he hne' hd' htd]
  | point a b ha hb hab =>
    have e1 : a ++ '.' :: b ++ t = a ++ '.' :: (b ++ t) := by simp
    rw [e1, longNum_dec a b t ha hb hab htd, hex]
  | pointExp a b e m ds ha hb hab he hne hd =>
    have e1 : a ++ '.' :: (b ++ e :: (if m then '-' :: ds else ds)) ++ t =
        a ++ '.' :: (b ++ (e :: ((if m then '-' :: ds else ds) ++ t))) := by simp
    have hh : ∀ c, (e :: ((if m then '-' :: ds else ds) ++ t)).head? = some c → isDigit c = false := by
      intro c hc
      simp only [List.head?_cons, Option.some.injEq] at hc
      subst hc
      rcases he with rfl | rfl <;> decide
    rw [e1, longNum_dec a b _ ha hb hab hh, expo_some e m ds t he hne hd htd]

theorem numP_of {v rest : List Char} {x : ℚ} (h : NumText v x) :
    ∃ q, Ws q ∧ numP (v ++ ';' :: rest) = .ok x (q ++ ';' :: rest) := by
  obtain ⟨p, l, q, y, hp, hq, hl, h⟩ := h
  refine ⟨q, hq, ?_⟩
  change numCore (skip (v ++ ';' :: rest)) = _
  rcases h with ⟨rfl, rfl⟩ | ⟨rfl, rfl⟩
  · rw [List.append_assoc, List.append_assoc, skip_ws p _ hp, literal_skip hl, numCore_lit hl (tail_head hq)]
  · rw [List.append_assoc, List.cons_append, List.append_assoc, skip_ws p _ hp, skip_cons '-' _ (by decide),
      numCore_neg (literal_minus hl _), numCore_lit hl (tail_head hq)]
    rfl

theorem ratP_eq (s : List Char) : ratP s = numP s := by
  unfold ratP
  cases numP s <;> rfl

/-! ### Symbols -/

theorem longestKey_some {T : List (List Char × String)} {s k : List Char} {n : String}
    (h : longestKey T s = some (k, n)) : (k, n) ∈ T ∧ (∃ r, s = k ++ r) ∧
      ∀ k' n', (k', n') ∈ T → (∃ r, s = k' ++ r) → k'.length ≤ k.length := by
  induction T generalizing k n with
  | nil => cases h
  | cons a T ih =>
    obtain ⟨k0, n0⟩ := a
    rw [longestKey] at h
    split_ifs at h with h0
    · obtain ⟨r0, hr0⟩ := Option.isSome_iff_exists.1 h0
      have e0 := eatStr_eq _ _ _ hr0
      cases hl : longestKey T s with
      | none =>
        rw [hl] at h
        simp only [Option.some.injEq, Prod.mk.injEq] at h
        obtain ⟨rfl, rfl⟩ := h
        refine ⟨by simp, ⟨r0, e0⟩, fun k' n' hm hk' => ?_⟩
        rcases List.mem_cons.1 hm with hm | hm
        · simp only [Prod.mk.injEq] at hm
          rw [hm.1]
        · exfalso
          obtain ⟨r, hr⟩ := hk'
          clear ih
          induction T with
          | nil => cases hm
          | cons b T ih =>
            obtain ⟨k1, n1⟩ := b
            rw [longestKey] at hl
            split_ifs at hl with h1
            · split at hl
              · split_ifs at hl
              · cases hl
            · rcases List.mem_cons.1 hm with hm | hm
              · simp only [Prod.mk.injEq] at hm
                rw [← hm.1, hr, eatStr_append] at h1
                exact h1 rfl
              · exact ih hl (by simp [hm]) hm
      | some q =>
        obtain ⟨k1, n1⟩ := q
        rw [hl] at h
        dsimp only at h
        obtain ⟨i1, i2, i3⟩ := ih hl
        split_ifs at h with hlen
        · simp only [Option.some.injEq, Prod.mk.injEq] at h
          obtain ⟨rfl, rfl⟩ := h
          refine ⟨by simp [i1], i2, fun k' n' hm hk' => ?_⟩
          rcases List.mem_cons.1 hm with hm | hm
          · simp only [Prod.mk.injEq] at hm
            rw [hm.1]; omega
          · exact i3 k' n' hm hk'
        · simp only [Option.some.injEq, Prod.mk.injEq] at h
          obtain ⟨rfl, rfl⟩ := h
          refine ⟨by simp, ⟨r0, e0⟩, fun k' n' hm hk' => ?_⟩
          rcases List.mem_cons.1 hm with hm | hm
          · simp only [Prod.mk.injEq] at hm
            rw [hm.1]
          · have := i3 k' n' hm hk'
            omega
    · obtain ⟨i1, i2, i3⟩ := ih h
      refine ⟨by simp [i1], i2, fun k' n' hm hk' => ?_⟩
      rcases List.mem_cons.1 hm with hm | hm
      · simp only [Prod.mk.injEq] at hm
        obtain ⟨r, hr⟩ := hk'
        rw [← hm.1, hr, eatStr_append] at h0
        exact absurd rfl h0
      · exact i3 k' n' hm hk'

theorem longestKey_none {T : List (List Char × String)} {s : List Char} (h : longestKey T s = none) :
    ∀ k n, (k, n) ∈ T → ¬ ∃ r, s = k ++ r := by
  induction T with
  | nil => intro k n hm; cases hm
  | cons b T ih =>
    obtain ⟨k1, n1⟩ := b
    rw [longestKey] at h
    split_ifs at h with h1
    · split at h
      · split_ifs at h
      · cases h
    · rintro k n hm ⟨r, hr⟩
      rcases List.mem_cons.1 hm with hm | hm
      · simp only [Prod.mk.injEq] at hm
        rw [← hm.1, hr, eatStr_append] at h1
        exact h1 rfl
      · exact ih h k n hm ⟨r, hr⟩

/-- The keys of a table: distinct texts, without white space and semicolons, not empty. -/
def KeysOk (T : List (List Char × String)) : Prop :=
  (∀ k n, (k, n) ∈ T → k ≠ [] ∧ ∀ c ∈ k, isSpace c = false ∧ c ≠ ';') ∧
    ∀ k n n', (k, n) ∈ T → (k, n') ∈ T → n = n'

theorem symP_ok {T : List (List Char × String)} {s r : List Char} {n : String} (h : symP T s = .ok n r) :
    ∃ p k, Ws p ∧ (k, n) ∈ T ∧ s = p ++ (k ++ r) := by
  obtain ⟨p, hp, e⟩ := skip_eq s
  unfold symP at h
  cases hl : longestKey T (skip s) with
  | none => rw [hl] at h; cases h
  | some q =>
    obtain ⟨k, n'⟩ := q
    rw [hl] at h
    simp only [V.ok.injEq] at h
    obtain ⟨rfl, rfl⟩ := h
    obtain ⟨h1, ⟨r, hr⟩, -⟩ := longestKey_some hl
    refine ⟨p, k, hp, h1, ?_⟩
    rw [hr, List.drop_left, ← hr]
    exact e

theorem symP_of {T : List (List Char × String)} (hT : KeysOk T) {p k q rest : List Char} {n : String} (hm : (k, n) ∈ T)
    (hp : Ws p) (hq : Ws q) : symP T (p ++ (k ++ q) ++ ';' :: rest) = .ok n (q ++ ';' :: rest) := by
  obtain ⟨hne, hk⟩ := hT.1 k n hm
  have hs : skip (p ++ (k ++ q) ++ ';' :: rest) = k ++ (q ++ ';' :: rest) := by
    rw [List.append_assoc, skip_ws p _ hp, List.append_assoc]
    cases k with
    | nil => exact absurd rfl hne
    | cons c k => exact skip_cons c _ (hk c (by simp)).1
  unfold symP
  rw [hs]
  cases hl : longestKey T (k ++ (q ++ ';' :: rest)) with
  | none => exact absurd ⟨_, rfl⟩ (longestKey_none hl k n hm)
  | some a =>
    obtain ⟨k', n'⟩ := a
    obtain ⟨h1, ⟨r, hr⟩, h3⟩ := longestKey_some hl
    have hle := h3 k n hm ⟨_, rfl⟩
    have hkk : k' = k := by
      rcases List.append_eq_append_iff.1 hr with ⟨a, e1, e2⟩ | ⟨a, e1, e2⟩
      · cases a with
        | nil => simpa using e1
        | cons d a =>
          exfalso
          have hd := (hT.1 k' n' h1).2 d (by rw [e1]; simp)
          cases q with
          | nil =>
            simp only [List.nil_append, List.cons_append, List.cons.injEq] at e2
            exact hd.2 e2.1.symm
          | cons f q =>
            simp only [List.cons_append, List.cons.injEq] at e2
            have := hq f (by simp)
            rw [e2.1, hd.1] at this
            cases this
      · have : k.length = k'.length + a.length := by rw [e1]; simp
        have ha : a = [] := List.eq_nil_of_length_eq_zero (by omega)
        rw [ha] at e1
        simpa using e1.symm
    subst hkk
    rw [hT.2 k' n n' hm h1]
    simp

/-! ### All kinds but variable names -/

/-- Not the name of a variable; tables of symbols are in order. -/
def KindOk : Kind → Prop
  | .sym T => KeysOk T
  | .var => False
  | _ => True

theorem digit_semi {ds : List Char} (hd : Digits ds) : ';' ∉ ds := fun h => absurd (hd _ h) (by decide)

theorem ws_semi {p : List Char} (hp : Ws p) : ';' ∉ p := fun h => absurd (hp _ h) (by decide)

theorem literal_semi {l : List Char} {y : ℚ} (h : Literal l y) : ';' ∉ l := by
  have hexp : ∀ (e : Char) (m : Bool) (ds : List Char), (e = 'e' ∨ e = 'E') → Digits ds →
      ';' ∉ e :: (if m then '-' :: ds else ds) := by
    intro e m ds he hd hm
    rcases List.mem_cons.1 hm with h | h
    · rcases he with rfl | rfl <;> revert h <;> decide
    · cases m
      · exact digit_semi hd (by simpa using h)
      · exact digit_semi hd (by simpa using h)
  cases h with
  | whole a hne hd => exact digit_semi hd
  | wholeExp a e m ds hne hd he hne' hd' =>
    intro hm
    rcases List.mem_append.1 hm with h | h
    · exact digit_semi hd h
    · exact hexp e m ds he hd' h
  | point a b ha hb hab =>
    intro hm
    rcases List.mem_append.1 hm with h | h
    · exact digit_semi ha h
    · rcases List.mem_cons.1 h with h | h
      · revert h; decide
      · exact digit_semi hb h
  | pointExp a b e m ds ha hb hab he hne hd =>
    intro hm
    rcases List.mem_append.1 hm with h | h
    · exact digit_semi ha h
    · rcases List.mem_cons.1 h with h | h
      · revert h; decide
      · rcases List.mem_append.1 h with h | h
        · exact digit_semi hb h
        · exact hexp e m ds he hd h

theorem val_accepts {k : Kind} (hk : KindOk k) {v : List Char} {x : Value} (h : Denotes false k v x)
    (j rest : List Char) : ∃ q, Ws q ∧ parseVal k j (v ++ ';' :: rest) = .ok x (q ++ ';' :: rest) := by
  have hint : ∀ n : ℤ, IntText v n → -2 ^ 31 ≤ n → n < 2 ^ 31 →
      ∃ q, Ws q ∧ intP (v ++ ';' :: rest) = .ok n (q ++ ';' :: rest) := by
    rintro n ⟨p, sg, ds, q, rfl, hp, hq, hd, hne, hn⟩ h1 h2
    refine ⟨q, hq, ?_⟩
    have := intP_of (p := p) (sg := sg) (t := q ++ ';' :: rest) hp hd hne hn h1 h2 (fun c hc => (tail_head hq c hc).2.1)
    simpa using this
  cases h with
  | uint _ n h hlt =>
    obtain ⟨p, ds, q, rfl, hp, hq, hd, hne, rfl⟩ := h
    refine ⟨q, hq, ?_⟩
    have := uintP_of (p := p) (t := q ++ ';' :: rest) hp hd hne hlt (fun c hc => (tail_head hq c hc).2.1)
    simp only [List.append_assoc, parseVal] at this ⊢
    rw [this]
    rfl
  | int _ n h h1 h2 =>
    obtain ⟨q, hq, e⟩ := hint n h h1 h2
    exact ⟨q, hq, by simp [parseVal, e, V.map]⟩
  | intU _ n h h1 h2 =>
    obtain ⟨q, hq, e⟩ := hint n h h1 h2
    exact ⟨q, hq, by simp [parseVal, e, V.map]⟩
  | bool _ n h h1 h2 =>
    obtain ⟨q, hq, e⟩ := hint n h h1 h2
    exact ⟨q, hq, by simp [parseVal, e, V.map]⟩
  | num _ x h =>
    obtain ⟨q, hq, e⟩ := numP_of (rest := rest) h
    exact ⟨q, hq, by simp [parseVal, e, V.map]⟩
  | rational _ x h =>
    obtain ⟨q, hq, e⟩ := numP_of (rest := rest) h
    exact ⟨q, hq, by simp [parseVal, ratP_eq, e, V.map]⟩
  | sym T k n p q hm hp hq =>
    refine ⟨q, hq, ?_⟩
    unfold parseVal
    dsimp only
    rw [symP_of hk hm hp hq]
    rfl
  | fraction v v' x y h => cases h
  | var => exact hk.elim

theorem val_sound {k : Kind} (hk : KindOk k) {v : List Char} (hv : ';' ∉ v) {x : Value} {j r rest rest' : List Char}
    (h : parseVal k j (v ++ ';' :: rest) = .ok x r) (he : eat ';' r = some rest') :
    rest' = rest ∧ Denotes false k v x := by
  have fin : ∀ c : List Char, ';' ∉ c → v ++ ';' :: rest = c ++ r → ∃ q, v = c ++ q ∧ Ws q ∧ rest' = rest := by
    intro c hc e
    obtain ⟨q, e1, e2⟩ := split_semi e hc
    rw [e2] at he
    have := semi_end (fun hm => hv (by rw [e1]; exact List.mem_append_right _ hm)) he
    exact ⟨q, e1, this.1, this.2⟩
  have hint : ∀ n : ℤ, intP (v ++ ';' :: rest) = .ok n r → rest' = rest ∧ IntText v n ∧ -2 ^ 31 ≤ n ∧ n < 2 ^ 31 := by
    intro n hn
    obtain ⟨p, sg, ds, hp, hd, hne, e, hsg, h1, h2⟩ := intP_ok hn
    obtain ⟨q, e1, hq, e2⟩ := fin (p ++ (sg ++ ds)) (by
      intro hm
      rcases List.mem_append.1 hm with hm | hm
      · exact ws_semi hp hm
      · rcases List.mem_append.1 hm with hm | hm
        · rcases hsg with ⟨rfl | rfl, -⟩ | ⟨rfl, -⟩ <;> revert hm <;> decide
        · exact digit_semi hd hm) (by simpa using e)
    exact ⟨e2, ⟨p, sg, ds, q, by simpa using e1, hp, hq, hd, hne, hsg⟩, h1, h2⟩
  have hnum : ∀ y : ℚ, numP (v ++ ';' :: rest) = .ok y r → rest' = rest ∧ NumText v y := by
    intro y hy
    obtain ⟨p, l, z, hp, hl, e⟩ := numP_ok hy
    rcases e with ⟨e, rfl⟩ | ⟨e, rfl⟩
    · obtain ⟨q, e1, hq, e2⟩ := fin (p ++ l) (by
        intro hm
        rcases List.mem_append.1 hm with hm | hm
        · exact ws_semi hp hm
        · exact literal_semi hl hm) (by simpa using e)
      exact ⟨e2, p, l, q, y, hp, hq, hl, Or.inl ⟨by simpa using e1, rfl⟩⟩
    · obtain ⟨q, e1, hq, e2⟩ := fin (p ++ '-' :: l) (by
        intro hm
        rcases List.mem_append.1 hm with hm | hm
        · exact ws_semi hp hm
        · rcases List.mem_cons.1 hm with hm | hm
          · revert hm; decide
          · exact literal_semi hl hm) (by simpa using e)
      exact ⟨e2, p, l, q, z, hp, hq, hl, Or.inr ⟨by simpa using e1, rfl⟩⟩
  have hmap : ∀ {α : Type} (f : α → Value) (P : V α), P.map f = .ok x r → ∃ a, P = .ok a r ∧ f a = x := by
    intro α f P hP
    cases P with
    | fail => cases hP
    | err => cases hP
    | ok a r' =>
      simp only [V.map, V.ok.injEq] at hP
      exact ⟨a, by rw [hP.2], hP.1⟩
  unfold parseVal at h
  cases k with
  | uint =>
    obtain ⟨n, hn, rfl⟩ := hmap _ _ h
    obtain ⟨p, ds, hp, hd, hne, e, rfl, hlt⟩ := uintP_ok hn
    obtain ⟨q, e1, hq, e2⟩ := fin (p ++ ds) (by
      intro hm
      rcases List.mem_append.1 hm with hm | hm
      · exact ws_semi hp hm
      · exact digit_semi hd hm) (by simpa using e)
    exact ⟨e2, .uint _ _ ⟨p, ds, q, by simpa using e1, hp, hq, hd, hne, rfl⟩ hlt⟩
  | int =>
    obtain ⟨n, hn, rfl⟩ := hmap _ _ h
    obtain ⟨a, b, c, d⟩ := hint n hn
    exact ⟨a, .int _ _ b c d⟩
  | intU =>
    obtain ⟨n, hn, rfl⟩ := hmap _ _ h
    obtain ⟨a, b, c, d⟩ := hint n hn
    exact ⟨a, .intU _ _ b c d⟩
  | bool =>
    obtain ⟨n, hn, rfl⟩ := hmap _ _ h
    obtain ⟨a, b, c, d⟩ := hint n hn
    exact ⟨a, .bool _ _ b c d⟩
  | num =>
    obtain ⟨n, hn, rfl⟩ := hmap _ _ h
    obtain ⟨a, b⟩ := hnum n hn
    exact ⟨a, .num _ _ b⟩
  | rational =>
    obtain ⟨n, hn, rfl⟩ := hmap _ _ h
    rw [ratP_eq] at hn
    obtain ⟨a, b⟩ := hnum n hn
    exact ⟨a, .rational _ _ b⟩
  | sym T =>
    obtain ⟨n, hn, rfl⟩ := hmap _ _ h
    obtain ⟨p, k, hp, hm, e⟩ := symP_ok hn
    obtain ⟨q, e1, hq, e2⟩ := fin (p ++ k) (by
      intro hmm
      rcases List.mem_append.1 hmm with hmm | hmm
      · exact ws_semi hp hmm
      · exact ((hk.1 k n hm).2 _ hmm).2 rfl) (by simpa using e)
    refine ⟨e2, ?_⟩
    rw [e1, List.append_assoc]
    exact .sym T k n p q hm hp hq
  | var => exact hk.elim

end B2.Parse.Config
