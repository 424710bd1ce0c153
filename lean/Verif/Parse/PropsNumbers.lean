/-
C118: reading real numbers.  C119: reading complex numbers.  C120: reading back what was written.
-/
import Verif.Parse.Numbers
import Verif.Parse.ConfigValues

namespace B2.Parse.Numbers

open B2.Parse B2.Parse.Config

/-! ### C118 -/

/-- Specification: the text `l` is a decimal number with optional minus sign, of value `x`. -/
def Signed (l : List Char) (x : ℚ) : Prop :=
  ∃ m y, Literal m y ∧ (l = m ∧ x = y ∨ l = '-' :: m ∧ x = -y)

/-- What may follow a number without being read as part of it. -/
def Ends (t : List Char) : Prop := ∀ c, t.head? = some c → isAlnum c = false ∧ isDigit c = false ∧ c ≠ '.'

theorem signed_head {l : List Char} {x : ℚ} (h : Signed l x) : ∃ c r, l = c :: r ∧ isSpace c = false := by
  obtain ⟨m, y, hl, ⟨rfl, -⟩ | ⟨rfl, -⟩⟩ := h
  · obtain ⟨c, r, e, hc⟩ := literal_head hl
    refine ⟨c, r, e, ?_⟩
    rcases hc with hc | rfl
    · exact digit_space hc
    · decide
  · exact ⟨'-', m, rfl, by decide⟩

theorem numP_signed {p l t : List Char} {x : ℚ} (hp : Ws p) (h : Signed l x) (ht : Ends t) :
    numP (p ++ (l ++ t)) = .ok x t ∧ skip (p ++ (l ++ t)) = l ++ t := by
  have hs : skip (p ++ (l ++ t)) = l ++ t := by
    obtain ⟨c, r, rfl, hc⟩ := signed_head h
    rw [skip_ws p _ hp]
    exact skip_cons c _ hc
  refine ⟨?_, hs⟩
  change numCore (skip (p ++ (l ++ t))) = _
  rw [hs]
  obtain ⟨m, y, hl, ⟨rfl, rfl⟩ | ⟨rfl, rfl⟩⟩ := h
  · exact numCore_lit hl ht
  · rw [List.cons_append, numCore_neg (literal_minus hl _), numCore_lit hl ht]
    rfl

theorem numP_inv {s r : List Char} {v : ℚ} (h : numP s = .ok v r) :
    ∃ p l, Ws p ∧ Signed l v ∧ s = p ++ (l ++ r) := by
  obtain ⟨p, l, y, hp, hl, ⟨e, rfl⟩ | ⟨e, rfl⟩⟩ := numP_ok h
  · exact ⟨p, l, hp, ⟨l, _, hl, Or.inl ⟨rfl, rfl⟩⟩, e⟩
  · exact ⟨p, '-' :: l, hp, ⟨l, y, hl, Or.inr ⟨rfl, rfl⟩⟩, by simpa using e⟩

theorem ends_ws {q : List Char} (hq : Ws q) : Ends q := by
  intro c hc
  cases q with
  | nil => cases hc
  | cons d q =>
    simp only [List.head?_cons, Option.some.injEq] at hc
    subst hc
    have := hq d (by simp)
    unfold isSpace at this
    simp only [Bool.or_eq_true, decide_eq_true_eq] at this
    rcases this with ((((h | h) | h) | h) | h) | h <;> subst h <;> decide

theorem ends_ws_append {q t : List Char} (hq : Ws q) (hne : q ≠ []) : Ends (q ++ t) := by
  intro c hc
  refine ends_ws hq c ?_
  cases q with
  | nil => exact absurd rfl hne
  | cons d q => exact hc

theorem skip_of_ws {q : List Char} (hq : Ws q) : skip q = [] := by
  have := skip_ws q [] hq
  simpa [skip] using this

/-- **C118**: a text is read as a real number exactly when it is a decimal number with optional minus sign and white space
around it; the value is that number and the precision is the default precision, at least 20 digits and at least the length
of the number.  The parser throws exactly for texts that begin with two minus signs and a digit; all others are refused. -/
theorem C118 (dflt : ℕ) (s : List Char) :
    (∀ x P, parseFloat dflt s = .yes ⟨x, P⟩ ↔
      ∃ p l q, Ws p ∧ Ws q ∧ Signed l x ∧ s = p ++ (l ++ q) ∧ P = max l.length (max dflt 20)) ∧
    (parseFloat dflt s = .throws ↔
      ∃ p d r, Ws p ∧ isDigit d = true ∧ s = p ++ ('-' :: '-' :: d :: r)) := by
  constructor
  · intro x P
    constructor
    · intro h
      unfold parseFloat mpfrFloat at h
      cases hn : numP s with
      | fail => rw [hn] at h; cases h
      | err => rw [hn] at h; cases h
      | ok v r =>
        rw [hn] at h
        simp only [whole] at h
        by_cases hr : skip r = []
        · rw [if_pos hr] at h
          cases h
          obtain ⟨p, l, hp, hl, rfl⟩ := numP_inv hn
          refine ⟨p, l, r, hp, skip_nil_ws hr, hl, rfl, ?_⟩
          rw [(numP_signed hp hl (ends_ws (skip_nil_ws hr))).2]
          simp [lowest]
        · rw [if_neg hr] at h; cases h
    · rintro ⟨p, l, q, hp, hq, hl, rfl, rfl⟩
      unfold parseFloat mpfrFloat
      obtain ⟨h1, h2⟩ := numP_signed hp hl (ends_ws hq)
      rw [h1, h2]
      simp [whole, skip_of_ws hq, lowest]
  · obtain ⟨p, hp, e⟩ := skip_eq s
    have key : parseFloat dflt s = .throws ↔ numCore (skip s) = .err := by
      unfold parseFloat mpfrFloat
      change (whole (match numCore (skip s) with | .fail => _ | .err => _ | .ok v r => _)) = _ ↔ _
      cases numCore (skip s) with
      | fail => simp [whole]
      | err => simp [whole]
      | ok v r => simp only [whole]; split <;> simp
    rw [key]
    constructor
    · intro h
      unfold numCore at h
      cases hl : longNum (skip s) with
      | some a => rw [hl] at h; cases h
      | none =>
        rw [hl] at h
        simp only [intStr] at h
        by_cases h1 : (optMinus (optMinus (skip s)).2).2.takeWhile isDigit = []
        · rw [if_pos h1] at h; cases h
        rw [if_neg h1] at h
        by_cases h2 : (optMinus (skip s)).1 = true ∧ (optMinus (optMinus (skip s)).2).1 = true
        · have inv : ∀ x : List Char, (optMinus x).1 = true → x = '-' :: (optMinus x).2 := by
            intro x hx
            unfold optMinus at hx ⊢
            split at hx
            · rfl
            · cases hx
          have e1 := inv _ h2.1
          have e2 := inv _ h2.2
          cases hd : (optMinus (optMinus (skip s)).2).2 with
          | nil => rw [hd] at h1; exact absurd rfl h1
          | cons d r =>
            refine ⟨p, d, r, hp, ?_, ?_⟩
            · by_contra hc
              rw [hd] at h1
              exact h1 (by simp [hc])
            · rw [e, e1, e2, hd]
        · rw [if_neg h2] at h
          split at h <;> cases h
    · rintro ⟨p', d, r, hp', hd, rfl⟩
      rw [skip_ws p' _ hp', skip_cons '-' _ (by decide)]
      have h1 : longNum ('-' :: '-' :: d :: r) = none := rfl
      have h2 : intStr ('-' :: '-' :: d :: r) = .err := by
        have e1 : optMinus ('-' :: '-' :: d :: r) = (true, '-' :: d :: r) := rfl
        have e2 : optMinus ('-' :: d :: r) = (true, d :: r) := rfl
        simp [intStr, e1, e2, hd]
      unfold numCore
      rw [h1]
      exact h2

/-- Witnesses: `-.5e3` with 30 digits, `--5` throws, `1e+5` is refused. -/
example : parseFloat 30 ['-', '.', '5', 'e', '3'] = .yes ⟨-500, 30⟩ ∧ parseFloat 30 ['-', '-', '5'] = .throws ∧
    parseFloat 30 ['1', 'e', '+', '5'] = .no := by decide +kernel

/-! ### C119 -/

/-- **C119, full statement**: the texts read as a complex number are two numbers separated by white space, with white
space around them, and the result has these numbers as real and imaginary part. -/
def C119_full : Prop :=
  ∀ (dflt : ℕ) (s : List Char) (x y : ℚ), (∃ P, parseComplex dflt s = .yes (⟨x, P⟩, ⟨y, P⟩)) ↔
    ∃ p a w b q, Ws p ∧ Ws w ∧ w ≠ [] ∧ Ws q ∧ Signed a x ∧ Signed b y ∧ s = p ++ (a ++ (w ++ (b ++ q)))

/-- **C119, partial**: all such texts are read, with these parts, at a precision of the default, 20 digits and the lengths
of the two numbers, whichever is largest; conversely every text that is read consists of two numbers with white space
around them.  Missing: that there is white space between the two. -/
theorem C119_partial (dflt : ℕ) (s : List Char) :
    (∀ p a w b q x y, Ws p → Ws w → w ≠ [] → Ws q → Signed a x → Signed b y → s = p ++ (a ++ (w ++ (b ++ q))) →
      parseComplex dflt s = .yes (⟨x, max (max a.length b.length) (max dflt 20)⟩,
        ⟨y, max (max a.length b.length) (max dflt 20)⟩)) ∧
    (∀ z z', parseComplex dflt s = .yes (z, z') → z.prec = z'.prec ∧ dflt ≤ z.prec ∧ 20 ≤ z.prec ∧
      ∃ p a w b q, Ws p ∧ Ws w ∧ Ws q ∧ Signed a z.val ∧ Signed b z'.val ∧ s = p ++ (a ++ (w ++ (b ++ q)))) := by
  constructor
  · rintro p a w b q x y hp hw hne hq ha hb rfl
    obtain ⟨h1, h2⟩ := numP_signed hp ha (ends_ws_append (t := b ++ q) hw hne)
    obtain ⟨h3, h4⟩ := numP_signed hw hb (ends_ws hq)
    unfold parseComplex mpfrComplex mpfrFloat
    rw [h1]
    dsimp only
    rw [h3, h2]
    dsimp only
    rw [h4]
    simp only [whole, skip_of_ws hq, if_true, List.length_append, lowest, Nat.add_sub_cancel_right]
    have : max (max a.length (max dflt 20)) (max b.length (max dflt 20)) =
        max (max a.length b.length) (max dflt 20) := by omega
    rw [this]
  · intro z z' h
    unfold parseComplex mpfrComplex mpfrFloat at h
    cases hn : numP s with
    | fail => rw [hn] at h; cases h
    | err => rw [hn] at h; cases h
    | ok v r =>
      rw [hn] at h
      dsimp only at h
      cases hn' : numP r with
      | fail => rw [hn'] at h; cases h
      | err => rw [hn'] at h; cases h
      | ok v' r' =>
        rw [hn'] at h
        simp only [whole] at h
        by_cases hr : skip r' = []
        · rw [if_pos hr] at h
          cases h
          obtain ⟨p, l, hp, hl, rfl⟩ := numP_inv hn
          obtain ⟨p', l', hp', hl', rfl⟩ := numP_inv hn'
          refine ⟨rfl, ?_, ?_, p, l, p', l', r', hp, hp', skip_nil_ws hr, hl, hl', rfl⟩ <;> simp only [lowest] <;> omega
        · rw [if_neg hr] at h; cases h

/-- **C119 fails**: `3-2` is read as the complex number 3 - 2i. -/
theorem C119_refuted : ¬ C119_full := by
  intro h
  have h1 : parseComplex 20 ['3', '-', '2'] = .yes (⟨3, 20⟩, ⟨-2, 20⟩) := by decide +kernel
  obtain ⟨p, a, w, b, q, -, hw, hne, -, -, -, e⟩ := (h 20 ['3', '-', '2'] 3 (-2)).1 ⟨20, h1⟩
  cases w with
  | nil => exact hne rfl
  | cons c w =>
    have hc := hw c (by simp)
    have : c ∈ ['3', '-', '2'] := by rw [e]; simp
    simp only [List.mem_cons, List.not_mem_nil, or_false] at this
    rcases this with rfl | rfl | rfl <;> revert hc <;> decide

/-- `-1.5 2e-1` is -1.5 + 0.2i. -/
example : parseComplex 16 ['-', '1', '.', '5', ' ', '2', 'e', '-', '1'] = .yes (⟨-3 / 2, 20⟩, ⟨1 / 5, 20⟩) := by
  decide +kernel

/-! ### C120 -/

/-- The value of a printed number. -/
def Dec.val : Dec → ℚ
  | .zero => 0
  | .num neg ds e => (if neg then -1 else 1) * ((natOf ds : ℚ) * (10 : ℚ) ^ (e - ((ds.length : ℤ) - 1)))

/-- The digits of a non-zero number: at least one, the first not zero. -/
def Dec.Ok : Dec → Prop
  | .zero => True
  | .num _ ds _ => Digits ds ∧ ∃ c r, ds = c :: r ∧ c ≠ '0'

/-- Is the number printed without a positive exponent. -/
def Dec.Moderate : Dec → Prop
  | .zero => True
  | .num _ ds e => e < max ds.length 16

/-- **C120, full statement**: what is written for a number is read back as that number, real or complex. -/
def C120_full : Prop :=
  ∀ (dflt : ℕ) (x y : Dec), x.Ok → y.Ok →
    (∃ P, parseFloat dflt (genFloat x) = .yes ⟨x.val, P⟩) ∧
    ∃ P, parseComplex dflt (genComplex x y) = .yes (⟨x.val, P⟩, ⟨y.val, P⟩)

theorem natOf_append_zeros (l : List Char) (k : ℕ) : natOf (l ++ List.replicate k '0') = natOf l * 10 ^ k := by
  induction k with
  | zero => simp
  | succ k ih =>
    rw [List.replicate_succ', ← List.append_assoc, natOf_snoc, ih, pow_succ]
    have : '0'.toNat - '0'.toNat = 0 := by decide
    rw [this]
    ring

theorem natOf_zeros_append (l : List Char) (k : ℕ) : natOf (List.replicate k '0' ++ l) = natOf l := by
  induction l using List.reverseRecOn with
  | nil =>
    have := natOf_append_zeros [] k
    simpa [natOf] using this
  | append_singleton l c ih => rw [← List.append_assoc, natOf_snoc, ih, natOf_snoc]

theorem trim_spec (ds : List Char) : ds = trim ds ++ List.replicate (ds.length - (trim ds).length) '0' := by
  unfold trim
  have h := List.takeWhile_append_dropWhile (p := fun c => decide (c = '0')) (l := ds.reverse)
  have h2 : ds = (ds.reverse.dropWhile fun c => c = '0').reverse ++ (ds.reverse.takeWhile fun c => c = '0').reverse := by
    rw [← List.reverse_append, h, List.reverse_reverse]
  have h3 : (ds.reverse.takeWhile fun c => c = '0').reverse =
      List.replicate (ds.length - ((ds.reverse.dropWhile fun c => c = '0').reverse).length) '0' := by
    rw [List.eq_replicate_iff]
    constructor
    · have := congrArg List.length h2
      simp only [List.length_append] at this
      omega
    · intro c hc
      rw [List.mem_reverse] at hc
      have := List.mem_takeWhile_imp hc
      simpa using this
  rw [← h3]
  exact h2

theorem trim_ne {ds : List Char} (h : ∃ c r, ds = c :: r ∧ c ≠ '0') : trim ds ≠ [] := by
  intro e
  obtain ⟨c, r, h1, h2⟩ := h
  have := trim_spec ds
  rw [e, List.nil_append, h1] at this
  have hm : c ∈ List.replicate ((c :: r).length - ([] : List Char).length) '0' := by rw [← this]; simp
  exact h2 (List.eq_of_mem_replicate hm)

theorem natOf_trim (ds : List Char) : natOf ds = natOf (trim ds) * 10 ^ (ds.length - (trim ds).length) := by
  conv_lhs => rw [trim_spec ds]
  exact natOf_append_zeros _ _

theorem trim_len (ds : List Char) : (trim ds).length ≤ ds.length := by
  have := congrArg List.length (trim_spec ds)
  simp only [List.length_append] at this
  omega

theorem trim_digits {ds : List Char} (h : Digits ds) : Digits (trim ds) := by
  intro c hc
  refine h c ?_
  rw [trim_spec ds]
  exact List.mem_append_left _ hc

theorem val_trim (ds : List Char) (e : ℤ) : (natOf ds : ℚ) * (10 : ℚ) ^ (e - ((ds.length : ℤ) - 1)) =
    (natOf (trim ds) : ℚ) * (10 : ℚ) ^ (e - (((trim ds).length : ℤ) - 1)) := by
  have h := trim_len ds
  rw [natOf_trim ds]
  push_cast
  rw [mul_assoc]
  congr 1
  rw [← zpow_natCast, ← zpow_add₀ (by norm_num)]
  congr 1
  rw [Nat.cast_sub h]
  ring

theorem expDigits_spec (n : ℕ) : Digits (expDigits n) ∧ expDigits n ≠ [] ∧ natOf (expDigits n) = n := by
  have hz : natOf ('0' :: showNat n) = natOf (showNat n) := natOf_zeros_append (showNat n) 1
  have hd := (showNat_numeral n).2.1
  unfold expDigits
  split_ifs
  · refine ⟨?_, by simp, by rw [hz, natOf_showNat]⟩
    intro c hc
    rcases List.mem_cons.1 hc with rfl | hc
    · decide
    · exact hd c hc
  · refine ⟨hd, ?_, natOf_showNat n⟩
    intro e
    have := natOf_showNat n
    rw [e] at this
    simp only [natOf, List.foldl_nil] at this
    omega

theorem body_literal {ds : List Char} {e : ℤ} (hd : Digits ds) (h0 : ∃ c r, ds = c :: r ∧ c ≠ '0')
    {lim : ℕ} (hm : e < lim) :
    ∃ l, Literal l ((natOf ds : ℚ) * (10 : ℚ) ^ (e - ((ds.length : ℤ) - 1))) ∧
      ∀ neg, fmt lim neg ds e = if neg then '-' :: l else l := by
  have ht := trim_digits hd
  have hne := trim_ne h0
  have hz : ∀ k, Digits (List.replicate k '0') := by
    intro k c hc
    rw [List.eq_of_mem_replicate hc]; decide
  have hda : ∀ {a b : List Char}, Digits a → Digits b → Digits (a ++ b) := by
    intro a b ha hb c hc
    rcases List.mem_append.1 hc with h | h
    · exact ha c h
    · exact hb c h
  have htake : ∀ k, Digits ((trim ds).take k) := fun k c hc => ht c (List.mem_of_mem_take hc)
  have hdrop : ∀ k, Digits ((trim ds).drop k) := fun k c hc => ht c (List.mem_of_mem_drop hc)
  have hlen : 0 < (trim ds).length := List.length_pos_of_ne_nil hne
  rw [val_trim]
  simp only [fmt]
  generalize trim ds = t at ht hne htake hdrop hlen
  by_cases h1 : -4 ≤ e
  · rw [if_pos ⟨h1, hm⟩]
    by_cases h2 : e < 0
    · rw [if_pos h2]
      refine ⟨_, ?_, fun _ => rfl⟩
      have := Literal.point ['0'] (List.replicate (-1 - e).toNat '0' ++ t) (hz 1) (hda (hz _) ht) (by simp)
      have e1 : natOf (['0'] ++ (List.replicate (-1 - e).toNat '0' ++ t)) = natOf t := by
        have := natOf_zeros_append t (1 + (-1 - e).toNat)
        rw [List.replicate_add] at this
        simpa using this
      rw [e1, List.cons_append, List.nil_append] at this
      convert this using 1
      rw [div_eq_mul_inv, List.length_append, List.length_replicate]
      congr 1
      rw [← zpow_natCast, ← zpow_neg]
      congr 1
      push_cast
      rw [Int.toNat_of_nonneg (by omega)]
      ring
    · rw [if_neg h2]
      by_cases h3 : t.length ≤ e.toNat + 1
      · rw [if_pos h3]
        refine ⟨_, ?_, fun _ => rfl⟩
        have := Literal.whole (t ++ List.replicate (e.toNat + 1 - t.length) '0') (by simp [hne]) (hda ht (hz _))
        convert this using 1
        rw [natOf_append_zeros]
        push_cast
        congr 1
        rw [← zpow_natCast]
        congr 1
        rw [Nat.cast_sub h3]
        push_cast
        rw [Int.toNat_of_nonneg (by omega)]
        ring
      · rw [if_neg h3]
        refine ⟨_, ?_, fun _ => rfl⟩
        have := Literal.point (t.take (e.toNat + 1)) (t.drop (e.toNat + 1)) (htake _) (hdrop _) (by
          rintro ⟨ha, -⟩
          have := congrArg List.length ha
          simp only [List.length_take, List.length_nil] at this
          omega)
        rw [List.take_append_drop] at this
        convert this using 1
        rw [div_eq_mul_inv, List.length_drop]
        congr 1
        rw [← zpow_natCast, ← zpow_neg]
        congr 1
        rw [Nat.cast_sub (by omega)]
        push_cast
        rw [Int.toNat_of_nonneg (by omega)]
        ring
  · rw [if_neg (fun h => h1 h.1), if_pos (show e < 0 by omega)]
    obtain ⟨d1, d2, d3⟩ := expDigits_spec e.natAbs
    have hx : -((natOf (expDigits e.natAbs) : ℕ) : ℤ) = e := by rw [d3]; omega
    by_cases h4 : 1 < t.length
    · rw [if_pos h4]
      refine ⟨_, ?_, fun _ => rfl⟩
      have := Literal.pointExp (t.take 1) (t.drop 1) 'e' true (expDigits e.natAbs) (htake _) (hdrop _) (by
          rintro ⟨ha, -⟩
          have := congrArg List.length ha
          simp only [List.length_take, List.length_nil] at this
          omega) (Or.inl rfl) d2 d1
      rw [List.take_append_drop] at this
      simp only [if_true, hx] at this
      rw [List.append_assoc, List.cons_append]
      convert this using 1
      rw [div_eq_mul_inv, mul_assoc]
      congr 1
      rw [List.length_drop, ← zpow_natCast, ← zpow_neg, ← zpow_add₀ (by norm_num)]
      congr 1
      rw [Nat.cast_sub (by omega)]
      push_cast
      ring
    · rw [if_neg h4]
      refine ⟨_, ?_, fun _ => rfl⟩
      have := Literal.wholeExp t 'e' true (expDigits e.natAbs) hne ht (Or.inl rfl) d2 d1
      simp only [if_true, hx] at this
      convert this using 1
      congr 2
      omega

theorem str_signed {x : Dec} (h : x.Ok) (hm : x.Moderate) : Signed (strOf x) x.val := by
  cases x with
  | zero =>
    have : Literal ['0'] (natOf ['0'] : ℕ) := .whole ['0'] (by simp) (by intro c hc; simp at hc; subst hc; decide)
    exact ⟨['0'], _, this, Or.inl ⟨rfl, by simp [Dec.val, natOf]⟩⟩
  | num neg ds e =>
    obtain ⟨l, h1, h2⟩ := body_literal (lim := max ds.length 16) h.1 h.2 (by exact_mod_cast hm)
    refine ⟨l, _, h1, ?_⟩
    rw [strOf, h2]
    cases neg
    · left; exact ⟨rfl, by simp [Dec.val]⟩
    · right; exact ⟨rfl, by simp [Dec.val]⟩

/-- **C120, partial**: numbers below 10 to the power of their number of digits (at least 16 digits), however small, are
read back.  Missing: larger numbers, for which it is false. -/
theorem C120_partial (dflt : ℕ) (x y : Dec) (hx : x.Ok) (hy : y.Ok) (mx : x.Moderate) (my : y.Moderate) :
    (∃ P, parseFloat dflt (genFloat x) = .yes ⟨x.val, P⟩) ∧
    ∃ P, parseComplex dflt (genComplex x y) = .yes (⟨x.val, P⟩, ⟨y.val, P⟩) := by
  have sx := str_signed hx mx
  have sy := str_signed hy my
  have n : Ws ([] : List Char) := by intro c hc; cases hc
  constructor
  · exact ⟨_, ((C118 dflt (genFloat x)).1 x.val _).2 ⟨[], strOf x, [], n, n, sx, by simp [genFloat], rfl⟩⟩
  · refine ⟨_, (C119_partial dflt (genComplex x y)).1 [] (strOf x) [' '] (strOf y) [] _ _ n ?_ (by simp) n sx sy
      (by simp [genComplex])⟩
    intro c hc; simp at hc; subst hc; decide

/-- **C120 fails**: a number of 20 digits and size 10^40 is written as `1e+40`, which is refused. -/
theorem C120_refuted : ¬ C120_full := by
  intro h
  obtain ⟨⟨P, h1⟩, -⟩ := h 20 (.num false ('1' :: List.replicate 19 '0') 40) .zero
    ⟨by intro c hc; rcases List.mem_cons.1 hc with rfl | hc
        · decide
        · rw [List.eq_of_mem_replicate hc]; decide, _, _, rfl, by decide⟩ trivial
  have e : parseFloat 20 (genFloat (.num false ('1' :: List.replicate 19 '0') 40)) = .no := by decide +kernel
  rw [e] at h1
  cases h1

/-- -12.5 and 3·10^-7, with 16 digits, are written as `-12.5 3e-07`. -/
example : genComplex (.num true ['1', '2', '5', '0'] 1) (.num false ['3'] (-7)) =
    ['-', '1', '2', '.', '5', ' ', '3', 'e', '-', '0', '7'] := by decide +kernel

end B2.Parse.Numbers
