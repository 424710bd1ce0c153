import Verif.Alg.Report
import Verif.Parse.PropsNumbers
import Mathlib.Tactic.Positivity
import Mathlib.Tactic.Linarith

/-!
# Property C173: the printed results can be read
-/

namespace B2.Alg.Report

open B2.Parse B2.Parse.Numbers

/-! ### Specification: what a text says -/

/-- The text `l` denotes the number `x`: a decimal number with optional minus sign, with a plus sign allowed before the
exponent. -/
def Reads (l : List Char) (x : ℚ) : Prop :=
  Signed l x ∨ ∃ u v, l = u ++ 'e' :: '+' :: v ∧ Signed (u ++ 'e' :: v) x

/-- The text denotes the complex number `x + iy`. -/
def ReadsC (l : List Char) (x y : ℚ) : Prop := ∃ a b, l = a ++ ' ' :: b ∧ Reads a x ∧ Reads b y

/-- The text denotes the natural number `n`. -/
def ReadsN (l : List Char) (n : ℕ) : Prop := l ≠ [] ∧ Digits l ∧ natOf l = n

/-- The text denotes the integer `z`. -/
def ReadsZ (l : List Char) (z : ℤ) : Prop :=
  ∃ m n, ReadsN m n ∧ (l = m ∧ z = n ∨ l = '-' :: m ∧ z = -(n : ℤ))

/-- The text denotes a number whose relative distance from the number `d` is at most half a unit of its `p`-th digit, or
the same special value. -/
def ReadsD (p : ℕ) (l : List Char) : Dbl → Prop
  | .fin x => ∃ y, Reads l y ∧ |y - x.val| ≤ 5 / 10 ^ p * |x.val|
  | .negZero => Reads l 0
  | .inf neg => l = (if neg then "-inf" else "inf").toList
  | .nan neg => l = (if neg then "-nan" else "nan").toList

/-- The text denotes exactly `d`. -/
def ReadsExactly (l : List Char) : Dbl → Prop
  | .fin x => Reads l x.val
  | .negZero => Reads l 0
  | .inf neg => l = (if neg then "-inf" else "inf").toList
  | .nan neg => l = (if neg then "-nan" else "nan").toList

/-! ### Specification: a reader of the layout -/

/-- The pieces between the separators `c`. -/
def cut (c : Char) : List Char → List (List Char)
  | [] => [[]]
  | x :: r =>
    if x = c then [] :: cut c r
    else match cut c r with
      | [] => [[x]]
      | l :: ls => (x :: l) :: ls

/-- The lines of a path in the raw data. -/
structure RawTxt where
  pathIndex : List Char
  prec : List Char
  pt : List (List Char)
  fres : List Char
  cond : List Char
  nres : List Char
  finalTime : List Char
  acc : List Char
  precTime : List Char
  cycle : List Char
  post : List Char

/-- Reads one path of `n` coordinates. -/
def rawRec (n : ℕ) (ls : List (List Char)) : Option (RawTxt × List (List Char)) :=
  match ls with
  | a :: b :: r =>
    match r.drop n with
    | c1 :: c2 :: c3 :: c4 :: c5 :: c6 :: c7 :: c8 :: [] :: [] :: rest =>
      some (⟨a, b, r.take n, c1, c2, c3, c4, c5, c6, c7, c8⟩, rest)
    | _ => none
  | _ => none

/-- Reads paths until there are two empty lines. -/
def rawRecs (n : ℕ) : ℕ → List (List Char) → Option (List RawTxt × List (List Char))
  | 0, _ => none
  | k + 1, ls =>
    match ls with
    | [] :: [] :: rest => some ([], rest)
    | ls =>
      match rawRec n ls with
      | none => none
      | some (r, rest) =>
        match rawRecs n k rest with
        | none => none
        | some (rs, rest') => some (r :: rs, rest')

/-- Number in a line of digits. -/
def digitsOf (l : List Char) : Option ℕ := if l ≠ [] ∧ l.all isDigit then some (natOf l) else none

/-- Reads the raw data: the number of variables, the paths, the remaining lines. -/
def readRaw (s : List Char) : Option (ℕ × List RawTxt × List (List Char)) :=
  match cut '\n' s with
  | a :: [] :: ls =>
    match digitsOf a with
    | none => none
    | some n =>
      match rawRecs n (ls.length + 1) ls with
      | none => none
      | some (rs, rest) => some (n, rs, rest)
  | _ => none

/-- The lines of a path in the main data. -/
structure MainTxt where
  pathIndex : List Char
  solIndex : List Char
  cond : List Char
  fres : List Char
  nres : List Char
  finalTime : List Char
  maxPrec : List Char
  precTime : List Char
  acc : List Char
  accUser : List Char
  cycle : List Char
  mult : List Char
  codes : List Char
  pt : List (List Char)

/-- Reads one path of `n` coordinates. -/
def mainRec (n : ℕ) (ls : List (List Char)) : Option (MainTxt × List (List Char)) :=
  match ls with
  | c1 :: c2 :: c3 :: c4 :: c5 :: c6 :: c7 :: c8 :: c9 :: c10 :: c11 :: c12 :: c13 :: [] :: r =>
    match r.drop n with
    | [] :: [] :: rest => some (⟨c1, c2, c3, c4, c5, c6, c7, c8, c9, c10, c11, c12, c13, r.take n⟩, rest)
    | _ => none
  | _ => none

/-- Reads paths until there are two empty lines. -/
def mainRecs (n : ℕ) : ℕ → List (List Char) → Option (List MainTxt × List (List Char))
  | 0, _ => none
  | k + 1, ls =>
    match ls with
    | [] :: [] :: rest => some ([], rest)
    | ls =>
      match mainRec n ls with
      | none => none
      | some (r, rest) =>
        match mainRecs n k rest with
        | none => none
        | some (rs, rest') => some (r :: rs, rest')

/-- Reads the main data: the number of variables, their names, the paths, the remaining lines. -/
def readMain (s : List Char) : Option (ℕ × List (List Char) × List MainTxt × List (List Char)) :=
  match cut '\n' s with
  | a :: v :: [] :: ls =>
    match digitsOf a with
    | none => none
    | some n =>
      match mainRecs n (ls.length + 1) ls with
      | none => none
      | some (rs, rest) => some (n, (cut ' ' v).dropLast, rs, rest)
  | _ => none

/-! ### Specification: the data of a path -/

/-- A path whose numbers have proper digits and whose point has `n` coordinates. -/
structure Rec.Ok (n : ℕ) (r : Rec) : Prop where
  len : r.pt.length = n
  pt : ∀ z ∈ r.pt, z.1.Ok ∧ z.2.Ok
  finalTime : r.finalTime.1.Ok ∧ r.finalTime.2.Ok
  precTime : r.precTime.1.Ok ∧ r.precTime.2.Ok
  dbl : ∀ x, (r.cond = .fin x ∨ r.fres = .fin x ∨ r.nres = .fin x ∨ r.acc = .fin x ∨ r.accUser = .fin x) → x.Ok

/-- The lines say what the path's data are; `D` is how `double`s are to be read. -/
structure RawTxt.Says (D : List Char → Dbl → Prop) (r : Rec) (t : RawTxt) : Prop where
  pathIndex : ReadsN t.pathIndex r.pathIndex
  prec : ReadsN t.prec r.prec
  pt : List.Forall₂ (fun z l => ReadsC l z.1.val z.2.val) r.pt t.pt
  fres : D t.fres r.fres
  cond : D t.cond r.cond
  nres : D t.nres r.nres
  finalTime : ReadsC t.finalTime r.finalTime.1.val r.finalTime.2.val
  acc : D t.acc r.acc
  precTime : ReadsC t.precTime r.precTime.1.val r.precTime.2.val
  cycle : ReadsN t.cycle r.cycle
  post : ReadsZ t.post r.post

/-- The same for the main data. -/
structure MainTxt.Says (D : List Char → Dbl → Prop) (r : Rec) (t : MainTxt) : Prop where
  pathIndex : ReadsN t.pathIndex r.pathIndex
  solIndex : ReadsN t.solIndex r.solIndex
  cond : D t.cond r.cond
  fres : D t.fres r.fres
  nres : D t.nres r.nres
  finalTime : ReadsC t.finalTime r.finalTime.1.val r.finalTime.2.val
  maxPrec : ReadsN t.maxPrec r.maxPrec
  precTime : ReadsC t.precTime r.precTime.1.val r.precTime.2.val
  acc : D t.acc r.acc
  accUser : D t.accUser r.accUser
  cycle : ReadsN t.cycle r.cycle
  mult : ReadsZ t.mult r.mult
  codes : ∃ a b, t.codes = a ++ ' ' :: b ∧ ReadsZ a r.pre ∧ ReadsZ b r.post
  pt : List.Forall₂ (fun z l => ReadsC l z.1.val z.2.val) r.pt t.pt

/-- The paths whose endgame was started. -/
def started (recs : List Rec) : List Rec := recs.filter fun r => r.post ≠ -1

/-! ### Texts of numbers -/

theorem digits_no (c : Char) (hc : isDigit c = false) {l : List Char} (h : Digits l) : c ∉ l := by
  intro hm
  have := h c hm
  rw [hc] at this
  cases this

theorem literal_no {c : Char} (h1 : isDigit c = false) (h2 : c ≠ 'e' ∧ c ≠ 'E' ∧ c ≠ '.' ∧ c ≠ '-') {l : List Char} {x : ℚ}
    (h : Literal l x) : c ∉ l := by
  have hd : ∀ {a : List Char}, Digits a → c ∉ a := fun ha => digits_no c h1 ha
  have hx : ∀ {e : Char} {m : Bool} {ds : List Char}, (e = 'e' ∨ e = 'E') → Digits ds →
      c ∉ e :: (if m then '-' :: ds else ds) := by
    intro e m ds he hds hm
    rcases List.mem_cons.1 hm with rfl | hm
    · rcases he with rfl | rfl
      · exact h2.1 rfl
      · exact h2.2.1 rfl
    · cases m
      · exact hd hds hm
      · rcases List.mem_cons.1 hm with rfl | hm
        · exact h2.2.2.2 rfl
        · exact hd hds hm
  cases h with
  | whole _ _ ha => exact hd ha
  | wholeExp a e m ds _ ha he _ hds =>
    intro hm
    rcases List.mem_append.1 hm with h | h
    · exact hd ha h
    · exact hx he hds h
  | point a b ha hb =>
    intro hm
    rcases List.mem_append.1 hm with h | h
    · exact hd ha h
    · rcases List.mem_cons.1 h with rfl | h
      · exact h2.2.2.1 rfl
      · exact hd hb h
  | pointExp a b e m ds ha hb _ he _ hds =>
    intro hm
    rcases List.mem_append.1 hm with h | h
    · exact hd ha h
    · rcases List.mem_cons.1 h with rfl | h
      · exact h2.2.2.1 rfl
      · rcases List.mem_append.1 h with h | h
        · exact hd hb h
        · exact hx he hds h

theorem signed_no {l : List Char} {x : ℚ} (h : Signed l x) : '\n' ∉ l := by
  obtain ⟨m, y, hl, ⟨rfl, -⟩ | ⟨rfl, -⟩⟩ := h
  · exact literal_no (by decide) (by decide) hl
  · intro hm
    rcases List.mem_cons.1 hm with h | h
    · revert h; decide
    · exact literal_no (by decide) (by decide) hl h

theorem reads_no {l : List Char} {x : ℚ} (h : Reads l x) : '\n' ∉ l := by
  rcases h with h | ⟨u, v, rfl, h⟩
  · exact signed_no h
  · have := signed_no h
    intro hm
    rcases List.mem_append.1 hm with h | h
    · exact this (List.mem_append_left _ h)
    · rcases List.mem_cons.1 h with h | h
      · revert h; decide
      · rcases List.mem_cons.1 h with h | h
        · revert h; decide
        · exact this (List.mem_append_right _ (List.mem_cons_of_mem _ h))

theorem readsC_no {l : List Char} {x y : ℚ} (h : ReadsC l x y) : '\n' ∉ l := by
  obtain ⟨a, b, rfl, ha, hb⟩ := h
  intro hm
  rcases List.mem_append.1 hm with h | h
  · exact reads_no ha h
  · rcases List.mem_cons.1 h with h | h
    · revert h; decide
    · exact reads_no hb h

theorem readsN_no {l : List Char} {n : ℕ} (h : ReadsN l n) : '\n' ∉ l := digits_no _ (by decide) h.2.1

theorem readsZ_no {l : List Char} {z : ℤ} (h : ReadsZ l z) : '\n' ∉ l := by
  obtain ⟨m, n, hm, ⟨rfl, -⟩ | ⟨rfl, -⟩⟩ := h
  · exact readsN_no hm
  · intro hx
    rcases List.mem_cons.1 hx with h | h
    · revert h; decide
    · exact readsN_no hm h

theorem readsD_no {p : ℕ} {l : List Char} {d : Dbl} (h : ReadsD p l d) : '\n' ∉ l := by
  cases d with
  | fin x => obtain ⟨y, h, -⟩ := h; exact reads_no h
  | negZero => exact reads_no h
  | inf neg => cases neg <;> (simp only [ReadsD] at h; subst h; decide)
  | nan neg => cases neg <;> (simp only [ReadsD] at h; subst h; decide)

theorem showNat_reads (n : ℕ) : ReadsN (showNat n) n :=
  ⟨(showNat_numeral n).1, (showNat_numeral n).2.1, natOf_showNat n⟩

theorem showInt_reads (z : ℤ) : ReadsZ (showInt z) z := by
  unfold showInt
  by_cases h : z < 0
  · rw [if_pos h]
    exact ⟨_, _, showNat_reads _, Or.inr ⟨rfl, by omega⟩⟩
  · rw [if_neg h]
    exact ⟨_, _, showNat_reads _, Or.inl ⟨rfl, by omega⟩⟩

/-- Numbers printed with a positive exponent. -/
theorem body_plus {ds : List Char} {e : ℤ} (hd : Digits ds) (h0 : ∃ c r, ds = c :: r ∧ c ≠ '0') {lim : ℕ}
    (hm : ¬ e < lim) :
    ∃ u v, Literal (u ++ 'e' :: v) ((natOf ds : ℚ) * (10 : ℚ) ^ (e - ((ds.length : ℤ) - 1))) ∧
      ∀ neg, fmt lim neg ds e = if neg then '-' :: (u ++ 'e' :: '+' :: v) else u ++ 'e' :: '+' :: v := by
  have ht := trim_digits hd
  have hne := trim_ne h0
  have hlen : 0 < (trim ds).length := List.length_pos_of_ne_nil hne
  rw [val_trim]
  simp only [fmt]
  generalize trim ds = t at ht hne hlen
  rw [if_neg (fun h => hm h.2), if_neg (show ¬ e < 0 by omega)]
  obtain ⟨d1, d2, d3⟩ := expDigits_spec e.natAbs
  have hx : ((natOf (expDigits e.natAbs) : ℕ) : ℤ) = e := by rw [d3]; omega
  refine ⟨_, _, ?_, fun _ => rfl⟩
  by_cases h4 : 1 < t.length
  · rw [if_pos h4]
    have := Literal.pointExp (t.take 1) (t.drop 1) 'e' false (expDigits e.natAbs)
      (fun c hc => ht c (List.mem_of_mem_take hc)) (fun c hc => ht c (List.mem_of_mem_drop hc)) (by
        rintro ⟨ha, -⟩
        have := congrArg List.length ha
        simp only [List.length_take, List.length_nil] at this
        omega) (Or.inl rfl) d2 d1
    rw [List.take_append_drop] at this
    simp only [Bool.false_eq_true, if_false, hx] at this
    rw [List.append_assoc, List.cons_append]
    convert this using 1
    rw [div_eq_mul_inv, mul_assoc]
    congr 1
    rw [List.length_drop, ← zpow_natCast, ← zpow_neg, ← zpow_add₀ (by norm_num)]
    congr 1
    rw [Nat.cast_sub (by omega)]
    push_cast
    ring
  · rw [if_neg h4]
    have := Literal.wholeExp t 'e' false (expDigits e.natAbs) hne ht (Or.inl rfl) d2 d1
    simp only [Bool.false_eq_true, if_false, hx] at this
    convert this using 1
    congr 2
    omega

theorem fmt_reads {ds : List Char} (e : ℤ) (hd : Digits ds) (h0 : ∃ c r, ds = c :: r ∧ c ≠ '0') (lim : ℕ) (neg : Bool) :
    Reads (fmt lim neg ds e) (Dec.num neg ds e).val := by
  by_cases hm : e < lim
  · obtain ⟨l, h1, h2⟩ := body_literal hd h0 hm
    refine Or.inl ⟨l, _, h1, ?_⟩
    rw [h2]
    cases neg
    · left; exact ⟨rfl, by simp [Dec.val]⟩
    · right; exact ⟨rfl, by simp [Dec.val]⟩
  · obtain ⟨u, v, h1, h2⟩ := body_plus hd h0 hm
    rw [h2]
    cases neg
    · exact Or.inr ⟨u, v, rfl, _, _, h1, Or.inl ⟨rfl, by simp [Dec.val]⟩⟩
    · exact Or.inr ⟨'-' :: u, v, rfl, _, _, h1, Or.inr ⟨rfl, by simp [Dec.val]⟩⟩

theorem zero_reads : Reads ['0'] 0 := by
  have : Literal ['0'] (natOf ['0'] : ℕ) := .whole ['0'] (by simp) (by intro c hc; simp at hc; subst hc; decide)
  exact Or.inl ⟨['0'], _, this, Or.inl ⟨rfl, by simp [natOf]⟩⟩

theorem strOf_reads {x : Dec} (h : x.Ok) : Reads (strOf x) x.val := by
  cases x with
  | zero => exact zero_reads
  | num neg ds e => exact fmt_reads e h.1 h.2 _ neg

theorem genComplex_reads {x y : Dec} (hx : x.Ok) (hy : y.Ok) : ReadsC (genComplex x y) x.val y.val :=
  ⟨_, _, rfl, strOf_reads hx, strOf_reads hy⟩

/-! ### Rounding -/

theorem natOf_append (a b : List Char) : natOf (a ++ b) = natOf a * 10 ^ b.length + natOf b := by
  induction b using List.reverseRecOn with
  | nil => simp [natOf]
  | append_singleton b c ih =>
    rw [← List.append_assoc, natOf_snoc, ih, natOf_snoc, List.length_append]
    simp only [List.length_singleton, pow_succ]
    ring

theorem digit_le {c : Char} (h : isDigit c = true) : c.toNat - '0'.toNat ≤ 9 ∧ (c ≠ '0' → 1 ≤ c.toNat - '0'.toNat) := by
  have h2 : '0'.toNat = 48 := by decide
  unfold isDigit at h
  simp only [Bool.and_eq_true, decide_eq_true_eq] at h
  have h3 : '9'.toNat = 57 := by decide
  have a1 : '0'.toNat ≤ c.toNat := h.1
  have a2 : c.toNat ≤ '9'.toNat := h.2
  refine ⟨by omega, fun hc => ?_⟩
  by_contra hlt
  exact hc (Char.toNat_inj.1 (by omega))

theorem natOf_lt {l : List Char} (h : Digits l) : natOf l < 10 ^ l.length := by
  induction l using List.reverseRecOn with
  | nil => simp [natOf]
  | append_singleton l c ih =>
    rw [natOf_snoc, List.length_append, List.length_singleton, pow_succ]
    have := ih fun c hc => h c (List.mem_append_left _ hc)
    have := (digit_le (h c (by simp))).1
    omega

theorem le_natOf {l : List Char} (h : Digits l) (h0 : ∃ c r, l = c :: r ∧ c ≠ '0') : 10 ^ (l.length - 1) ≤ natOf l := by
  obtain ⟨c, r, rfl, hc⟩ := h0
  have := natOf_append [c] r
  rw [List.cons_append, List.nil_append] at this
  rw [this]
  have e : natOf [c] = c.toNat - '0'.toNat := by simp [natOf]
  rw [e]
  have := (digit_le (h c (by simp))).2 hc
  calc 10 ^ ((c :: r).length - 1) = 1 * 10 ^ r.length := by simp
    _ ≤ (c.toNat - '0'.toNat) * 10 ^ r.length := Nat.mul_le_mul_right _ this
    _ ≤ _ := Nat.le_add_right _ _

theorem showNat_length {p n : ℕ} (hp : 0 < p) (h1 : 10 ^ (p - 1) ≤ n) (h2 : n < 10 ^ p) :
    (showNat n).length = p ∧ ∃ c r, showNat n = c :: r ∧ c ≠ '0' := by
  obtain ⟨a1, a2, a3⟩ := showNat_numeral n
  have hn := natOf_showNat n
  have hpos : 0 < n := lt_of_lt_of_le (by positivity) h1
  have h0 : ∃ c r, showNat n = c :: r ∧ c ≠ '0' := by
    cases hs : showNat n with
    | nil => exact absurd hs a1
    | cons c r =>
      refine ⟨c, r, rfl, ?_⟩
      rintro rfl
      have := a3 (by rw [hs]; rfl)
      rw [this] at hn
      simp [natOf] at hn
      omega
  refine ⟨?_, h0⟩
  have b1 := natOf_lt a2
  have b2 := le_natOf a2 h0
  rw [hn] at b1 b2
  have c1 : 10 ^ (p - 1) < 10 ^ (showNat n).length := lt_of_le_of_lt h1 b1
  have c2 : 10 ^ ((showNat n).length - 1) < 10 ^ p := lt_of_le_of_lt b2 h2
  have d1 := (Nat.pow_lt_pow_iff_right (by norm_num : 1 < 10)).1 c1
  have d2 := (Nat.pow_lt_pow_iff_right (by norm_num : 1 < 10)).1 c2
  omega

/-- Rounding keeps the shape, and its error is at most half a unit of the last digit kept. -/
theorem roundTo_spec {p : ℕ} (hp : 0 < p) {ds : List Char} (e : ℤ) (hd : Digits ds)
    (h0 : ∃ c r, ds = c :: r ∧ c ≠ '0') :
    Digits (roundTo p ds e).1 ∧ (∃ c r, (roundTo p ds e).1 = c :: r ∧ c ≠ '0') ∧
    |(natOf (roundTo p ds e).1 : ℚ) * (10 : ℚ) ^ ((roundTo p ds e).2 - (((roundTo p ds e).1.length : ℤ) - 1)) -
      (natOf ds : ℚ) * (10 : ℚ) ^ (e - ((ds.length : ℤ) - 1))| ≤
      5 / 10 ^ p * ((natOf ds : ℚ) * (10 : ℚ) ^ (e - ((ds.length : ℤ) - 1))) := by
  unfold roundTo
  by_cases hl : ds.length ≤ p
  · rw [if_pos hl]
    refine ⟨hd, h0, ?_⟩
    rw [sub_self, abs_zero]
    positivity
  · rw [if_neg hl]
    have htd : Digits (ds.take p) := fun c hc => hd c (List.mem_of_mem_take hc)
    have hdd : Digits (ds.drop p) := fun c hc => hd c (List.mem_of_mem_drop hc)
    have ht0 : ∃ c r, ds.take p = c :: r ∧ c ≠ '0' := by
      obtain ⟨c, r, rfl, hc⟩ := h0
      obtain ⟨q, rfl⟩ : ∃ q, p = q + 1 := ⟨p - 1, by omega⟩
      exact ⟨c, r.take q, rfl, hc⟩
    have hlen : (ds.take p).length = p := by rw [List.length_take]; omega
    have hlen' : (ds.drop p).length = ds.length - p := List.length_drop
    have b1 := natOf_lt htd
    have b2 := le_natOf htd ht0
    have b3 := natOf_lt hdd
    rw [hlen] at b1 b2
    rw [hlen'] at b3
    have hsum : natOf ds = natOf (ds.take p) * 10 ^ (ds.length - p) + natOf (ds.drop p) := by
      conv_lhs => rw [← List.take_append_drop p ds]
      rw [natOf_append, hlen']
    obtain ⟨k, hk⟩ : ∃ k, ds.length = p + k := ⟨ds.length - p, by omega⟩
    rw [show ds.length - p = k by omega] at b3 hsum ⊢
    generalize natOf (ds.take p) = n at b1 b2 hsum ⊢
    generalize natOf (ds.drop p) = r at b3 hsum ⊢
    dsimp only
    obtain ⟨n', hn', hnn⟩ : ∃ n', (if 10 ^ k < 2 * r ∨ (2 * r = 10 ^ k ∧ n % 2 = 1) then n + 1 else n) = n' ∧
        (n' = n ∧ 2 * r ≤ 10 ^ k ∨ n' = n + 1 ∧ 10 ^ k ≤ 2 * r) := by
      refine ⟨_, rfl, ?_⟩
      split_ifs with hc
      · right; exact ⟨rfl, by omega⟩
      · left; exact ⟨rfl, by omega⟩
    rw [hn']
    -- the error in integers
    have herr : |(n' : ℚ) * 10 ^ k - (natOf ds : ℚ)| ≤ 10 ^ k / 2 := by
      rw [hsum]
      push_cast
      have b3' : (r : ℚ) < 10 ^ k := by exact_mod_cast b3
      rw [abs_le]
      rcases hnn with ⟨rfl, h⟩ | ⟨rfl, h⟩
      · have h' : 2 * (r : ℚ) ≤ 10 ^ k := by exact_mod_cast h
        have : (0 : ℚ) ≤ r := Nat.cast_nonneg r
        constructor <;> linarith
      · have h' : (10 : ℚ) ^ k ≤ 2 * (r : ℚ) := by exact_mod_cast h
        push_cast
        constructor <;> nlinarith
    have hbig : (10 : ℚ) ^ (p + k - 1) ≤ natOf ds := by
      have := le_natOf hd h0
      rw [hk] at this
      exact_mod_cast this
    have hfinal : |(n' : ℚ) * (10 : ℚ) ^ (e - ((p : ℤ) - 1)) - (natOf ds : ℚ) * (10 : ℚ) ^ (e - ((ds.length : ℤ) - 1))| ≤
        5 / 10 ^ p * ((natOf ds : ℚ) * (10 : ℚ) ^ (e - ((ds.length : ℤ) - 1))) := by
      have hz : (10 : ℚ) ^ (e - ((p : ℤ) - 1)) = 10 ^ k * (10 : ℚ) ^ (e - ((ds.length : ℤ) - 1)) := by
        rw [← zpow_natCast, ← zpow_add₀ (by norm_num), hk]
        congr 1
        push_cast
        ring
      rw [hz, ← mul_assoc, ← sub_mul, abs_mul, ← mul_assoc]
      have hpos : (0 : ℚ) < (10 : ℚ) ^ (e - ((ds.length : ℤ) - 1)) := by positivity
      rw [abs_of_pos hpos]
      refine mul_le_mul_of_nonneg_right (herr.trans ?_) hpos.le
      have : (10 : ℚ) ^ k / 2 = 5 / 10 ^ p * 10 ^ (p + k - 1) := by
        have e1 : (10 : ℚ) ^ (p + k) = 10 ^ (p + k - 1) * 10 := by
          rw [← pow_succ]; congr 1; omega
        have hp0 : (10 : ℚ) ^ p ≠ 0 := by positivity
        rw [pow_add] at e1
        field_simp
        linarith
      rw [this]
      exact mul_le_mul_of_nonneg_left hbig (by positivity)
    by_cases h10 : n' = 10 ^ p
    · rw [if_pos h10]
      refine ⟨?_, ⟨'1', _, rfl, by decide⟩, ?_⟩
      · intro c hc
        rcases List.mem_cons.1 hc with rfl | hc
        · decide
        · rw [List.eq_of_mem_replicate hc]; decide
      · dsimp only
        have e1 : natOf ('1' :: List.replicate (p - 1) '0') = 10 ^ (p - 1) := by
          have := natOf_append_zeros ['1'] (p - 1)
          rw [List.cons_append, List.nil_append] at this
          rw [this]
          have : natOf ['1'] = 1 := by decide
          rw [this, Nat.one_mul]
        rw [e1]
        have e2 : ((10 ^ (p - 1) : ℕ) : ℚ) *
            (10 : ℚ) ^ (e + 1 - ((('1' :: List.replicate (p - 1) '0').length : ℤ) - 1)) =
            (n' : ℚ) * (10 : ℚ) ^ (e - ((p : ℤ) - 1)) := by
          rw [h10]
          push_cast
          rw [List.length_cons, List.length_replicate, ← zpow_natCast, ← zpow_natCast, ← zpow_add₀ (by norm_num),
            ← zpow_add₀ (by norm_num)]
          congr 1
          rw [Nat.sub_add_cancel hp, Nat.cast_sub hp]
          push_cast
          ring
        rw [e2]
        exact hfinal
    · rw [if_neg h10]
      have hlt : n' < 10 ^ p := by
        rcases hnn with ⟨rfl, -⟩ | ⟨rfl, -⟩
        · exact b1
        · omega
      have hge : 10 ^ (p - 1) ≤ n' := by
        rcases hnn with ⟨rfl, -⟩ | ⟨rfl, -⟩
        · exact b2
        · omega
      obtain ⟨s1, s2⟩ := showNat_length hp hge hlt
      refine ⟨(showNat_numeral n').2.1, s2, ?_⟩
      dsimp only
      rw [natOf_showNat, s1]
      exact hfinal

theorem showDbl_reads {p : ℕ} (hp : 0 < p) {d : Dbl} (h : ∀ x, d = .fin x → x.Ok) : ReadsD p (showDbl p d) d := by
  cases d with
  | fin x =>
    cases x with
    | zero => exact ⟨0, zero_reads, by simp [Dec.val]⟩
    | num neg ds e =>
      obtain ⟨hd, h0⟩ := h _ rfl
      obtain ⟨h1, h2, h3⟩ := roundTo_spec hp e hd h0
      refine ⟨_, fmt_reads _ h1 h2 p neg, ?_⟩
      simp only [Dec.val]
      generalize (natOf (roundTo p ds e).1 : ℚ) *
        (10 : ℚ) ^ ((roundTo p ds e).2 - (((roundTo p ds e).1.length : ℤ) - 1)) = y at h3 ⊢
      have hx : (0 : ℚ) ≤ (natOf ds : ℚ) * (10 : ℚ) ^ (e - ((ds.length : ℤ) - 1)) := by positivity
      generalize (natOf ds : ℚ) * (10 : ℚ) ^ (e - ((ds.length : ℤ) - 1)) = x at h3 hx ⊢
      rw [← mul_sub, abs_mul, abs_mul, abs_of_nonneg hx]
      have : |(if neg then (-1 : ℚ) else 1)| = 1 := by cases neg <;> simp
      rw [this, one_mul, one_mul]
      exact h3
  | negZero =>
    obtain h | ⟨u, v, h, -⟩ := zero_reads
    · obtain ⟨m, y, hl, ⟨rfl, hy⟩ | ⟨hm, -⟩⟩ := h
      · exact Or.inl ⟨_, y, hl, Or.inr ⟨rfl, by rw [← hy]; simp⟩⟩
      · cases hm
    · have := congrArg List.length h
      simp at this
      omega
  | inf neg => cases neg <;> rfl
  | nan neg => cases neg <;> rfl

/-- Numbers of at most `p` digits are printed exactly. -/
theorem showDbl_exact {p : ℕ} {neg : Bool} {ds : List Char} {e : ℤ} (h : (Dec.num neg ds e).Ok) (hl : ds.length ≤ p) :
    Reads (showDbl p (.fin (.num neg ds e))) (Dec.num neg ds e).val := by
  simp only [showDbl, roundTo, if_pos hl]
  exact fmt_reads e h.1 h.2 p neg

/-! ### Lines -/

theorem cut_append {c : Char} {a : List Char} (h : c ∉ a) (b : List Char) : cut c (a ++ c :: b) = a :: cut c b := by
  induction a with
  | nil => simp [cut]
  | cons x a ih =>
    have hx : x ≠ c := fun e => h (by rw [e]; simp)
    rw [List.cons_append, cut, if_neg hx, ih fun hm => h (List.mem_cons_of_mem _ hm)]

theorem cut_nl (b : List Char) : cut '\n' ('\n' :: b) = [] :: cut '\n' b := by simp [cut]

theorem cut_endPoint (pt : List (Dec × Dec)) (h : ∀ z ∈ pt, z.1.Ok ∧ z.2.Ok) (b : List Char) :
    cut '\n' (endPoint pt ++ b) = pt.map (fun z => genComplex z.1 z.2) ++ cut '\n' b := by
  induction pt with
  | nil => rfl
  | cons z pt ih =>
    have hz := h z (by simp)
    have := ih fun z hz => h z (List.mem_cons_of_mem _ hz)
    unfold endPoint at this ⊢
    rw [List.flatMap_cons, List.append_assoc, List.append_assoc, List.singleton_append,
      cut_append (readsC_no (genComplex_reads hz.1 hz.2)), this]
    rfl

theorem pt_reads (pt : List (Dec × Dec)) (h : ∀ z ∈ pt, z.1.Ok ∧ z.2.Ok) :
    List.Forall₂ (fun z l => ReadsC l z.1.val z.2.val) pt (pt.map fun z => genComplex z.1 z.2) := by
  induction pt with
  | nil => exact .nil
  | cons z pt ih =>
    exact .cons (genComplex_reads (h z (by simp)).1 (h z (by simp)).2) (ih fun z hz => h z (List.mem_cons_of_mem _ hz))

/-- The texts of a path in the raw data. -/
def rawTxt (p : ℕ) (r : Rec) : RawTxt :=
  ⟨showNat r.pathIndex, showNat r.prec, r.pt.map fun z => genComplex z.1 z.2, showDbl p r.fres, showDbl p r.cond,
    showDbl p r.nres, genComplex r.finalTime.1 r.finalTime.2, showDbl p r.acc, genComplex r.precTime.1 r.precTime.2,
    showNat r.cycle, showInt r.post⟩

theorem rawTxt_says {p n : ℕ} (hp : 0 < p) {r : Rec} (h : r.Ok n) : (rawTxt p r).Says (ReadsD p) r where
  pathIndex := showNat_reads _
  prec := showNat_reads _
  pt := pt_reads _ h.pt
  fres := showDbl_reads hp fun x e => h.dbl x (by simp [e])
  cond := showDbl_reads hp fun x e => h.dbl x (by simp [e])
  nres := showDbl_reads hp fun x e => h.dbl x (by simp [e])
  finalTime := genComplex_reads h.finalTime.1 h.finalTime.2
  acc := showDbl_reads hp fun x e => h.dbl x (by simp [e])
  precTime := genComplex_reads h.precTime.1 h.precTime.2
  cycle := showNat_reads _
  post := showInt_reads _

theorem cut_mdRaw {p n : ℕ} (hp : 0 < p) {r : Rec} (h : r.Ok n) (b : List Char) :
    cut '\n' (mdRaw p r ++ b) = (rawTxt p r).pathIndex :: (rawTxt p r).prec :: ((rawTxt p r).pt ++
      (rawTxt p r).fres :: (rawTxt p r).cond :: (rawTxt p r).nres :: (rawTxt p r).finalTime :: (rawTxt p r).acc ::
      (rawTxt p r).precTime :: (rawTxt p r).cycle :: (rawTxt p r).post :: [] :: [] :: cut '\n' b) := by
  have s := rawTxt_says hp h
  unfold mdRaw
  simp only [List.append_assoc, List.cons_append, List.nil_append]
  rw [cut_append (a := showNat r.pathIndex) (readsN_no s.pathIndex), cut_append (a := showNat r.prec) (readsN_no s.prec), cut_endPoint _ h.pt,
    cut_append (a := showDbl p r.fres) (readsD_no s.fres), cut_append (a := showDbl p r.cond) (readsD_no s.cond), cut_append (a := showDbl p r.nres) (readsD_no s.nres),
    cut_append (a := genComplex r.finalTime.1 r.finalTime.2) (readsC_no s.finalTime), cut_append (a := showDbl p r.acc) (readsD_no s.acc), cut_append (a := genComplex r.precTime.1 r.precTime.2) (readsC_no s.precTime),
    cut_append (a := showNat r.cycle) (readsN_no s.cycle), cut_append (a := showInt r.post) (readsZ_no s.post), cut_nl, cut_nl]
  rfl

theorem rawRec_cut {p n : ℕ} (hp : 0 < p) {r : Rec} (h : r.Ok n) (b : List Char) :
    rawRec n (cut '\n' (mdRaw p r ++ b)) = some (rawTxt p r, cut '\n' b) := by
  rw [cut_mdRaw hp h]
  have hl : (rawTxt p r).pt.length = n := by simp [rawTxt, h.len]
  unfold rawRec
  dsimp only
  rw [List.drop_left' hl, List.take_left' hl]

theorem started_cons (r : Rec) (recs : List Rec) :
    started (r :: recs) = if r.post = -1 then started recs else r :: started recs := by
  unfold started
  by_cases h : r.post = -1 <;> simp [h]

theorem rawRecs_cut {p n : ℕ} (hp : 0 < p) (recs : List Rec) (h : ∀ r ∈ started recs, r.Ok n) (b : List Char) (k : ℕ)
    (hk : (started recs).length < k) :
    rawRecs n k (cut '\n' ((recs.flatMap fun r => if r.post = -1 then [] else mdRaw p r) ++ '\n' :: '\n' :: b)) =
      some ((started recs).map (rawTxt p), cut '\n' b) := by
  induction recs generalizing k with
  | nil =>
    obtain ⟨k, rfl⟩ : ∃ j, k = j + 1 := ⟨k - 1, by omega⟩
    rw [List.flatMap_nil, List.nil_append, cut_nl, cut_nl]
    rfl
  | cons r recs ih =>
    rw [started_cons] at h hk ⊢
    rw [List.flatMap_cons]
    by_cases hr : r.post = -1
    · rw [if_pos hr] at h hk ⊢
      rw [if_pos hr, List.nil_append]
      exact ih h k hk
    · rw [if_neg hr] at h hk ⊢
      rw [if_neg hr, List.append_assoc]
      obtain ⟨k, rfl⟩ : ∃ j, k = j + 1 := ⟨k - 1, by omega⟩
      have hk' : (started recs).length < k := by simp only [List.length_cons] at hk; omega
      have ho := h r (by simp)
      have h1 := rawRec_cut hp ho ((recs.flatMap fun r => if r.post = -1 then [] else mdRaw p r) ++ '\n' :: '\n' :: b)
      have h2 := ih (fun r hr => h r (List.mem_cons_of_mem _ hr)) k hk'
      have hne : ∃ x y ys, cut '\n' (mdRaw p r ++
          ((recs.flatMap fun r => if r.post = -1 then [] else mdRaw p r) ++ '\n' :: '\n' :: b)) = (x :: y) :: ys := by
        rw [cut_mdRaw hp ho]
        obtain ⟨hq, -⟩ := showNat_reads r.pathIndex
        cases hs : showNat r.pathIndex with
        | nil => exact absurd hs hq
        | cons x y => exact ⟨x, y, _, by simp only [rawTxt, hs]; rfl⟩
      obtain ⟨x, y, ys, hc⟩ := hne
      rw [hc] at h1 ⊢
      simp only [rawRecs, h1, h2, List.map_cons]

theorem digitsOf_reads {l : List Char} {n : ℕ} (h : ReadsN l n) : digitsOf l = some n := by
  unfold digitsOf
  rw [if_pos ⟨h.1, List.all_eq_true.2 h.2.1⟩, h.2.2]

theorem cut_length (c : Char) (s : List Char) : (cut c s).length = s.count c + 1 := by
  induction s with
  | nil => rfl
  | cons x s ih =>
    rw [cut]
    by_cases h : x = c
    · rw [if_pos h, List.length_cons, ih, h, List.count_cons_self]
    · rw [if_neg h, List.count_cons_of_ne h]
      cases hc : cut c s with
      | nil => rw [hc] at ih; simp at ih
      | cons l ls => rw [hc] at ih; exact ih

theorem count_mdRaw (p : ℕ) (r : Rec) : 1 ≤ (mdRaw p r).count '\n' := by
  unfold mdRaw
  rw [List.count_append, List.count_cons_self]
  omega

theorem started_le {f : Rec → List Char} (hf : ∀ r, 1 ≤ (f r).count '\n') (recs : List Rec) (b : List Char) :
    (started recs).length < (cut '\n' ((recs.flatMap fun r => if r.post = -1 then [] else f r) ++ b)).length + 1 := by
  rw [cut_length, List.count_append]
  have : (started recs).length ≤ (recs.flatMap fun r => if r.post = -1 then [] else f r).count '\n' := by
    induction recs with
    | nil => simp [started]
    | cons r recs ih =>
      rw [started_cons, List.flatMap_cons, List.count_append]
      by_cases h : r.post = -1
      · rw [if_pos h, if_pos h]; simpa using ih
      · rw [if_neg h, if_neg h, List.length_cons]
        have := hf r
        omega
  omega

theorem forall₂_map {α β : Type} {R : α → β → Prop} {f : α → β} {l : List α} (h : ∀ a ∈ l, R a (f a)) :
    List.Forall₂ R l (l.map f) := by
  induction l with
  | nil => exact .nil
  | cons a l ih => exact .cons (h a (by simp)) (ih fun a ha => h a (List.mem_cons_of_mem _ ha))

theorem readRaw_eq (p n : ℕ) (recs : List Rec) (target : List Char) (hp : 0 < p) (h : ∀ r ∈ started recs, r.Ok n) :
    readRaw (rawData p n recs target) = some (n, (started recs).map (rawTxt p), cut '\n' (target ++ ['\n', '\n'])) := by
  unfold readRaw rawData
  rw [cut_append (readsN_no (showNat_reads n)), cut_nl]
  dsimp only
  rw [digitsOf_reads (showNat_reads n)]
  dsimp only
  rw [rawRecs_cut hp recs h _ _ (started_le (count_mdRaw p) recs _)]

/-! ### A text denotes one number -/

theorem signed_plus {l : List Char} {x : ℚ} (h : Signed l x) : '+' ∉ l := by
  obtain ⟨m, y, hl, ⟨rfl, -⟩ | ⟨rfl, -⟩⟩ := h
  · exact literal_no (by decide) (by decide) hl
  · intro hm
    rcases List.mem_cons.1 hm with h | h
    · revert h; decide
    · exact literal_no (by decide) (by decide) hl h

/-- The reader of `mpfr_float` gives the number denoted, once the plus sign is removed. -/
theorem reads_parse {l : List Char} {x : ℚ} (h : Reads l x) :
    ∃ P, parseFloat 0 (l.filter (· ≠ '+')) = .yes ⟨x, P⟩ := by
  have key : ∀ {m : List Char}, Signed m x → ∃ P, parseFloat 0 m = .yes ⟨x, P⟩ := by
    intro m hm
    have n : Ws ([] : List Char) := by intro c hc; cases hc
    exact ⟨_, ((C118 0 m).1 x _).2 ⟨[], m, [], n, n, hm, by simp, rfl⟩⟩
  have hf : ∀ {m : List Char}, '+' ∉ m → m.filter (· ≠ '+') = m := by
    intro m hm
    rw [List.filter_eq_self]
    intro c hc
    simp only [ne_eq, decide_not, Bool.not_eq_eq_eq_not, Bool.not_true, decide_eq_false_iff_not]
    rintro rfl
    exact hm hc
  rcases h with h | ⟨u, v, rfl, h⟩
  · rw [hf (signed_plus h)]; exact key h
  · have hp := signed_plus h
    have h1 : '+' ∉ u := fun hm => hp (List.mem_append_left _ hm)
    have h2 : '+' ∉ v := fun hm => hp (List.mem_append_right _ (List.mem_cons_of_mem _ hm))
    have : (u ++ 'e' :: '+' :: v).filter (· ≠ '+') = u ++ 'e' :: v := by
      rw [List.filter_append, hf h1, List.filter_cons_of_pos (by decide), List.filter_cons_of_neg (by decide), hf h2]
    rw [this]
    exact key h

theorem reads_unique {l : List Char} {x y : ℚ} (hx : Reads l x) (hy : Reads l y) : x = y := by
  obtain ⟨P, h1⟩ := reads_parse hx
  obtain ⟨Q, h2⟩ := reads_parse hy
  rw [h1] at h2
  cases h2
  rfl

/-! ### The property -/

/-- **C173, full statement**: the raw data printed by a solver can be read: they give the number of variables and, for
exactly the paths whose endgame was started, in order, path number, precision, coordinates, residuals, condition number,
times, accuracy, cycle number and success code; all these numbers are those of the solver. -/
def C173_full : Prop :=
  ∀ (p n : ℕ) (recs : List Rec) (target : List Char), 0 < p → (∀ r ∈ started recs, r.Ok n) →
    ∃ L, readRaw (rawData p n recs target) = some (n, L, cut '\n' (target ++ ['\n', '\n'])) ∧
      List.Forall₂ (fun r t => t.Says ReadsExactly r) (started recs) L

/-- **C173, partial**: all that, with integers, coordinates and times exact, and residuals, condition number and accuracy
rounded to the precision of the stream (6 digits).  Missing: that the latter are exact. -/
theorem C173_partial (p n : ℕ) (recs : List Rec) (target : List Char) (hp : 0 < p) (h : ∀ r ∈ started recs, r.Ok n) :
    ∃ L, readRaw (rawData p n recs target) = some (n, L, cut '\n' (target ++ ['\n', '\n'])) ∧
      List.Forall₂ (fun r t => t.Says (ReadsD p) r) (started recs) L := by
  exact ⟨(started recs).map (rawTxt p), readRaw_eq p n recs target hp h, forall₂_map fun r hr => rawTxt_says hp (h r hr)⟩

/-- The texts of a path in the main data. -/
def mainTxt (p : ℕ) (r : Rec) : MainTxt :=
  ⟨showNat r.pathIndex, showNat r.solIndex, showDbl p r.cond, showDbl p r.fres, showDbl p r.nres,
    genComplex r.finalTime.1 r.finalTime.2, showNat r.maxPrec, genComplex r.precTime.1 r.precTime.2, showDbl p r.acc,
    showDbl p r.accUser, showNat r.cycle, showInt r.mult, showInt r.pre ++ ' ' :: showInt r.post,
    r.pt.map fun z => genComplex z.1 z.2⟩

theorem mainTxt_says {p n : ℕ} (hp : 0 < p) {r : Rec} (h : r.Ok n) : (mainTxt p r).Says (ReadsD p) r where
  pathIndex := showNat_reads _
  solIndex := showNat_reads _
  cond := showDbl_reads hp fun x e => h.dbl x (by simp [e])
  fres := showDbl_reads hp fun x e => h.dbl x (by simp [e])
  nres := showDbl_reads hp fun x e => h.dbl x (by simp [e])
  finalTime := genComplex_reads h.finalTime.1 h.finalTime.2
  maxPrec := showNat_reads _
  precTime := genComplex_reads h.precTime.1 h.precTime.2
  acc := showDbl_reads hp fun x e => h.dbl x (by simp [e])
  accUser := showDbl_reads hp fun x e => h.dbl x (by simp [e])
  cycle := showNat_reads _
  mult := showInt_reads _
  codes := ⟨_, _, rfl, showInt_reads _, showInt_reads _⟩
  pt := pt_reads _ h.pt

theorem codes_no {a b : List Char} {y z : ℤ} (ha : ReadsZ a y) (hb : ReadsZ b z) : '\n' ∉ a ++ ' ' :: b := by
  intro hm
  rcases List.mem_append.1 hm with h | h
  · exact readsZ_no ha h
  · rcases List.mem_cons.1 h with h | h
    · revert h; decide
    · exact readsZ_no hb h

theorem cut_mdFull {p n : ℕ} (hp : 0 < p) {r : Rec} (h : r.Ok n) (b : List Char) :
    cut '\n' (mdFull p r ++ (endPoint r.pt ++ ['\n', '\n']) ++ b) = (mainTxt p r).pathIndex :: (mainTxt p r).solIndex ::
      (mainTxt p r).cond :: (mainTxt p r).fres :: (mainTxt p r).nres :: (mainTxt p r).finalTime :: (mainTxt p r).maxPrec ::
      (mainTxt p r).precTime :: (mainTxt p r).acc :: (mainTxt p r).accUser :: (mainTxt p r).cycle :: (mainTxt p r).mult ::
      (mainTxt p r).codes :: [] :: ((mainTxt p r).pt ++ [] :: [] :: cut '\n' b) := by
  have s := mainTxt_says hp h
  have e : mdFull p r ++ (endPoint r.pt ++ ['\n', '\n']) ++ b =
      showNat r.pathIndex ++ '\n' :: (showNat r.solIndex ++ '\n' :: (showDbl p r.cond ++ '\n' :: (showDbl p r.fres ++ '\n' ::
    (showDbl p r.nres ++ '\n' :: (genComplex r.finalTime.1 r.finalTime.2 ++ '\n' :: (showNat r.maxPrec ++ '\n' ::
      (genComplex r.precTime.1 r.precTime.2 ++ '\n' :: (showDbl p r.acc ++ '\n' :: (showDbl p r.accUser ++ '\n' ::
        (showNat r.cycle ++ '\n' :: (showInt r.mult ++ '\n' :: ((showInt r.pre ++ ' ' :: showInt r.post) ++ '\n' ::
          '\n' :: (endPoint r.pt ++ '\n' :: '\n' :: b))))))))))))) := by
    unfold mdFull
    simp only [List.append_assoc, List.cons_append, List.nil_append]
  rw [e, cut_append (a := showNat r.pathIndex) (readsN_no s.pathIndex), cut_append (a := showNat r.solIndex) (readsN_no s.solIndex), cut_append (a := showDbl p r.cond) (readsD_no s.cond),
    cut_append (a := showDbl p r.fres) (readsD_no s.fres), cut_append (a := showDbl p r.nres) (readsD_no s.nres), cut_append (a := genComplex r.finalTime.1 r.finalTime.2) (readsC_no s.finalTime),
    cut_append (a := showNat r.maxPrec) (readsN_no s.maxPrec), cut_append (a := genComplex r.precTime.1 r.precTime.2) (readsC_no s.precTime), cut_append (a := showDbl p r.acc) (readsD_no s.acc),
    cut_append (a := showDbl p r.accUser) (readsD_no s.accUser), cut_append (a := showNat r.cycle) (readsN_no s.cycle), cut_append (a := showInt r.mult) (readsZ_no s.mult),
    cut_append (codes_no (showInt_reads r.pre) (showInt_reads r.post)), cut_nl, cut_endPoint _ h.pt, cut_nl, cut_nl]
  rfl

theorem mainRec_cut {p n : ℕ} (hp : 0 < p) {r : Rec} (h : r.Ok n) (b : List Char) :
    mainRec n (cut '\n' (mdFull p r ++ (endPoint r.pt ++ ['\n', '\n']) ++ b)) = some (mainTxt p r, cut '\n' b) := by
  rw [cut_mdFull hp h]
  have hl : (mainTxt p r).pt.length = n := by simp [mainTxt, h.len]
  unfold mainRec
  dsimp only
  rw [List.drop_left' hl, List.take_left' hl]

theorem mainRecs_cut {p n : ℕ} (hp : 0 < p) (recs : List Rec) (h : ∀ r ∈ started recs, r.Ok n) (b : List Char) (k : ℕ)
    (hk : (started recs).length < k) :
    mainRecs n k (cut '\n' ((recs.flatMap fun r => if r.post = -1 then [] else
      mdFull p r ++ (endPoint r.pt ++ ['\n', '\n'])) ++ '\n' :: '\n' :: b)) =
      some ((started recs).map (mainTxt p), cut '\n' b) := by
  induction recs generalizing k with
  | nil =>
    obtain ⟨k, rfl⟩ : ∃ j, k = j + 1 := ⟨k - 1, by omega⟩
    rw [List.flatMap_nil, List.nil_append, cut_nl, cut_nl]
    rfl
  | cons r recs ih =>
    rw [started_cons] at h hk ⊢
    rw [List.flatMap_cons]
    by_cases hr : r.post = -1
    · rw [if_pos hr] at h hk ⊢
      rw [if_pos hr, List.nil_append]
      exact ih h k hk
    · rw [if_neg hr] at h hk ⊢
      rw [if_neg hr, List.append_assoc (mdFull p r ++ _)]
      obtain ⟨k, rfl⟩ : ∃ j, k = j + 1 := ⟨k - 1, by omega⟩
      have hk' : (started recs).length < k := by simp only [List.length_cons] at hk; omega
      have ho := h r (by simp)
      have h1 := mainRec_cut hp ho ((recs.flatMap fun r => if r.post = -1 then [] else
        mdFull p r ++ (endPoint r.pt ++ ['\n', '\n'])) ++ '\n' :: '\n' :: b)
      have h2 := ih (fun r hr => h r (List.mem_cons_of_mem _ hr)) k hk'
      have hne : ∃ x y ys, cut '\n' (mdFull p r ++ (endPoint r.pt ++ ['\n', '\n']) ++
          ((recs.flatMap fun r => if r.post = -1 then [] else
            mdFull p r ++ (endPoint r.pt ++ ['\n', '\n'])) ++ '\n' :: '\n' :: b)) = (x :: y) :: ys := by
        rw [cut_mdFull hp ho]
        obtain ⟨hq, -⟩ := showNat_reads r.pathIndex
        cases hs : showNat r.pathIndex with
        | nil => exact absurd hs hq
        | cons x y => exact ⟨x, y, _, by simp only [mainTxt, hs]; rfl⟩
      obtain ⟨x, y, ys, hc⟩ := hne
      rw [hc] at h1 ⊢
      simp only [mainRecs, h1, h2, List.map_cons]

theorem count_mdFull (p : ℕ) (r : Rec) : 1 ≤ (mdFull p r ++ (endPoint r.pt ++ ['\n', '\n'])).count '\n' := by
  unfold mdFull
  rw [List.count_append, List.count_append, List.count_cons_self]
  omega

theorem cut_vars (vars : List (List Char)) (h : ∀ v ∈ vars, ' ' ∉ v) :
    (cut ' ' (vars.flatMap fun v => v ++ [' '])).dropLast = vars := by
  have key : cut ' ' (vars.flatMap fun v => v ++ [' ']) = vars ++ [[]] := by
    induction vars with
    | nil => rfl
    | cons v vars ih =>
      rw [List.flatMap_cons, List.append_assoc, List.singleton_append, cut_append (h v (by simp)),
        ih fun v hv => h v (List.mem_cons_of_mem _ hv)]
      rfl
  rw [key, List.dropLast_concat]

/-- **C173, main data**: they give the number of variables, their names and, for exactly the paths whose endgame was
started, in order, all the data printed, `double`s rounded to the precision of the stream. -/
theorem C173_main (p n : ℕ) (vars : List (List Char)) (recs : List Rec) (target start hom : List Char) (hp : 0 < p)
    (hv : ∀ v ∈ vars, ' ' ∉ v ∧ '\n' ∉ v) (h : ∀ r ∈ started recs, r.Ok n) :
    ∃ L, readMain (mainData p n vars recs target start hom) = some (n, vars, L,
        cut '\n' (target ++ '\n' :: '\n' :: (start ++ '\n' :: '\n' :: (hom ++ ['\n', '\n'])))) ∧
      List.Forall₂ (fun r t => t.Says (ReadsD p) r) (started recs) L := by
  refine ⟨(started recs).map (mainTxt p), ?_, forall₂_map fun r hr => mainTxt_says hp (h r hr)⟩
  have hvl : '\n' ∉ vars.flatMap fun v => v ++ [' '] := by
    intro hm
    obtain ⟨v, hm1, hm2⟩ := List.mem_flatMap.1 hm
    rcases List.mem_append.1 hm2 with h' | h'
    · exact (hv v hm1).2 h'
    · revert h'; decide
  unfold readMain mainData
  rw [cut_append (readsN_no (showNat_reads n)), cut_append hvl, cut_nl]
  dsimp only
  rw [digitsOf_reads (showNat_reads n)]
  dsimp only
  rw [mainRecs_cut hp recs h _ _ (started_le (count_mdFull p) recs _)]
  dsimp only
  rw [cut_vars vars fun v h => (hv v h).1]

/-! ### Witness and refutation -/

/-- A path of one coordinate -1.5 + 0.25i. -/
def sample : Rec where
  pathIndex := 3
  solIndex := 0
  cond := .fin (.num false ['1', '0', '4', '8', '5', '7', '7'] 6)
  fres := .fin .zero
  nres := .fin (.num false ['5'] (-11))
  finalTime := (.num false ['1'] (-4), .zero)
  maxPrec := 20
  precTime := (.zero, .zero)
  acc := .inf false
  accUser := .nan true
  cycle := 1
  mult := 1
  pre := 0
  post := 0
  prec := 20
  pt := [(.num true ['1', '5'] 0, .num false ['2', '5'] (-1))]

theorem digits_of_all {l : List Char} (h : l.all isDigit = true) : Digits l := List.all_eq_true.1 h

theorem sample_ok : sample.Ok 1 where
  len := rfl
  pt := by
    intro z hz
    simp only [sample, List.mem_singleton] at hz
    subst hz
    exact ⟨⟨digits_of_all (by decide), _, _, rfl, by decide⟩, ⟨digits_of_all (by decide), _, _, rfl, by decide⟩⟩
  finalTime := ⟨⟨digits_of_all (by decide), _, _, rfl, by decide⟩, trivial⟩
  precTime := ⟨trivial, trivial⟩
  dbl := by
    intro x hx
    simp only [sample, Dbl.fin.injEq, reduceCtorEq, or_false] at hx
    rcases hx with rfl | rfl | rfl
    · exact ⟨digits_of_all (by decide), _, _, rfl, by decide⟩
    · trivial
    · exact ⟨digits_of_all (by decide), _, _, rfl, by decide⟩

/-- The raw data of this path and of one that was not started; the condition number 1048577 is printed as
`1.04858e+06`. -/
example : rawData 6 1 [{ sample with post := -1 }, sample] ['f'] =
    ("1\n\n3\n20\n" ++ "-1.5 0.25\n0\n1.04858e+06\n5e-11\n" ++ "0.0001 0\ninf\n0 0\n1\n0\n\n\n" ++ "\n\nf\n\n").toList := by
  decide +kernel

example : ∃ L, readRaw (rawData 6 1 [{ sample with post := -1 }, sample] ['f']) =
      some (1, L, cut '\n' (['f'] ++ ['\n', '\n'])) ∧
    List.Forall₂ (fun r t => t.Says (ReadsD 6) r) [sample] L :=
  C173_partial 6 1 [{ sample with post := -1 }, sample] ['f'] (by decide) (by
    intro r hr
    simp [started, sample] at hr
    subst hr
    exact sample_ok)

/-- Main data of the same path with the variable `x`. -/
example : ∃ L, readMain (mainData 6 1 [['x']] [sample] ['f'] ['g'] ['h']) = some (1, [['x']], L,
      cut '\n' (['f'] ++ '\n' :: '\n' :: (['g'] ++ '\n' :: '\n' :: (['h'] ++ ['\n', '\n'])))) ∧
    List.Forall₂ (fun r t => t.Says (ReadsD 6) r) [sample] L :=
  C173_main 6 1 [['x']] [sample] ['f'] ['g'] ['h'] (by decide) (by decide) (by
    intro r hr
    simp [started, sample] at hr
    subst hr
    exact sample_ok)

/-- **C173 fails**: the condition number 1048577 is printed as 1048580. -/
theorem C173_refuted : ¬ C173_full := by
  intro h
  have hst : started [sample] = [sample] := by simp [started, sample]
  have hok : ∀ r ∈ started [sample], r.Ok 1 := by
    rw [hst]
    intro r hr
    rw [List.mem_singleton] at hr
    subst hr
    exact sample_ok
  obtain ⟨L, h1, h2⟩ := h 6 1 [sample] [] (by decide) hok
  rw [readRaw_eq 6 1 [sample] [] (by decide) hok] at h1
  simp only [Option.some.injEq, Prod.mk.injEq, true_and, and_true] at h1
  rw [← h1, hst] at h2
  cases h2 with
  | cons h2 _ =>
    have hc := h2.cond
    have h3 : Reads (showDbl 6 sample.cond) (Dec.val (.num false ['1', '0', '4', '8', '5', '7', '7'] 6)) := hc
    obtain ⟨P, h4⟩ := reads_parse h3
    have h5 : parseFloat 0 ((showDbl 6 sample.cond).filter (· ≠ '+')) = .yes ⟨1048580, 20⟩ := by decide +kernel
    rw [h5] at h4
    have h6 : (1048580 : ℚ) = Dec.val (.num false ['1', '0', '4', '8', '5', '7', '7'] 6) := (Fl.mk.inj (Out.yes.inj h4)).1
    have h7 : Dec.val (.num false ['1', '0', '4', '8', '5', '7', '7'] 6) = 1048577 := by decide +kernel
    rw [h7] at h6
    norm_num at h6

end B2.Alg.Report
