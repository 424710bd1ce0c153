/-
C159, C160: random numbers.
-/
import Verif.Infra.Random
import Mathlib.Tactic.Linarith
import Mathlib.Tactic.NormNum
import Mathlib.Tactic.IntervalCases
import Mathlib.Data.Rat.Lemmas

namespace B2.Infra.Rnd

/-! ### C159: integers and rational numbers -/

/-- C159 in full.  `RandomInt<d>` is between `-10^d` and `10^d`; `RandomRat<d>` is a number whose numerator and denominator
are between `-10^d` and `10^d`; whatever the state. -/
def C159_full : Prop :=
  ∀ (g : Source), g.Ok → ∀ (d : ℕ) (s : St),
    (∃ z s', randomInt g d s = .ok z s' ∧ -(10 ^ d : ℤ) ≤ z ∧ z ≤ 10 ^ d) ∧
    (∃ q s', randomRat g d s = .ok q s' ∧ |q.num| ≤ 10 ^ d ∧ (q.den : ℤ) ≤ 10 ^ d)

/-- `(num/den).num` and `.den` are not larger than what is given. -/
theorem div_parts (n q : ℤ) (hq : q ≠ 0) : |((n : ℚ) / q).num| ≤ |n| ∧ (((n : ℚ) / q).den : ℤ) ≤ |q| := by
  constructor
  · by_cases hn : n = 0
    · subst hn; simp
    · have h := Rat.num_dvd n hq
      rw [Rat.divInt_eq_div] at h
      exact Int.le_of_dvd (abs_pos.2 hn) ((abs_dvd_abs _ _).2 h)
  · have h := Rat.den_dvd n q
    rw [Rat.divInt_eq_div] at h
    exact Int.le_of_dvd (abs_pos.2 hq) ((dvd_abs _ _).2 h)

/-- C159 for the bound which the code uses, `2^(1000 d / 301)`: integers and the parts of rational numbers stay within it, the
rational exists unless the second draw is 0.  Where that power is at most `10^d`, the documented bound holds; and only there can it
be guaranteed, as `2^(1000 d / 301)` can be drawn.  Missing: `C159_refuted`. -/
theorem C159_partial (d : ℕ) :
    (∀ (g : Source), g.Ok → ∀ s : St,
      (∃ z s', randomInt g d s = .ok z s' ∧ -(bound d) ≤ z ∧ z ≤ bound d) ∧
      (g.int d (s.ratPos d + 1) ≠ 0 → ∃ q s', randomRat g d s = .ok q s' ∧ |q.num| ≤ bound d ∧ (q.den : ℤ) ≤ bound d) ∧
      (g.int d (s.ratPos d + 1) = 0 → ∃ s', randomRat g d s = .throw s')) ∧
    ((∀ (g : Source), g.Ok → ∀ (s : St) z s', randomInt g d s = .ok z s' → -(10 ^ d : ℤ) ≤ z ∧ z ≤ 10 ^ d) ↔
      2 ^ (d * 1000 / 301) ≤ 10 ^ d) := by
  refine ⟨fun g hg s => ⟨⟨_, _, rfl, hg.int d _⟩, fun hq => ?_, fun hq => ?_⟩, fun h => ?_, fun h => ?_⟩
  · refine ⟨(g.int d (s.ratPos d) : ℚ) / (g.int d (s.ratPos d + 1) : ℤ), _, by unfold randomRat; exact if_neg hq, ?_, ?_⟩
    · exact (div_parts _ _ hq).1.trans (abs_le.2 (hg.int d _))
    · exact (div_parts _ _ hq).2.trans (abs_le.2 (hg.int d _))
  · exact ⟨_, by unfold randomRat; exact if_pos hq⟩
  · have hb : (0 : ℤ) < bound d := by unfold bound; positivity
    have := (h ⟨fun d _ => bound d, fun _ _ => 0⟩
      ⟨fun d _ => ⟨by have : (0 : ℤ) < bound d := by unfold bound; positivity
                      show -(bound d) ≤ bound d; omega, le_refl _⟩, fun _ _ => ⟨le_refl _, zero_le_one⟩⟩ (St.init 30) _ _ rfl).2
    replace this : bound d ≤ 10 ^ d := this
    unfold bound at this
    exact_mod_cast this
  · intro g hg s z s' he
    have hb : bound d ≤ 10 ^ d := by unfold bound; exact_mod_cast h
    have h1 := hg.int d (s.intPos d)
    unfold randomInt at he
    injection he with he _
    subst he
    constructor <;> omega

/-- The condition holds for the default of 50 digits. -/
theorem C159_default (g : Source) (hg : g.Ok) (s : St) :
    ∃ z s', randomInt g 50 s = .ok z s' ∧ -(10 ^ 50 : ℤ) ≤ z ∧ z ≤ 10 ^ 50 :=
  ⟨_, _, rfl, (C159_partial 50).2.2 (by norm_num) g hg s _ _ rfl⟩

/-- C159 does not hold: at 59 digits the bound is larger than `10^59`; and for every number of digits, a denominator may be 0. -/
theorem C159_refuted : ¬ C159_full ∧
    (∃ g : Source, g.Ok ∧ ∀ s : St, ∃ z s', randomInt g 59 s = .ok z s' ∧ 10 ^ 59 < z) ∧
    (∀ d, ∃ g : Source, g.Ok ∧ ∀ s : St, ∃ s', randomRat g d s = .throw s') := by
  have hok : Source.Ok ⟨fun _ _ => 0, fun _ _ => 0⟩ :=
    ⟨fun d _ => ⟨by have : (0 : ℤ) < bound d := by unfold bound; positivity
                    show -(bound d) ≤ 0; omega, by have : (0 : ℤ) < bound d := by unfold bound; positivity
                                                   show 0 ≤ bound d; omega⟩, fun _ _ => ⟨le_refl _, zero_le_one⟩⟩
  refine ⟨fun h => ?_, ⟨⟨fun d _ => bound d, fun _ _ => 0⟩, ?_, fun s => ⟨_, _, rfl, ?_⟩⟩, fun d => ⟨_, hok, fun s => ⟨_, rfl⟩⟩⟩
  · obtain ⟨-, q, s', h1, -⟩ := h _ hok 50 (St.init 30)
    cases h1
  · exact ⟨fun d _ => ⟨by have : (0 : ℤ) < bound d := by unfold bound; positivity
                          show -(bound d) ≤ bound d; omega, le_refl _⟩, fun _ _ => ⟨le_refl _, zero_le_one⟩⟩
  · show (10 : ℤ) ^ 59 < bound 59
    unfold bound
    norm_num

theorem ints_get (g : Source) (d : ℕ) : ∀ (k : ℕ) (s : St), ints g d k s = (List.range k).map fun i => g.int d (s.intPos d + i) := by
  intro k
  induction k with
  | zero => intro s; rfl
  | succ k ih =>
    intro s
    simp only [ints, randomInt, ih, adv, if_true, List.range_succ_eq_map, List.map_cons, List.map_map, Nat.add_zero, List.cons.injEq,
      true_and]
    refine List.map_congr_left fun i _ => ?_
    simp only [Function.comp_apply, Nat.succ_eq_add_one]
    congr 1
    omega

theorem rats_get (g : Source) (d : ℕ) : ∀ (k : ℕ) (s : St), rats g d k s = (List.range k).map fun i =>
    if g.int d (s.ratPos d + 2 * i + 1) = 0 then none
    else some ((g.int d (s.ratPos d + 2 * i) : ℚ) / g.int d (s.ratPos d + 2 * i + 1)) := by
  intro k
  induction k with
  | zero => intro s; rfl
  | succ k ih =>
    intro s
    rw [List.range_succ_eq_map, List.map_cons, List.map_map]
    have ht : (List.range k).map ((fun i => if g.int d (s.ratPos d + 2 * i + 1) = 0 then none
        else some ((g.int d (s.ratPos d + 2 * i) : ℚ) / g.int d (s.ratPos d + 2 * i + 1))) ∘ Nat.succ) =
        rats g d k { s with ratPos := adv s.ratPos d 2 } := by
      rw [ih]
      refine List.map_congr_left fun i _ => ?_
      simp only [Function.comp_apply, Nat.succ_eq_add_one, adv, if_true]
      rw [show s.ratPos d + 2 * (i + 1) = s.ratPos d + 2 + 2 * i by omega]
    rw [ht]
    simp only [rats, randomRat, Nat.mul_zero, Nat.add_zero]
    by_cases h : g.int d (s.ratPos d + 1) = 0
    · simp [h]
    · simp [h]

/-- The two functions do not draw independently: the `i`-th random rational of a program is the quotient of its random integers number
`2i` and `2i+1` (counted from 0, for the same number of digits). -/
theorem C159_correlated (g : Source) (d dp k i : ℕ) (hi : i < k) :
    (rats g d k (St.init dp))[i]? =
      some (match (ints g d (2 * k) (St.init dp))[2 * i]?, (ints g d (2 * k) (St.init dp))[2 * i + 1]? with
        | some n, some q => if q = 0 then none else some ((n : ℚ) / q)
        | _, _ => none) := by
  rw [rats_get, ints_get]
  have h1 : 2 * i < 2 * k := by omega
  have h2 : 2 * i + 1 < 2 * k := by omega
  simp [List.getElem?_map, List.getElem?_range, hi, h1, h2, St.init]

/-- A generator giving 2, 3, 4, 5, ... (within bounds for the first draws): the second rational is 4/5. -/
example : (rats ⟨fun _ k => k + 2, fun _ _ => 0⟩ 50 2 (St.init 30))[1]? = some (some (4 / 5)) := by
  rw [C159_correlated _ 50 30 2 1 (by omega), ints_get]
  norm_num [St.init, List.range_succ]

/-! ### C160: multiple precision -/

/-- What is needed of rounding: it is monotone and does not change small integers. -/
structure Rounds (rnd : ℕ → ℝ → ℝ) : Prop where
  mono : ∀ p x y, x ≤ y → rnd p x ≤ rnd p y
  zero : ∀ p, rnd p 0 = 0
  one : ∀ p, rnd p 1 = 1
  neg_one : ∀ p, rnd p (-1) = -1
  two : ∀ p, rnd p 2 = 2

/-- What a call leaves behind as default precision. -/
def Out.dp {α : Type} : Out α → ℕ
  | .ok _ s => s.dp
  | .throw s => s.dp

/-- C160 in full: for every number of digits, `RandomReal(n)` gives a real number in `[-1, 1]` of precision `n`, `RandomMp(n)` one in `[0, 1]`,
`RandomComplex(n)` a number of precision `n`; and the default precision after the call is the one before. -/
def C160_full : Prop :=
  ∀ (g : Source), g.Ok → ∀ rnd, Rounds rnd → ∀ (w n : ℕ) (s : St),
    (∃ z s', randomReal g rnd w n s = .ok z s' ∧ z.prec = n ∧ z.im = 0 ∧ -1 ≤ z.re ∧ z.re ≤ 1 ∧ s'.dp = s.dp) ∧
    (∃ z s', randomMp g rnd n s = .ok z s' ∧ z.prec = n ∧ 0 ≤ z.val ∧ z.val ≤ 1 ∧ s'.dp = s.dp) ∧
    (∃ z s', randomComplex g rnd n s = .ok z s' ∧ z.prec = n ∧ s'.dp = s.dp)

/-- Which template is taken: one of at least `n` digits, no shorter one would do; up to 40000 digits. -/
theorem pick_spec (n : ℕ) : (∀ t, pick n = some t → n ≤ t ∧ ∀ t' ∈ lengths, n ≤ t' → t ≤ t') ∧ (pick n = none ↔ 40000 < n) := by
  constructor
  · intro t ht
    unfold pick at ht
    refine ⟨by simpa using List.find?_some ht, fun t' ht' hn => ?_⟩
    obtain ⟨-, as, bs, e, hno⟩ := List.find?_eq_some_iff_append.1 ht
    rw [e] at ht'
    rcases List.mem_append.1 ht' with h | h
    · exact absurd hn (by simpa using hno t' h)
    · have hs : lengths.Pairwise (· < ·) := by decide
      rw [e] at hs
      rcases List.mem_cons.1 h with rfl | h
      · exact le_rfl
      · exact ((List.pairwise_cons.1 (List.pairwise_append.1 hs).2.1).1 t' h).le
  · unfold pick
    rw [List.find?_eq_none]
    constructor
    · intro h
      have := h 40000 (by decide)
      simpa using this
    · intro h t ht
      have : ∀ t ∈ lengths, t ≤ 40000 := by decide
      have := this t ht
      simp only [decide_eq_true_eq, not_le]
      omega

theorem mp_range (g : Source) (hg : g.Ok) (rnd : ℕ → ℝ → ℝ) (hr : Rounds rnd) (n t k : ℕ) :
    0 ≤ rnd n (g.real t k) ∧ rnd n (g.real t k) ≤ 1 := by
  have h := hg.real t k
  exact ⟨by have := hr.mono n _ _ h.1; rwa [hr.zero] at this, by have := hr.mono n _ _ h.2; rwa [hr.one] at this⟩

theorem in_range (g : Source) (hg : g.Ok) (rnd : ℕ → ℝ → ℝ) (hr : Rounds rnd) (w n t k : ℕ) :
    -1 ≤ rnd n (rnd w (rnd w (rnd w (1 - (-1)) * g.real t k) + (-1))) ∧
      rnd n (rnd w (rnd w (rnd w (1 - (-1)) * g.real t k) + (-1))) ≤ 1 := by
  have h := hg.real t k
  rw [show (1 : ℝ) - (-1) = 2 by norm_num, hr.two]
  have a1 : 0 ≤ rnd w (2 * g.real t k) := by have := hr.mono w 0 (2 * g.real t k) (by linarith); rwa [hr.zero] at this
  have a2 : rnd w (2 * g.real t k) ≤ 2 := by have := hr.mono w (2 * g.real t k) 2 (by linarith); rwa [hr.two] at this
  have b1 : -1 ≤ rnd w (rnd w (2 * g.real t k) + -1) := by
    have := hr.mono w (-1) (rnd w (2 * g.real t k) + -1) (by linarith); rwa [hr.neg_one] at this
  have b2 : rnd w (rnd w (2 * g.real t k) + -1) ≤ 1 := by
    have := hr.mono w (rnd w (2 * g.real t k) + -1) 1 (by linarith); rwa [hr.one] at this
  exact ⟨by have := hr.mono n _ _ b1; rwa [hr.neg_one] at this, by have := hr.mono n _ _ b2; rwa [hr.one] at this⟩

/-- C160 up to 40000 digits, with rounding; moreover the parts of `RandomComplex(n)` are in `[0, 1]`: its numbers are all in the first
quadrant, whereas those of `rand()` are in the whole square.  Beyond 40000 digits all of these throw, and the ones that set the default precision
leave it at `n`. -/
theorem C160_partial (g : Source) (hg : g.Ok) (rnd : ℕ → ℝ → ℝ) (hr : Rounds rnd) (w n : ℕ) (s : St) :
    (n ≤ 40000 →
      (∃ z s', randomReal g rnd w n s = .ok z s' ∧ z.prec = n ∧ z.im = 0 ∧ -1 ≤ z.re ∧ z.re ≤ 1 ∧ s'.dp = s.dp) ∧
      (∃ z s', randomMp g rnd n s = .ok z s' ∧ z.prec = n ∧ 0 ≤ z.val ∧ z.val ≤ 1 ∧ s'.dp = s.dp) ∧
      (∃ z s', randomComplex g rnd n s = .ok z s' ∧ z.prec = n ∧ 0 ≤ z.re ∧ z.re ≤ 1 ∧ 0 ≤ z.im ∧ z.im ≤ 1 ∧ s'.dp = s.dp)) ∧
    (40000 < n →
      (∃ s', randomReal g rnd w n s = .throw s' ∧ s'.dp = n) ∧ (∃ s', randomMp g rnd n s = .throw s' ∧ s'.dp = s.dp) ∧
      (∃ s', randomComplex g rnd n s = .throw s' ∧ s'.dp = n)) := by
  refine ⟨fun hn => ?_, fun hn => ?_⟩
  · obtain ⟨t, ht⟩ : ∃ t, pick n = some t := Option.ne_none_iff_exists'.1 fun h => by
      have := (pick_spec n).2.1 h; omega
    refine ⟨?_, ?_, ?_⟩
    · simp only [randomReal, randomMpIn, ht]
      exact ⟨_, _, rfl, rfl, rfl, (in_range g hg rnd hr w n t _).1, (in_range g hg rnd hr w n t _).2, rfl⟩
    · simp only [randomMp, ht]
      exact ⟨_, _, rfl, rfl, (mp_range g hg rnd hr n t _).1, (mp_range g hg rnd hr n t _).2, rfl⟩
    · simp only [randomComplex, randomMp, ht]
      exact ⟨_, _, rfl, rfl, (mp_range g hg rnd hr n t _).1, (mp_range g hg rnd hr n t _).2,
        (mp_range g hg rnd hr n t _).1, (mp_range g hg rnd hr n t _).2, rfl⟩
  · have ht := (pick_spec n).2.2 hn
    simp only [randomReal, randomMpIn, randomMp, randomComplex, ht]
    exact ⟨⟨_, rfl, rfl⟩, ⟨_, rfl, rfl⟩, ⟨_, rfl, rfl⟩⟩

/-- At the default precision (at most 40000), `rand()` gives a number in the square `[-1,1]²` of that precision; and both signs occur, for some draws. -/
theorem C160_rand (rnd : ℕ → ℝ → ℝ) (hr : Rounds rnd) (w : ℕ) (s : St) (hs : s.dp ≤ 40000) :
    (∀ g : Source, g.Ok → ∃ z s', rand g rnd w s = .ok z s' ∧ z.prec = s.dp ∧ -1 ≤ z.re ∧ z.re ≤ 1 ∧ -1 ≤ z.im ∧ z.im ≤ 1 ∧
      s'.dp = s.dp) ∧
    ∃ g : Source, g.Ok ∧ ∃ z s', rand g rnd w s = .ok z s' ∧ z.re = -1 ∧ z.im = -1 := by
  obtain ⟨t, ht⟩ : ∃ t, pick s.dp = some t := Option.ne_none_iff_exists'.1 fun h => by
    have := (pick_spec s.dp).2.1 h; omega
  refine ⟨fun g hg => ?_, ⟨⟨fun _ _ => 0, fun _ _ => 0⟩, ?_, ?_⟩⟩
  · simp only [rand, randomMpIn, ht]
    exact ⟨_, _, rfl, rfl, (in_range g hg rnd hr w s.dp t _).1, (in_range g hg rnd hr w s.dp t _).2,
      (in_range g hg rnd hr w s.dp t _).1, (in_range g hg rnd hr w s.dp t _).2, rfl⟩
  · exact ⟨fun d _ => ⟨by have : (0 : ℤ) < bound d := by unfold bound; positivity
                          show -(bound d) ≤ 0; omega, by have : (0 : ℤ) < bound d := by unfold bound; positivity
                                                         show 0 ≤ bound d; omega⟩, fun _ _ => ⟨le_refl _, zero_le_one⟩⟩
  · simp only [rand, randomMpIn, ht]
    refine ⟨_, _, rfl, ?_, ?_⟩ <;> simp [hr.zero, hr.neg_one]

/-- The results of `k` calls in a row. -/
def inRow {α : Type} (f : St → Out α) : ℕ → St → List (Option α)
  | 0, _ => []
  | k + 1, s => match f s with
    | .ok a s' => some a :: inRow f k s'
    | .throw s' => none :: inRow f k s'

theorem inRow_eq {α : Type} (f : St → Out α) (t m : ℕ) (a : ℕ → α)
    (h : ∀ s, ∃ s', f s = .ok (a (s.mpPos t)) s' ∧ s'.mpPos t = s.mpPos t + m) (k : ℕ) (s : St) :
    inRow f k s = (List.range k).map fun i => some (a (s.mpPos t + m * i)) := by
  induction k generalizing s with
  | zero => rfl
  | succ k ih =>
    obtain ⟨s', h1, h2⟩ := h s
    rw [inRow, h1, List.range_succ_eq_map, List.map_cons, List.map_map]
    dsimp only
    rw [ih, h2]
    refine congrArg₂ _ (by simp) (List.map_congr_left fun i _ => ?_)
    simp only [Function.comp_apply]
    rw [show s.mpPos t + m + m * i = s.mpPos t + m * (i + 1) by rw [Nat.mul_succ]; omega]

/-- C160, several numbers: calls in a row give the successive numbers of the generator with the shortest sufficient length, each of them
used once and none left out: `RandomMp` and `RandomReal` one for each number, `RandomComplex` and `rand` one for each part. -/
theorem C160_sequence (g : Source) (rnd : ℕ → ℝ → ℝ) (w n t k : ℕ) (s : St) (ht : pick n = some t) :
    inRow (randomMp g rnd n) k s = (List.range k).map (fun i => some ⟨rnd n (g.real t (s.mpPos t + i)), n⟩) ∧
    inRow (randomReal g rnd w n) k s = (List.range k).map (fun i =>
      some ⟨rnd n (rnd w (rnd w (rnd w (1 - -1) * g.real t (s.mpPos t + i)) + -1)), 0, n⟩) ∧
    inRow (randomComplex g rnd n) k s = (List.range k).map (fun i =>
      some ⟨rnd n (g.real t (s.mpPos t + 2 * i)), rnd n (g.real t (s.mpPos t + 2 * i + 1)), n⟩) ∧
    (s.dp = n → inRow (rand g rnd w) k s = (List.range k).map (fun i =>
      some ⟨rnd n (rnd w (rnd w (rnd w (1 - -1) * g.real t (s.mpPos t + 2 * i)) + -1)),
        rnd n (rnd w (rnd w (rnd w (1 - -1) * g.real t (s.mpPos t + 2 * i + 1)) + -1)), n⟩)) := by
  refine ⟨?_, ?_, ?_, ?_⟩
  · have := inRow_eq (randomMp g rnd n) t 1 (fun p => ⟨rnd n (g.real t p), n⟩)
      (fun s => ⟨_, by simp only [randomMp, ht]; rfl, by simp [adv]⟩) k s
    simpa using this
  · have := inRow_eq (randomReal g rnd w n) t 1
      (fun p => ⟨rnd n (rnd w (rnd w (rnd w (1 - -1) * g.real t p) + -1)), 0, n⟩)
      (fun s => ⟨_, by simp only [randomReal, randomMpIn, ht]; rfl, by simp [adv]⟩) k s
    rw [this]
    simp
  · exact inRow_eq (randomComplex g rnd n) t 2 (fun p => ⟨rnd n (g.real t p), rnd n (g.real t (p + 1)), n⟩)
      (fun s => ⟨_, by simp only [randomComplex, randomMp, ht, adv, if_true]; rfl, by simp [adv]⟩) k s
  · intro hs
    have key : ∀ k (s : St), s.dp = n → inRow (rand g rnd w) k s = (List.range k).map (fun i =>
      some (⟨rnd n (rnd w (rnd w (rnd w (1 - -1) * g.real t (s.mpPos t + 2 * i)) + -1)),
        rnd n (rnd w (rnd w (rnd w (1 - -1) * g.real t (s.mpPos t + 2 * i + 1)) + -1)), n⟩ : MpC)) := by
      intro k
      induction k with
      | zero => intro s _; rfl
      | succ k ih =>
        intro s hs
        rw [inRow, List.range_succ_eq_map, List.map_cons, List.map_map]
        simp only [rand, randomMpIn, hs, ht]
        rw [ih _ rfl]
        simp only [adv, if_true]
        refine congrArg₂ _ (by simp) (List.map_congr_left fun i _ => ?_)
        simp only [Function.comp_apply]
        rw [show s.mpPos t + 1 + 1 + 2 * i = s.mpPos t + 2 * (i + 1) by omega]
    exact key k s hs

/-- A case: three complex numbers of 30 digits at the start of the program use the first six numbers of the generator for 50 digits. -/
example (g : Source) : inRow (randomComplex g (fun _ x => x) 30) 3 (St.init 16) =
    [some ⟨g.real 50 0, g.real 50 1, 30⟩, some ⟨g.real 50 2, g.real 50 3, 30⟩, some ⟨g.real 50 4, g.real 50 5, 30⟩] :=
  (C160_sequence g (fun _ x => x) 16 30 50 3 (St.init 16) (by decide)).2.2.1

/-- C160 does not hold: beyond 40000 digits there is an exception, and the default precision stays changed. -/
theorem C160_refuted : ¬ C160_full ∧ ∀ (g : Source) (rnd : ℕ → ℝ → ℝ) (w n : ℕ) (s : St), 40000 < n →
    (randomReal g rnd w n s).dp = n ∧ (randomComplex g rnd n s).dp = n := by
  constructor
  · intro h
    have hok : Source.Ok ⟨fun _ _ => 0, fun _ _ => 0⟩ :=
      ⟨fun d _ => ⟨by have : (0 : ℤ) < bound d := by unfold bound; positivity
                      show -(bound d) ≤ 0; omega, by have : (0 : ℤ) < bound d := by unfold bound; positivity
                                                     show 0 ≤ bound d; omega⟩, fun _ _ => ⟨le_refl _, zero_le_one⟩⟩
    have hr : Rounds fun _ x => x := ⟨fun _ _ _ h => h, fun _ => rfl, fun _ => rfl, fun _ => rfl, fun _ => rfl⟩
    obtain ⟨-, ⟨z, s', h1, -⟩, -⟩ := h _ hok _ hr 30 40001 (St.init 30)
    obtain ⟨s'', h2, -⟩ := ((C160_partial _ hok _ hr 30 40001 (St.init 30)).2 (by omega)).2.1
    rw [h2] at h1
    cases h1
  · intro g rnd w n s hn
    have ht := (pick_spec n).2.2 hn
    simp only [randomReal, randomMpIn, randomMp, randomComplex, ht, Out.dp, and_self]

/-- The hypotheses hold for exact arithmetic and a generator giving a half; a random number of 60 digits has 60 digits. -/
example : ∃ z s', randomMp ⟨fun _ _ => 0, fun _ _ => 1 / 2⟩ (fun _ x => x) 60 (St.init 30) = .ok z s' ∧ z.prec = 60 := by
  obtain ⟨-, ⟨z, s', h1, h2, -⟩, -⟩ := (C160_partial ⟨fun _ _ => 0, fun _ _ => 1 / 2⟩
    ⟨fun d _ => ⟨by have : (0 : ℤ) < bound d := by unfold bound; positivity
                    show -(bound d) ≤ 0; omega, by have : (0 : ℤ) < bound d := by unfold bound; positivity
                                                   show 0 ≤ bound d; omega⟩, fun _ _ => ⟨by norm_num, by norm_num⟩⟩
    (fun _ x => x) ⟨fun _ _ _ h => h, fun _ => rfl, fun _ => rfl, fun _ => rfl, fun _ => rfl⟩ 30 60 (St.init 30)).1 (by omega)
  exact ⟨z, s', h1, h2⟩

end B2.Infra.Rnd
