import Verif.Endgame.PropsCauchy2

/-!
# C106, C107: when the Cauchy endgame believes it is in the operating zone
-/

set_option linter.unusedSimpArgs false

namespace B2.Endgame
open B2.Track (Code)

variable {X : Type}

/-! ### C106: the ratio test -/

/-- What the operating zone means for a circle of the given radius around the target time, along which the samples
have the given norms: the circle is smaller than the cutoff, or some sample is no larger than the final tolerance, or
all norms agree up to the final tolerance, or none is smaller than `ratio` times another. -/
def InZone (cutoff tol ratio radius : ℝ) (norms : List ℝ) : Prop :=
  radius < cutoff ∨ (∃ a ∈ norms, a ≤ tol) ∨ (∀ a ∈ norms, ∀ b ∈ norms, a - b ≤ tol) ∨
    (∀ a ∈ norms, ∀ b ∈ norms, ratio * b ≤ a)

theorem foldl_max_spec : ∀ (l : List ℝ) (m : ℝ), m ≤ l.foldl max m ∧ (∀ a ∈ l, a ≤ l.foldl max m) ∧
    (l.foldl max m = m ∨ l.foldl max m ∈ l)
  | [], m => by simp
  | a :: l, m => by
    obtain ⟨h1, h2, h3⟩ := foldl_max_spec l (max m a)
    simp only [List.foldl_cons, List.mem_cons, forall_eq_or_imp]
    refine ⟨(le_max_left _ _).trans h1, ⟨(le_max_right _ _).trans h1, h2⟩, ?_⟩
    rcases h3 with h3 | h3
    · rw [h3]
      rcases max_choice m a with h | h
      · exact .inl h
      · exact .inr (.inl h)
    · exact .inr (.inr h3)

theorem foldl_min_spec : ∀ (l : List ℝ) (m : ℝ), l.foldl min m ≤ m ∧ (∀ a ∈ l, l.foldl min m ≤ a) ∧
    (l.foldl min m = m ∨ l.foldl min m ∈ l)
  | [], m => by simp
  | a :: l, m => by
    obtain ⟨h1, h2, h3⟩ := foldl_min_spec l (min m a)
    simp only [List.foldl_cons, List.mem_cons, forall_eq_or_imp]
    refine ⟨h1.trans (min_le_left _ _), ⟨h1.trans (min_le_right _ _), h2⟩, ?_⟩
    rcases h3 with h3 | h3
    · rw [h3]
      rcases min_choice m a with h | h
      · exact .inl h
      · exact .inr (.inl h)
    · exact .inr (.inr h3)

theorem max_mem (l : List ℝ) (hl : l ≠ []) (h0 : ∀ a ∈ l, 0 ≤ a) : l.foldl max 0 ∈ l := by
  obtain ⟨h1, h2, h3⟩ := foldl_max_spec l 0
  rcases h3 with h3 | h3
  · obtain ⟨a, ha⟩ := List.exists_mem_of_ne_nil l hl
    have h4 := h2 a ha
    have h5 := h0 a ha
    have : l.foldl max 0 = a := by linarith
    rw [this]; exact ha
  · exact h3

theorem min_mem (l : List ℝ) (m : ℝ) (hl : l ≠ []) (h0 : ∀ a ∈ l, a ≤ m) : l.foldl min m ∈ l := by
  obtain ⟨h1, h2, h3⟩ := foldl_min_spec l m
  rcases h3 with h3 | h3
  · obtain ⟨a, ha⟩ := List.exists_mem_of_ne_nil l hl
    have h4 := h2 a ha
    have h5 := h0 a ha
    have : l.foldl min m = a := by linarith
    rw [this]; exact ha
  · exact h3

/-- **C106 (the test).** The code's test, on the samples of one turn around the circle through `t`, is the operating
zone with the *square* of the radius in the place of the radius. -/
theorem C106_test (E : CEnv X) (cfg : CCfg) (target : ℂ) (s : CSt X) (t : ℂ) (ht : s.cT.head? = some t)
    (hx : s.cX ≠ []) (hn : 1 ≤ cfg.n) (hb : ∀ x ∈ s.cX, 0 ≤ E.sampNorm x ∧ E.sampNorm x ≤ 10 ^ 300)
    (htol : 0 ≤ cfg.finalTol) :
    zoneTest E cfg target s ↔
      InZone cfg.ratioCutoff cfg.finalTol cfg.maxRatio (‖t - target‖ ^ 2) ((s.cX.take cfg.n).map E.sampNorm) := by
  have hne : (s.cX.take cfg.n).map E.sampNorm ≠ [] := by
    cases hc : s.cX with
    | nil => exact absurd hc hx
    | cons a l =>
      obtain ⟨m, hm⟩ : ∃ m, cfg.n = m + 1 := ⟨cfg.n - 1, by omega⟩
      simp [hm]
  unfold zoneTest InZone
  rw [ht]
  have hb' : ∀ a ∈ (s.cX.take cfg.n).map E.sampNorm, 0 ≤ a ∧ a ≤ 10 ^ 300 := by
    intro a ha
    obtain ⟨x, h1, rfl⟩ := List.mem_map.mp ha
    exact hb x (List.mem_of_mem_take h1)
  generalize (s.cX.take cfg.n).map E.sampNorm = l at hne hb'
  dsimp only
  have h1 := max_mem l hne fun a ha => (hb' a ha).1
  have h2 := min_mem l (10 ^ 300) hne fun a ha => (hb' a ha).2
  obtain ⟨-, h3, -⟩ := foldl_max_spec l 0
  obtain ⟨-, h4, -⟩ := foldl_min_spec l (10 ^ 300)
  generalize l.foldl max 0 = mx at h1 h3
  generalize l.foldl min (10 ^ 300) = mn at h2 h4
  refine or_congr (by simp) ⟨fun h => ?_, fun h => ?_⟩
  · by_cases c1 : mn ≤ cfg.finalTol
    · exact .inl ⟨mn, h2, c1⟩
    push Not at c1
    have c2 : cfg.finalTol < mx := c1.trans_le (h4 mx h1)
    have hpos : 0 < mx := htol.trans_lt c2
    by_cases c3 : mn / mx < cfg.maxRatio
    · have c4 : ¬ cfg.finalTol < mx - mn := fun c4 => h ⟨c1, c2, c3, c4⟩
      push Not at c4
      refine .inr (.inl fun a ha b hb => ?_)
      have := h3 a ha
      have := h4 b hb
      linarith
    · push Not at c3
      rw [le_div_iff₀ hpos] at c3
      refine .inr (.inr fun a ha b hb => ?_)
      by_cases hr : 0 ≤ cfg.maxRatio
      · exact (mul_le_mul_of_nonneg_left (h3 b hb) hr).trans (c3.trans (h4 a ha))
      · push Not at hr
        have := mul_nonpos_of_nonpos_of_nonneg hr.le (hb' b hb).1
        exact this.trans (hb' a ha).1
  · rintro ⟨c1, c2, c3, c4⟩
    rcases h with ⟨a, ha, h⟩ | h | h
    · exact absurd (h4 a ha) (by linarith)
    · have := h mx h1 mn h2
      linarith
    · have := h mn h2 mx h1
      rw [div_lt_iff₀ (htol.trans_lt c2)] at c3
      linarith

theorem circleTrack_prefix (E : CEnv X) (cfg : CCfg) (target : ℂ) (s s' : CSt X) (c : Code)
    (h : circleTrack E cfg target s = .done c s') : s.cT <+: s'.cT ∧ s.cX <+: s'.cX := by
  unfold circleTrack at h
  by_cases hn : cfg.n < 3
  · rw [if_pos hn] at h; cases h
  rw [if_neg hn] at h
  cases ht : s.cT.getLast? with
  | none => rw [ht] at h; cases h
  | some t =>
    cases hx : s.cX.getLast? with
    | none => rw [ht, hx] at h; cases h
    | some x =>
      rw [ht, hx] at h
      dsimp only at h
      obtain ⟨c1, ts', xs', k', hr⟩ : ∃ c ts' xs' k',
          circleLoop E cfg.n t target cfg.n 0 s.k s.cT s.cX t x = (c, ts', xs', k') := ⟨_, _, _, _, rfl⟩
      rw [hr] at h
      obtain ⟨-, -, h3, h4⟩ := circleLoop_spec E cfg.n t target _ _ _ _ _ _ _ _ _ _ _ hr
      simp only [Res.done.injEq] at h
      obtain ⟨-, rfl⟩ := h
      exact ⟨h3, h4⟩

theorem take_of_prefix {α : Type} {l l' : List α} (h : l <+: l') {n : ℕ} (hn : n ≤ l.length) :
    l'.take n = l.take n := by
  obtain ⟨r, rfl⟩ := h
  rw [List.take_append_of_le_length hn]

theorem checkClosed_take (E : CEnv X) (cfg : CCfg) (s : CSt X) (n : ℕ) (hn : n + 1 ≤ s.cX.length) :
    (((checkClosed E cfg s).2.cX).take n).tail = (s.cX.take n).tail := by
  unfold checkClosed
  match ht : s.cT, hx : s.cX with
  | t :: ts, x :: xs =>
    dsimp only
    split_ifs with hb
    · rw [hx]
    · rw [hx] at hn
      simp only [List.length_cons, Nat.add_le_add_iff_right] at hn
      rw [List.take_append_of_le_length (by simp; omega)]
      cases n with
      | zero => simp
      | succ n =>
        cases xs with
        | nil => simp at hn
        | cons y ys =>
          simp only [List.length_cons, Nat.add_le_add_iff_right] at hn
          rw [List.dropLast_cons_of_ne_nil (by simp), List.take_succ_cons, List.tail_cons, List.take_succ_cons,
            List.tail_cons, List.dropLast_eq_take, List.take_take, List.length_cons]
          congr 1
          omega
  | [], l => dsimp only; rw [hx]
  | _ :: _, [] => dsimp only; rw [hx]

theorem closeLoop_keeps (E : CEnv X) (cfg : CCfg) (target : ℂ) (hn : 3 ≤ cfg.n) :
    ∀ m (s s' : CSt X), cfg.failsafe + 1 - s.cyc = m → CLoops cfg.n s → cfg.n + 1 ≤ s.cX.length →
      closeLoop E cfg target s = .done .success s' →
      s'.cT.head? = s.cT.head? ∧ (s'.cX.take cfg.n).tail = (s.cX.take cfg.n).tail := by
  intro m
  induction m with
  | zero =>
    intro s s' hm hl hx h
    obtain ⟨-, -, -, -, -, h6, -⟩ := checkClosed_spec E cfg cfg.n s hl
    rw [closeLoop] at h
    dsimp only at h
    by_cases hb : (checkClosed E cfg s).1 = true
    · rw [if_pos hb] at h
      simp only [Res.done.injEq, true_and] at h
      subst h
      exact ⟨by rw [h6], checkClosed_take E cfg s cfg.n hx⟩
    · rw [if_neg hb, if_pos (by omega)] at h
      cases h
  | succ m ih =>
    intro s s' hm hl hx h
    obtain ⟨-, h2, h3, -, -, h6, -⟩ := checkClosed_spec E cfg cfg.n s hl
    rw [closeLoop] at h
    dsimp only at h
    by_cases hb : (checkClosed E cfg s).1 = true
    · rw [if_pos hb] at h
      simp only [Res.done.injEq, true_and] at h
      subst h
      exact ⟨by rw [h6], checkClosed_take E cfg s cfg.n hx⟩
    · rw [if_neg hb, if_neg (by omega)] at h
      have h8 : CLoops cfg.n { (checkClosed E cfg s).2 with cyc := s.cyc } :=
        ⟨by have := h2.lenT; rwa [h3] at this, by have := h2.lenX; rwa [h3] at this⟩
      obtain ⟨c, s1, t, e, g1, -, -, -, -, g6, -⟩ := circleTrack_spec E cfg target _ hn h8
      obtain ⟨p1, p2⟩ := circleTrack_prefix E cfg target _ _ _ e
      rw [e] at h
      cases c <;> simp only [Res.done.injEq, reduceCtorEq, false_and] at h
      obtain ⟨g8, -⟩ := g6 rfl
      have hlen : (checkClosed E cfg s).2.cX.length = s.cX.length := by rw [h2.lenX, h3, hl.lenX]
      have hT : s1.cT.head? = s.cT.head? := by
        obtain ⟨r, hr⟩ := p1
        simp only at hr
        rw [← hr, h6]
        cases hc : s.cT with
        | nil => have := hl.lenT; rw [hc] at this; simp at this
        | cons a l => rfl
      have hX : (s1.cX.take cfg.n).tail = (s.cX.take cfg.n).tail := by
        rw [take_of_prefix p2 (by simp only; omega)]
        exact checkClosed_take E cfg s cfg.n hx
      have hle : cfg.n + 1 ≤ s1.cX.length := by
        have := p2.length_le
        simp only at this
        omega
      obtain ⟨i1, i2⟩ := ih { s1 with cyc := s.cyc + 1 } s' (by simp only; omega)
        ⟨by have := g8.lenT; rwa [g1] at this, by have := g8.lenX; rwa [g1] at this⟩ hle h
      exact ⟨i1.trans hT, i2.trans hX⟩

/-- C106, full statement: when the initial loops succeed, the circle they closed — the one at the latest time, with the
samples of its first turn before the ends of the loop were refined — lies in the operating zone. -/
def C106_full : Prop :=
  ∀ (X : Type) (E : CEnv X) (cfg : CCfg) (target : ℂ) (s s' : CSt X) (fuel : ℕ), 3 ≤ cfg.n → PSOk s →
    (∀ x, 0 ≤ E.sampNorm x ∧ E.sampNorm x ≤ 10 ^ 300) → 0 ≤ cfg.finalTol →
    initialLoops E cfg target fuel s = .done .success s' →
    ∃ (t : ℂ) (xs : List X), s'.psT.getLast? = some t ∧ s'.cT.head? = some t ∧ xs.length = cfg.n ∧
      (s'.cX.take cfg.n).tail = xs.tail ∧
      InZone cfg.ratioCutoff cfg.finalTol cfg.maxRatio ‖t - target‖ (xs.map E.sampNorm)

/-- **C106.** The same with the square of the radius of the circle compared with `ratio_cutoff_time`. Missing: the
comparison of the radius itself, where the claim is false. -/
theorem C106_partial (E : CEnv X) (cfg : CCfg) (target : ℂ) (hn : 3 ≤ cfg.n)
    (hb : ∀ x, 0 ≤ E.sampNorm x ∧ E.sampNorm x ≤ 10 ^ 300) (htol : 0 ≤ cfg.finalTol) :
    ∀ (fuel : ℕ) (s s' : CSt X), PSOk s → initialLoops E cfg target fuel s = .done .success s' →
    ∃ (t : ℂ) (xs : List X), s'.psT.getLast? = some t ∧ s'.cT.head? = some t ∧ xs.length = cfg.n ∧
      (s'.cX.take cfg.n).tail = xs.tail ∧
      InZone cfg.ratioCutoff cfg.finalTol cfg.maxRatio (‖t - target‖ ^ 2) (xs.map E.sampNorm) := by
  intro fuel
  induction fuel with
  | zero => intro s s' _ h; rw [initialLoops] at h; cases h
  | succ fuel ih =>
    intro s s' hs h
    rw [initialLoops] at h
    have hl := clearAndSeed_loops s hs cfg.n
    obtain ⟨c, s1, t, e, g1, g2, g3, g4, g5, g6, g7⟩ := circleTrack_spec E cfg target _ hn hl
    rw [e] at h
    by_cases hc : c = .success
    swap
    · rw [andThen_fail _ _ _ hc] at h
      cases h
      exact absurd rfl hc
    subst hc
    obtain ⟨g8, g9⟩ := g6 rfl
    have hps : PSOk s1 := ⟨by rw [g3, g4]; exact hs.len, by rw [g4]; exact hs.three⟩
    have hcyc : s1.cyc = 1 := by rw [g1]; rfl
    rw [andThen_ok] at h
    split_ifs at h with hz
    · have hlen : s1.cX.length = cfg.n + 1 := by rw [g8.lenX, hcyc]; ring
      obtain ⟨c', s'', e', -, k2, -, -, -⟩ := closeLoop_spec E cfg target hn s1 g8 (by omega)
      rw [h] at e'
      cases e'
      obtain ⟨j1, j2⟩ := closeLoop_keeps E cfg target hn _ s1 s' rfl g8 (by omega) h
      have hlast : s.psT.getLast? = some t := by
        simp only [clearAndSeed] at g5
        cases hp : s.psT.getLast? with
        | none => rw [hp] at g5; simp at g5
        | some t' => rw [hp] at g5; simpa using g5
      have hT : s1.cT.head? = some t := by
        rw [g9]
        simp [clearAndSeed, hlast]
      refine ⟨t, s1.cX.take cfg.n, ?_, j1.trans hT, by rw [List.length_take]; omega, j2, ?_⟩
      · rw [k2, g3]; exact hlast
      · exact (C106_test E cfg target s1 t hT (by intro hx; rw [hx] at hlen; simp at hlen) (by omega)
          (fun x _ => hb x) htol).mp hz
    · obtain ⟨c, s2, e2, k1, k2, k3, k4⟩ := advanceC_spec E cfg target s1 hps
      rw [e2] at h
      by_cases hc : c = .success
      swap
      · rw [andThen_fail _ _ _ hc] at h
        cases h
        exact absurd rfl hc
      subst hc
      rw [andThen_ok] at h
      exact ih s2 s' k2 h

/-- Samples that alternate around the circle between norm 1 and norm 1/8. -/
noncomputable def flipEnv : CEnv Bool where
  track := fun _ _ _ x => (.success, !x)
  refine := fun _ x _ => (.success, x)
  approx := fun _ _ _ => true
  dist := fun _ _ => some 0
  dehomNorm := fun _ => 1
  polish := fun _ x _ => x
  mean := fun _ => true
  cOverK := fun _ _ _ _ => 1
  lowRatio := fun _ _ => false
  sampNorm := fun x => if x then 1 else 1 / 8

/-- Default settings, but with a ratio cutoff time of 1/50. -/
noncomputable def ccfgZ : CCfg :=
  { n := 3, factor := 1 / 2, minTrack := 1 / 10 ^ 100, finalTol := 1 / 10 ^ 11, level := 0, maxNorm := 10 ^ 4,
    failsafe := 250, needed := 3, cycleCutoff := 1 / 10 ^ 8, ratioCutoff := 1 / 50, maxRatio := 1 / 2,
    trackTol := 1 / 10 ^ 5 }

noncomputable def flipSt : CSt Bool :=
  { psT := [1 / 10, 1 / 10, 1 / 10], psX := [true, true, true], cT := [], cX := [], cyc := 0, latest := true,
    prev := true, normPrev := none, normLatest := none, k := 0, hist := [] }

theorem flip_circle : ∃ s1, circleTrack flipEnv ccfgZ 0 (clearAndSeed flipSt) = .done .success s1 ∧
    s1.cX = [true, false, true, false] ∧ s1.cT.head? = some (1 / 10) := by
  unfold circleTrack
  rw [if_neg (by simp [ccfgZ])]
  simp only [clearAndSeed, flipSt, List.getLast?_cons_cons, List.getLast?_singleton, Option.toList_some]
  rw [show ccfgZ.n = 3 from rfl]
  simp only [circleLoop, flipEnv, if_true]
  exact ⟨_, rfl, by simp, by simp⟩

/-- **The code violates C106**: at a circle of radius 1/10, with a cutoff of 1/50, samples whose norms differ by the
factor 8 pass the test. -/
theorem C106_refuted : ¬ C106_full := by
  intro H
  obtain ⟨s1, h1, h2, h3⟩ := flip_circle
  have hz : zoneTest flipEnv ccfgZ 0 s1 := .inl ⟨_, h3, by norm_num [ccfgZ]⟩
  have hcl : closeLoop flipEnv ccfgZ 0 s1 = .done .success s1 := by
    have : checkClosed flipEnv ccfgZ s1 = (true, s1) := by
      unfold checkClosed
      match ht : s1.cT, hx : s1.cX with
      | t :: ts, x :: xs =>
        dsimp only
        rw [if_pos ⟨0, rfl, by norm_num [ccfgZ]⟩]
      | [], _ => rw [ht] at h3; simp at h3
      | _ :: _, [] => rw [hx] at h2; simp at h2
    rw [closeLoop]
    simp only [this, if_true]
  obtain ⟨t, xs, a1, a2, a3, a4, a5⟩ := H Bool flipEnv ccfgZ 0 flipSt s1 1 (by simp [ccfgZ])
    ⟨rfl, by simp [flipSt]⟩ (fun x => by
      have h : (1 : ℝ) ≤ 10 ^ 300 := one_le_pow₀ (by norm_num)
      refine ⟨by cases x <;> norm_num [flipEnv], le_trans ?_ h⟩
      cases x <;> norm_num [flipEnv])
    (by norm_num [ccfgZ])
    (by rw [initialLoops, h1, andThen_ok, if_pos hz, hcl])
  rw [h3] at a2
  simp only [Option.some.injEq] at a2
  subst a2
  rw [h2] at a4
  have m1 : (1 / 8 : ℝ) ∈ xs.map flipEnv.sampNorm := by
    refine List.mem_map.mpr ⟨false, List.mem_of_mem_tail ?_, by simp [flipEnv]⟩
    rw [← a4]; simp [ccfgZ]
  have m2 : (1 : ℝ) ∈ xs.map flipEnv.sampNorm := by
    refine List.mem_map.mpr ⟨true, List.mem_of_mem_tail ?_, by simp [flipEnv]⟩
    rw [← a4]; simp [ccfgZ]
  rcases a5 with h | ⟨a, ha, h⟩ | h | h
  · norm_num [ccfgZ] at h
  · obtain ⟨x, -, rfl⟩ := List.mem_map.mp ha
    cases x <;> norm_num [flipEnv, ccfgZ] at h
  · have := h _ m2 _ m1
    norm_num [ccfgZ] at this
  · have := h _ m1 _ m2
    norm_num [ccfgZ] at this

/-- The hypotheses of `C106_partial` are met by the same run. -/
example : ∃ s1, initialLoops flipEnv ccfgZ 0 1 flipSt = .done .success s1 := by
  obtain ⟨s1, h1, h2, h3⟩ := flip_circle
  refine ⟨s1, ?_⟩
  have hz : zoneTest flipEnv ccfgZ 0 s1 := .inl ⟨_, h3, by norm_num [ccfgZ]⟩
  rw [initialLoops, h1, andThen_ok, if_pos hz, closeLoop]
  have : checkClosed flipEnv ccfgZ s1 = (true, s1) := by
    unfold checkClosed
    match ht : s1.cT, hx : s1.cX with
    | t :: ts, x :: xs =>
      dsimp only
      rw [if_pos ⟨0, rfl, by norm_num [ccfgZ]⟩]
    | [], _ => rw [ht] at h3; simp at h3
    | _ :: _, [] => rw [hx] at h2; simp at h2
  simp only [this, if_true]

/-! ### C107: stabilisation of the estimates of `c/k` -/

/-- The estimates of `c/k` made on the way from the state `s0`: one at the start, one after each successful step towards
the target. -/
inductive Walk (E : CEnv X) (cfg : CCfg) (target : ℂ) (s0 : CSt X) : List ℝ → CSt X → Prop
  | start {c} : ckOf E s0 = some c → Walk E cfg target s0 [c] { s0 with k := s0.k + 1 }
  | step {l s s1 c} : Walk E cfg target s0 l s → advanceC E cfg target s = .done .success s1 → ckOf E s1 = some c →
      Walk E cfg target s0 (l ++ [c]) { s1 with k := s1.k + 1 }

/-- Neighbouring estimates agree: no ratio of the smaller to the larger one is too low. -/
def Agree (E : CEnv X) (l : List ℝ) : Prop := l.IsChain fun a b => E.lowRatio a b = false

/-- The last `m` entries. -/
def lastN (m : ℕ) (l : List ℝ) : List ℝ := l.drop (l.length - m)

/-- The latest time is within the cutoff of the target. -/
def Within (cutoff : ℝ) (target : ℂ) (s : CSt X) : Prop := ∀ t, s.psT.getLast? = some t → ‖t - target‖ ≤ cutoff

/-- C107, full statement: when the search for the operating zone succeeds, the latest
`num_needed_for_stabilization` estimates of `c/k` agree, or the time is within the cutoff. -/
def C107_full : Prop :=
  ∀ (X : Type) (E : CEnv X) (cfg : CCfg) (start target : ℂ) (x0 : X) (fuel : ℕ) (s s' : CSt X), 3 ≤ cfg.n →
    intoZone E cfg start target x0 fuel s = .done .success s' →
    ∃ s0 l, initialSamples E.toEgEnv cfg.toEgCfg start target x0 s.k = (.success, s0.psT, s0.psX, s0.k) ∧
      Walk E cfg target s0 l s' ∧ cfg.needed ≤ l.length ∧
      (Agree E (lastN cfg.needed l) ∨ Within cfg.cycleCutoff target s')

theorem stable_iff (E : CEnv X) (m : ℕ) (l : List ℝ) : stable E m l = true ↔ Agree E (l.take m) := by
  unfold stable Agree
  generalize l.take m = q
  dsimp only
  induction q with
  | nil => simp
  | cons a q ih =>
    cases q with
    | nil => simp
    | cons b q =>
      simp only [List.tail_cons, List.zip_cons_cons, List.all_cons, Bool.and_eq_true, Bool.not_eq_true',
        List.isChain_cons_cons] at ih ⊢
      rw [ih]

/-- The result of `zoneWhile`. -/
theorem zoneWhile_walk (E : CEnv X) (cfg : CCfg) (target : ℂ) (s0 : CSt X) :
    ∀ fuel (l0 l : List ℝ) (s s' : CSt X), Walk E cfg target s0 l0 s → cfg.needed + 1 ≤ l0.length →
      l = lastN (cfg.needed + 1) l0 → zoneWhile E cfg target fuel l s = .done .success s' →
      ∃ r, Walk E cfg target s0 (l0 ++ r) s' ∧
        (Agree E ((lastN (cfg.needed + 1) (l0 ++ r)).take cfg.needed) ∨ Within cfg.cycleCutoff target s') ∧
        ∀ i < r.length, ∃ s1, Walk E cfg target s0 (l0 ++ r.take i) s1 ∧
          ¬ Agree E ((lastN (cfg.needed + 1) (l0 ++ r.take i)).take cfg.needed) ∧
          ¬ Within cfg.cycleCutoff target s1 := by
  intro fuel
  induction fuel with
  | zero => intro l0 l s s' _ _ _ h; rw [zoneWhile] at h; cases h
  | succ fuel ih =>
    intro l0 l s s' hw hlen hl h
    rw [zoneWhile] at h
    by_cases hc : stable E cfg.needed l = false ∧ ∃ t, s.psT.getLast? = some t ∧ cfg.cycleCutoff < ‖t - target‖
    · rw [if_pos hc] at h
      obtain ⟨hc1, t, ht, hc2⟩ := hc
      cases he : advanceC E cfg target s with
      | more s1 => rw [he] at h; simp [Res.andThen] at h
      | bad => rw [he] at h; simp [Res.andThen] at h
      | done c s1 =>
        rw [he] at h
        by_cases hcs : c = .success
        swap
        · rw [andThen_fail _ _ _ hcs] at h
          cases h
          exact absurd rfl hcs
        subst hcs
        rw [andThen_ok] at h
        cases hk : ckOf E s1 with
        | none => rw [hk] at h; cases h
        | some v =>
          rw [hk] at h
          dsimp only at h
          have hl' : l.tail ++ [v] = lastN (cfg.needed + 1) (l0 ++ [v]) := by
            subst hl
            unfold lastN
            rw [List.tail_drop, List.length_append, List.length_singleton, List.drop_append_of_le_length (by omega)]
            congr 2
            omega
          obtain ⟨r, r1, r2, r3⟩ := ih (l0 ++ [v]) _ _ s' (.step hw he hk) (by simp; omega) hl' h
          refine ⟨v :: r, by simpa using r1, by simpa using r2, ?_⟩
          intro i hi
          cases i with
          | zero =>
            refine ⟨s, by simpa using hw, ?_, fun hwi => absurd (hwi t ht) (not_le.2 hc2)⟩
            rw [List.take_zero, List.append_nil, ← hl, ← stable_iff, hc1]
            simp
          | succ i =>
            simpa using r3 i (by simpa using hi)
    · rw [if_neg hc] at h
      simp only [Res.done.injEq, true_and] at h
      subst h
      refine ⟨[], by simpa using hw, ?_, by simp⟩
      rw [List.append_nil, ← hl, ← stable_iff]
      by_cases hst : stable E cfg.needed l = true
      · exact .inl hst
      · right
        intro t ht
        by_contra hlt
        exact hc ⟨by simpa using hst, t, ht, not_le.1 hlt⟩

theorem zoneFor_walk (E : CEnv X) (cfg : CCfg) (target : ℂ) (s0 : CSt X) (f : List ℝ → CSt X → Res (CSt X)) :
    ∀ rem (l : List ℝ) (s s' : CSt X), Walk E cfg target s0 l s →
      zoneFor E cfg target rem l s f = .done .success s' →
      ∃ l1 s1, Walk E cfg target s0 l1 s1 ∧ l1.length = l.length + rem ∧ f l1 s1 = .done .success s' := by
  intro rem
  induction rem with
  | zero => intro l s s' hw h; exact ⟨l, s, hw, rfl, h⟩
  | succ rem ih =>
    intro l s s' hw h
    rw [zoneFor] at h
    cases he : advanceC E cfg target s with
    | more s1 => rw [he] at h; simp [Res.andThen] at h
    | bad => rw [he] at h; simp [Res.andThen] at h
    | done c s1 =>
      rw [he] at h
      by_cases hcs : c = .success
      swap
      · rw [andThen_fail _ _ _ hcs] at h
        cases h
        exact absurd rfl hcs
      subst hcs
      rw [andThen_ok] at h
      cases hk : ckOf E s1 with
      | none => rw [hk] at h; cases h
      | some v =>
        rw [hk] at h
        dsimp only at h
        obtain ⟨l1, s2, a1, a2, a3⟩ := ih _ _ _ (.step hw he hk) h
        exact ⟨l1, s2, a1, by rw [a2]; simp; omega, a3⟩

/-- **C107.** The search starts at the initial samples, makes at least `needed + 1` estimates, and stops at the first
state where the `needed` estimates *before the latest one* agree or the time is within the cutoff. Missing: the latest
estimate, which is not looked at. -/
theorem C107_partial (E : CEnv X) (cfg : CCfg) (start target : ℂ) (x0 : X) (fuel : ℕ) (s s' : CSt X)
    (h : intoZone E cfg start target x0 fuel s = .done .success s') :
    ∃ s0 l, initialSamples E.toEgEnv cfg.toEgCfg start target x0 s.k = (.success, s0.psT, s0.psX, s0.k) ∧
      Walk E cfg target s0 l s' ∧ cfg.needed + 1 ≤ l.length ∧
      (Agree E (lastN cfg.needed l.dropLast) ∨ Within cfg.cycleCutoff target s') ∧
      ∀ i, cfg.needed + 1 ≤ i → i < l.length → ∃ s1, Walk E cfg target s0 (l.take i) s1 ∧
        ¬ Agree E (lastN cfg.needed (l.take i).dropLast) ∧ ¬ Within cfg.cycleCutoff target s1 := by
  have key : ∀ l : List ℝ, cfg.needed + 1 ≤ l.length →
      (lastN (cfg.needed + 1) l).take cfg.needed = lastN cfg.needed l.dropLast := by
    intro l hl
    unfold lastN
    rw [List.dropLast_eq_take, List.length_take, List.take_drop, List.drop_take, List.drop_take]
    congr 1
    · omega
    · congr 1
      omega
  obtain ⟨c, ts, xs, k, hr⟩ : ∃ c ts xs k,
      initialSamples E.toEgEnv cfg.toEgCfg start target x0 s.k = (c, ts, xs, k) := ⟨_, _, _, _, rfl⟩
  unfold intoZone at h
  rw [hr] at h
  dsimp only at h
  by_cases hc : c = .success
  swap
  · rw [if_pos hc] at h
    cases h
    exact absurd rfl hc
  subst hc
  rw [if_neg (by simp)] at h
  cases hk : ckOf E ({ s with psT := ts, psX := xs, k := k } : CSt X) with
  | none => rw [hk] at h; cases h
  | some v =>
    rw [hk] at h
    dsimp only at h
    obtain ⟨l1, s1, a1, a2, a3⟩ := zoneFor_walk E cfg target { s with psT := ts, psX := xs, k := k } _ _ _ _ _
      (.start hk) h
    rw [List.length_singleton] at a2
    obtain ⟨r, b1, b2, b3⟩ := zoneWhile_walk E cfg target _ fuel l1 l1 s1 s' a1 (by omega)
      (by unfold lastN; rw [a2]; simp [Nat.add_comm]) a3
    refine ⟨{ s with psT := ts, psX := xs, k := k }, l1 ++ r, hr, b1, by simp; omega, ?_, ?_⟩
    · rw [key _ (by simp; omega)] at b2
      exact b2
    · intro i h1 h2
      rw [List.length_append] at h2
      obtain ⟨s2, c1, c2, c3⟩ := b3 (i - l1.length) (by omega)
      have e : l1 ++ r.take (i - l1.length) = (l1 ++ r).take i := by
        rw [List.take_append, List.take_of_length_le (by omega : l1.length ≤ i)]
      rw [e] at c1 c2
      rw [key _ (by rw [List.length_take, List.length_append]; omega)] at c2
      exact ⟨s2, c1, c2, c3⟩

/-- The estimates are `1, 1, 1, 5`. -/
noncomputable def lateEnv : CEnv Unit where
  track := fun _ _ _ _ => (.success, ())
  refine := fun _ _ _ => (.success, ())
  approx := fun _ _ _ => ()
  dist := fun _ _ => some 0
  dehomNorm := fun _ => 1
  polish := fun _ _ _ => ()
  mean := fun _ => ()
  cOverK := fun k _ _ _ => if k = 8 then 5 else 1
  lowRatio := fun a b => decide (a ≠ b)
  sampNorm := fun _ => 0

theorem walk_last {cfg : CCfg} {target : ℂ} {s0 : CSt Unit} {l : List ℝ} {s : CSt Unit}
    (h : Walk lateEnv cfg target s0 l s) : 1 ≤ s.k ∧ l.getLast? = some (if s.k - 1 = 8 then 5 else 1) := by
  have hck : ∀ (s : CSt Unit) c, ckOf lateEnv s = some c → c = if s.k = 8 then 5 else 1 := by
    intro s c h
    unfold ckOf at h
    split at h
    · simpa [lateEnv] using h.symm
    · cases h
  cases h with
  | start hc => simp [hck _ _ hc]
  | step _ _ hc => simp [hck _ _ hc]

theorem late_run (s : CSt Unit) (hk : s.k = 0) : ∃ s', intoZone lateEnv (ccfgL 250) 1 0 () 1 s = .done .success s' ∧
    s'.k = 9 ∧ s'.psT.getLast? = some (1 / 32) := by
  unfold intoZone
  simp only [initialSamples, initialLoop, ccfgL, hk, lateEnv, if_true, zoneFor, ckOf, advanceC, Res.andThen, zoneWhile,
    stable, nextTimePS, nextTimeC]
  norm_num

/-- **The code violates C107**: with the default settings and the estimates `1, 1, 1, 5` the search stops. -/
theorem C107_refuted : ¬ C107_full := by
  intro H
  obtain ⟨s', h1, h2, h3⟩ := late_run ⟨[], [], [], [], 0, (), (), none, none, 0, []⟩ rfl
  obtain ⟨s0, l, -, hw, hl, hc⟩ := H Unit lateEnv (ccfgL 250) 1 0 () 1 _ s' (by simp [ccfgL]) h1
  rcases hc with hc | hc
  · cases hw with
    | start _ => simp [ccfgL] at hl
    | @step l s s1 c hw he hk =>
      obtain ⟨g1, g2⟩ := walk_last hw
      have k1 : s1.k = 8 := by simpa using h2
      have k2 : s1.k = s.k + 1 := by
        unfold advanceC at he
        split at he
        · dsimp only at he
          split at he
          · simp only [Res.done.injEq, reduceCtorEq, false_and] at he
          · split at he
            · simp only [Res.done.injEq] at he
              rw [← he.2]
            · simp only [Res.done.injEq, true_and] at he
              rw [← he]
        · cases he
      have hc5 : c = 5 := by
        unfold ckOf at hk
        split at hk
        · simpa [lateEnv, k1] using hk.symm
        · cases hk
      rw [if_neg (by omega)] at g2
      obtain ⟨l', rfl⟩ := List.getLast?_eq_some_iff.mp g2
      subst hc5
      have hn : (ccfgL 250).needed = 3 := rfl
      rw [hn] at hc hl
      simp only [List.length_append, List.length_singleton] at hl
      unfold lastN at hc
      have e : (l' ++ [(1 : ℝ)] ++ [(5 : ℝ)]).length - 3 = l'.length - 1 := by
        simp only [List.length_append, List.length_singleton]; omega
      rw [e, List.append_assoc, List.drop_append_of_le_length (by omega)] at hc
      have := List.IsChain.right_of_append hc
      simp [lateEnv] at this
  · have := hc _ h3
    norm_num [ccfgL] at this

end B2.Endgame
