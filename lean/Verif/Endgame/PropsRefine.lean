import Verif.Endgame.Refine

/-!
# Refinement of samples (C124) and uniform precision (C125)
-/

namespace B2.Endgame.Refine

open B2.Track.Coh

variable {X : Type}

/-- A code and a result are honest about refining the sample `x` at time `t`: `Success` is only said
if Newton's method, started from the sample at some precision not below the sample's, succeeded with
that result. -/
def Honest (R : ℕ → X → X) (N : Newton X) (x t : MP X) (c : Code) (r : MP X) : Prop :=
  c = .success → ∃ q, x.prec ≤ q ∧ r.prec = q ∧
    N q (R q x.val) (R q t.val) = (.success, r.val)

/-- The coordinates of `x` and `t` are numbers of their precision. -/
def Repr (R : ℕ → X → X) (x : MP X) : Prop := R x.prec x.val = x.val

/-- **C124** in full: in every endgame refining a sample says `Success` only if a refinement of that
sample succeeded with the result returned. -/
def C124_full : Prop :=
  ∀ (X : Type) (R : ℕ → X → X), Rounding R → ∀ (N : Newton X) (x t : MP X), Repr R x → Repr R t →
    x.prec = t.prec → 16 ≤ x.prec →
    Honest R N x t (fixedRefine N x t).1 (fixedRefine N x t).2 ∧
    ∀ (inPlace : Bool) (s : Tk X), Coherent s → ∃ c r s', ampRefine R N inPlace x t s = some (c, r, s') ∧
      Honest R N x t c r

theorem refine_some (R : ℕ → X → X) (p : ℕ) (hp : 16 ≤ p) (s : Tk X) (hs : Coherent s) :
    refine R p [p] s = some (changePrec R p s) := by
  obtain ⟨s', h1, h2, h3⟩ := (C129_partial R).1 s p [p] hs hp (by simp)
  rw [h1]
  unfold refine at h1
  split at h1
  · dsimp only at h1
    split at h1
    · exact h1.symm
    · cases h1
  · cases h1

theorem change_some (R : ℕ → X → X) (p : ℕ) (s : Tk X) (hs : Coherent s) (d : ℕ) :
    change? R p { s with dflt := d } = some (changePrec R p { s with dflt := d }) := by
  unfold change?
  rw [if_pos]
  unfold storedOk
  by_cases hc : s.cur = 16
  · simp [hc, hs.dbl hc]
  · have : 16 < s.cur := by have := hs.ge; omega
    simp [hc, (hs.mp this).1]

/-- Setting the default precision before the tracker changes to that same precision makes no
difference. -/
theorem changePrec_dflt (R : ℕ → X → X) (p : ℕ) (s : Tk X) (h : p ≠ s.cur) :
    changePrec R p { s with dflt := p } = changePrec R p s := by
  unfold changePrec
  rw [if_neg h, if_neg h]
  split
  · rfl
  split <;> rfl

theorem changePrec_self (R : ℕ → X → X) (p : ℕ) (s : Tk X) (h : s.cur = p) :
    changePrec R p s = s := by
  unfold changePrec
  rw [if_pos h.symm]

/-- What `RefineSampleImpl` of the adaptive precision endgame amounts to on a coherent tracker. -/
theorem ampRefine_eq (R : ℕ → X → X) (N : Newton X) (inPlace : Bool) (x t : MP X) (s : Tk X)
    (hxt : x.prec = t.prec) (hp : 16 ≤ x.prec) (hs : Coherent s) :
    ampRefine R N inPlace x t s =
      if (N t.prec x.val t.val).1 = .higherPrecisionNecessary ∨
          (N t.prec x.val t.val).1 = .failedToConverge then
        let q := max t.prec 20 + 10
        let r := N q (R q (if inPlace then (N t.prec x.val t.val).2 else x.val)) (R q t.val)
        some (r.1, ⟨r.2, q⟩, changePrec R q (changePrec R t.prec s))
      else
        some ((N t.prec x.val t.val).1, ⟨(N t.prec x.val t.val).2, t.prec⟩,
          changePrec R t.prec s) := by
  have hpt : 16 ≤ t.prec := hxt ▸ hp
  have h1 : change? R t.prec s = some (changePrec R t.prec s) := change_some R t.prec s hs s.dflt
  have c1 := coherent_changePrec R t.prec hpt s hs
  have k1 := cur_changePrec R t.prec s
  have h2 : refine R t.prec [x.prec] (changePrec R t.prec s) = some (changePrec R t.prec s) := by
    rw [hxt, refine_some R _ hpt _ c1, changePrec_self R _ _ k1]
  have hd : (changePrec R t.prec s).dflt = t.prec := c1.dflt.trans k1
  unfold ampRefine
  rw [if_neg (by simp [hxt]), h1]
  simp only [Option.bind_some]
  rw [h2]
  simp only [Option.bind_some]
  by_cases hc : (N t.prec x.val t.val).1 = .higherPrecisionNecessary ∨
      (N t.prec x.val t.val).1 = .failedToConverge
  · rw [if_pos hc, if_pos hc]
    have hq : 16 ≤ max t.prec 20 + 10 := by omega
    have hne : max t.prec 20 + 10 ≠ (changePrec R t.prec s).cur := by rw [k1]; omega
    rw [hd, change_some R _ _ c1, changePrec_dflt R _ _ hne]
    simp only [Option.bind_some]
    rw [refine_some R _ hq _ (coherent_changePrec R _ hq _ c1),
      changePrec_self R _ _ (cur_changePrec R _ _)]
    rfl
  · rw [if_neg hc, if_neg hc]

/-- **C124, partial.** In the adaptive precision endgame, on a tracker in a coherent state (as after
every `TrackPath`), refining a sample into another object neither throws nor aborts; it says `Success`
only if Newton's method succeeded from the sample with the result returned; a second attempt is made
exactly if the first one asks for higher precision or does not converge, and works with at least ten
more digits; the tracker is left coherent, at the precision of the result. Missing: the fixed precision
endgames (`C124_refuted`), and refining in place (`C124_inPlace_refuted`). -/
theorem C124_partial (R : ℕ → X → X) (N : Newton X) (x t : MP X) (hx : Repr R x)
    (ht : Repr R t) (hxt : x.prec = t.prec) (hp : 16 ≤ x.prec) (s : Tk X) (hs : Coherent s) :
    ∃ c r s', ampRefine R N false x t s = some (c, r, s') ∧ Honest R N x t c r ∧ Coherent s' ∧
      s'.cur = r.prec ∧
      (x.prec + 10 ≤ r.prec ∨ r.prec = x.prec) ∧
      (x.prec + 10 ≤ r.prec ↔ (N x.prec x.val t.val).1 = .higherPrecisionNecessary ∨
        (N x.prec x.val t.val).1 = .failedToConverge) := by
  have hpt : 16 ≤ t.prec := hxt ▸ hp
  have c1 := coherent_changePrec R t.prec hpt s hs
  have k1 := cur_changePrec R t.prec s
  rw [ampRefine_eq R N false x t s hxt hp hs, hxt]
  by_cases hc : (N t.prec x.val t.val).1 = .higherPrecisionNecessary ∨
      (N t.prec x.val t.val).1 = .failedToConverge
  · rw [if_pos hc]
    refine ⟨_, _, _, rfl, ?_, coherent_changePrec R _ (by omega) _ c1, cur_changePrec R _ _, ?_, ?_⟩
    · intro hsuc
      refine ⟨max t.prec 20 + 10, by omega, rfl, ?_⟩
      have : N (max t.prec 20 + 10) (R (max t.prec 20 + 10) x.val)
          (R (max t.prec 20 + 10) t.val) = (.success, _) := Prod.ext hsuc rfl
      exact this
    · left
      show t.prec + 10 ≤ max t.prec 20 + 10
      omega
    · refine ⟨fun _ => hc, fun _ => ?_⟩
      show t.prec + 10 ≤ max t.prec 20 + 10
      omega
  · rw [if_neg hc]
    refine ⟨_, _, _, rfl, ?_, c1, k1, Or.inr rfl, ?_⟩
    · intro hsuc
      refine ⟨t.prec, by omega, rfl, ?_⟩
      have e1 : R t.prec x.val = x.val := hxt ▸ hx
      rw [e1, ht]
      exact Prod.ext hsuc rfl
    · constructor
      · intro h
        exfalso
        have : t.prec + 10 ≤ t.prec := h
        omega
      · intro h
        exact absurd h hc

/-- A Newton iteration that converges to 1/2 from above 1/4, provided it has 25 digits. -/
def sampleNewton : Newton ℚ := fun p x _ =>
  if p < 25 then (.higherPrecisionNecessary, 0)
  else if 1 / 4 < x then (.success, 1 / 2) else (.failedToConverge, x)

def sampleX : MP ℚ := ⟨5 / 8, 20⟩
def sampleT : MP ℚ := ⟨1 / 8, 20⟩

example : Repr floorTo sampleX ∧ Repr floorTo sampleT ∧
    (ampRefine floorTo sampleNewton false sampleX sampleT
      (trackPath floorTo sampleCall true [] sampleUp (make 0 40 50 2))).map
        (fun y => (y.1, y.2.1.val, y.2.1.prec)) = some (.success, 1 / 2, 30) := by
  refine ⟨by unfold Repr; decide +kernel, by unfold Repr; decide +kernel, by decide +kernel⟩

/-- The fixed precision endgames say `Success` whatever the outcome of the refinement. -/
theorem C124_fixed (N : Newton X) (x t : MP X) : (fixedRefine N x t).1 = .success := rfl

theorem C124_refuted : ¬ C124_full := by
  intro hf
  obtain ⟨q, h1, h2, h3⟩ := (hf ℚ floorTo floorTo_rounding
    (fun _ _ _ => (.failedToConverge, 0)) sampleX sampleT (by unfold Repr; decide +kernel)
    (by unfold Repr; decide +kernel) rfl (by decide)).1 rfl
  cases h3

/-- Refining in place, as `RefineAllSamples` does: the second attempt starts at the point where the
first one stopped, not at the sample. Here the first attempt ends at 0, from where the second does
not converge, while from the sample it would have. -/
theorem C124_inPlace_refuted :
    ∃ (N : Newton ℚ) (x t : MP ℚ) (s : Tk ℚ), Coherent s ∧ Repr floorTo x ∧ Repr floorTo t ∧
      (ampRefine floorTo N false x t s).map (·.1) = some .success ∧
      (ampRefine floorTo N true x t s).map (·.1) = some .failedToConverge := by
  refine ⟨sampleNewton, sampleX, sampleT,
    trackPath floorTo sampleCall true [] sampleUp (make 0 40 50 2),
    (C126 floorTo sampleCall true [] sampleUp (make 0 40 50 2) (by decide) rfl ?_).2.2,
    by unfold Repr; decide +kernel, by unfold Repr; decide +kernel, by decide +kernel,
    by decide +kernel⟩
  intro q hq x hx
  simp [sampleUp] at hq
  rcases hq with rfl | rfl <;> simp at hx <;> subst hx <;> decide

/-! ### Uniform precision -/

/-- All numbers have the returned precision, which is the default precision, and none of them has
lost digits. -/
def Uniform (u : Uni) (ts : List ℕ) (vs ds : List (List ℕ)) : Prop :=
  u.dflt = u.ret ∧
  (∀ t ∈ u.times, t = u.ret) ∧ (∀ v ∈ u.samples, ∀ p ∈ v, p = u.ret) ∧
  (∀ v ∈ u.derivs, ∀ p ∈ v, p = u.ret) ∧
  (∀ t ∈ ts, t ≤ u.ret) ∧ (∀ v ∈ vs, ∀ p ∈ v, p ≤ u.ret) ∧ (∀ v ∈ ds, ∀ p ∈ v, p ≤ u.ret) ∧
  u.times.length = ts.length ∧ u.samples.map List.length = vs.map List.length ∧
  u.derivs.map List.length = ds.map List.length

/-- Each sample has coordinates, all of the same precision. -/
def Even (vs : List (List ℕ)) : Prop := ∀ v ∈ vs, ∃ p, v.head? = some p ∧ ∀ q ∈ v, q = p

/-- **C125** in full: `EnsureAtUniformPrecision` of the adaptive precision endgames brings everything
to the returned precision. -/
def C125_full : Prop :=
  ∀ (d : ℕ) (ts : List ℕ) (vs ds : List (List ℕ)), (∀ v ∈ vs, v ≠ []) → (∀ v ∈ ds, v ≠ []) →
    (∃ u, ensure2 d ts vs = some u ∧ Uniform u ts vs []) ∧
    (∃ u, ensure3 d ts vs ds = some u ∧ Uniform u ts vs ds)

theorem anyOther_even (d : ℕ) (vs : List (List ℕ)) (h : Even vs) :
    (anyOther d vs = some true) ∨ (anyOther d vs = some false ∧ ∀ v ∈ vs, ∀ p ∈ v, p = d) := by
  induction vs with
  | nil => right; exact ⟨rfl, by simp⟩
  | cons v vs ih =>
    obtain ⟨p, h1, h2⟩ := h v List.mem_cons_self
    have hv : vecPrec v = some p := by
      cases v with
      | nil => simp at h1
      | cons a l => simpa [vecPrec] using h1
    simp only [anyOther, hv, Option.bind_some]
    by_cases hp : p = d
    · rw [if_neg (by simp [hp])]
      rcases ih (fun w hw => h w (List.mem_cons_of_mem _ hw)) with h3 | ⟨h3, h4⟩
      · left; exact h3
      · right
        refine ⟨h3, ?_⟩
        intro w hw q hq
        rcases List.mem_cons.1 hw with rfl | hw
        · rw [h2 q hq, hp]
        · exact h4 w hw q hq
    · left
      rw [if_pos hp]

theorem maxSamples_even (vs : List (List ℕ)) (h : Even vs) :
    ∃ m, maxSamples vs = some m ∧ ∀ v ∈ vs, ∀ p ∈ v, p ≤ m := by
  induction vs with
  | nil => exact ⟨0, rfl, by simp⟩
  | cons v vs ih =>
    obtain ⟨p, h1, h2⟩ := h v List.mem_cons_self
    obtain ⟨m, h3, h4⟩ := ih (fun w hw => h w (List.mem_cons_of_mem _ hw))
    have hv : vecPrec v = some p := by
      cases v with
      | nil => simp at h1
      | cons a l => simpa [vecPrec] using h1
    refine ⟨max p m, by simp [maxSamples, hv, h3], ?_⟩
    intro w hw q hq
    rcases List.mem_cons.1 hw with rfl | hw
    · rw [h2 q hq]; exact le_max_left _ _
    · exact (h4 w hw q hq).trans (le_max_right _ _)

theorem le_maxTimes (ts : List ℕ) : ∀ t ∈ ts, t ≤ maxTimes ts := by
  induction ts with
  | nil => simp
  | cons a l ih =>
    intro t ht
    simp only [maxTimes, List.foldr_cons]
    rcases List.mem_cons.1 ht with rfl | ht
    · exact le_max_left _ _
    · exact (ih t ht).trans (le_max_right _ _)

theorem uniform_set (p : ℕ) (ts : List ℕ) (vs ds : List (List ℕ)) (h1 : ∀ t ∈ ts, t ≤ p)
    (h2 : ∀ v ∈ vs, ∀ q ∈ v, q ≤ p) (h3 : ∀ v ∈ ds, ∀ q ∈ v, q ≤ p) :
    Uniform ⟨p, p, setTimes p ts, setSamples p vs, setSamples p ds⟩ ts vs ds := by
  refine ⟨rfl, ?_, ?_, ?_, h1, h2, h3, ?_, ?_, ?_⟩
  · intro t ht
    simp only [setTimes, List.mem_map] at ht
    obtain ⟨_, _, rfl⟩ := ht
    rfl
  · intro v hv q hq
    simp only [setSamples, List.mem_map] at hv
    obtain ⟨w, _, rfl⟩ := hv
    simp only [List.mem_map] at hq
    obtain ⟨_, _, rfl⟩ := hq
    rfl
  · intro v hv q hq
    simp only [setSamples, List.mem_map] at hv
    obtain ⟨w, _, rfl⟩ := hv
    simp only [List.mem_map] at hq
    obtain ⟨_, _, rfl⟩ := hq
    rfl
  · simp [setTimes]
  · simp [setSamples, Function.comp_def]
  · simp [setSamples, Function.comp_def]

theorem uniform_id (d : ℕ) (ts : List ℕ) (vs ds : List (List ℕ)) (h1 : ∀ t ∈ ts, t = d)
    (h2 : ∀ v ∈ vs, ∀ q ∈ v, q = d) (h3 : ∀ v ∈ ds, ∀ q ∈ v, q = d) :
    Uniform ⟨d, d, ts, vs, ds⟩ ts vs ds :=
  ⟨rfl, h1, h2, h3, fun t ht => (h1 t ht).le, fun v hv q hq => (h2 v hv q hq).le,
    fun v hv q hq => (h3 v hv q hq).le, rfl, rfl, rfl⟩

/-- **C125, partial.** If each sample is of uniform precision, `EnsureAtUniformPrecision` for times and
samples brings everything to one precision, the largest there is, makes it the default precision and
returns it. The version with derivatives does so provided the times are at the default precision
already, or some sample or derivative is not. In the fixed precision endgames nothing is changed; the
returned number is the common precision if there is one. Missing: samples whose coordinates differ in
precision, and times that differ from the default precision in the version with derivatives, see
`C125_refuted`. -/
theorem C125_partial (d : ℕ) (ts : List ℕ) (vs ds : List (List ℕ)) (hv : Even vs) (hd : Even ds) :
    (∃ u, ensure2 d ts vs = some u ∧ Uniform u ts vs []) ∧
    (((∀ t ∈ ts, t = d) ∨ ∃ v ∈ vs ++ ds, ∃ p ∈ v, p ≠ d) →
      ∃ u, ensure3 d ts vs ds = some u ∧ Uniform u ts vs ds) ∧
    (∀ p, vs ≠ [] → (∀ v ∈ vs ++ ds, ∀ q ∈ v, q = p) →
      fixedEnsure2 d ts vs = some ⟨p, d, ts, vs, []⟩ ∧
      fixedEnsure3 d ts vs ds = some ⟨p, d, ts, vs, ds⟩) := by
  obtain ⟨m, m1, m2⟩ := maxSamples_even vs hv
  obtain ⟨m', m3, m4⟩ := maxSamples_even ds hd
  refine ⟨?_, ?_, ?_⟩
  · by_cases ht : ts.any (fun x => decide (x ≠ d)) = true
    · refine ⟨⟨max m (maxTimes ts), max m (maxTimes ts), setTimes (max m (maxTimes ts)) ts,
          setSamples (max m (maxTimes ts)) vs, []⟩, ?_, ?_⟩
      · unfold ensure2
        rw [if_pos ht, m1]
        rfl
      · exact uniform_set _ ts vs [] (fun t h => (le_maxTimes ts t h).trans (le_max_right _ _))
          (fun v h q h' => (m2 v h q h').trans (le_max_left _ _)) (by simp)
    · rcases anyOther_even d vs hv with h | ⟨h, h'⟩
      · refine ⟨⟨max m (maxTimes ts), max m (maxTimes ts), setTimes (max m (maxTimes ts)) ts,
          setSamples (max m (maxTimes ts)) vs, []⟩,
          ?_, ?_⟩
        · unfold ensure2
          rw [if_neg ht, h, m1]
          rfl
        · exact uniform_set _ ts vs [] (fun t h => (le_maxTimes ts t h).trans (le_max_right _ _))
            (fun v h q h' => (m2 v h q h').trans (le_max_left _ _)) (by simp)
      · refine ⟨⟨d, d, ts, vs, []⟩, ?_, ?_⟩
        · unfold ensure2
          rw [if_neg ht, h]
          rfl
        · apply uniform_id d ts vs [] _ h' (by simp)
          intro t hm
          by_contra hne
          exact ht (List.any_eq_true.2 ⟨t, hm, decide_eq_true hne⟩)
  · intro hor
    have hset : ∃ u : Uni, some u = some (⟨max (max m (maxTimes ts)) m', max (max m (maxTimes ts)) m',
        setTimes (max (max m (maxTimes ts)) m') ts, setSamples (max (max m (maxTimes ts)) m') vs,
        setSamples (max (max m (maxTimes ts)) m') ds⟩ : Uni) ∧ Uniform u ts vs ds := by
      refine ⟨_, rfl, uniform_set _ ts vs ds ?_ ?_ ?_⟩
      · intro t h; have := le_maxTimes ts t h; omega
      · intro v h q h'; have := m2 v h q h'; omega
      · intro v h q h'; have := m4 v h q h'; omega
    obtain ⟨u, hu, hU⟩ := hset
    rcases anyOther_even d vs hv with h | ⟨h, h'⟩
    · refine ⟨u, ?_, hU⟩
      unfold ensure3
      rw [h, m1, m3, hu]
      rfl
    · rcases anyOther_even d ds hd with k | ⟨k, k'⟩
      · refine ⟨u, ?_, hU⟩
        unfold ensure3
        rw [h, m1, m3, hu]
        simp [k]
      · refine ⟨⟨d, d, ts, vs, ds⟩, ?_, ?_⟩
        · unfold ensure3
          rw [h]
          simp [k]
        · refine uniform_id d ts vs ds ?_ h' k'
          rcases hor with hor | ⟨v, hv1, p, hp1, hne⟩
          · exact hor
          · exfalso
            rcases List.mem_append.1 hv1 with hv1 | hv1
            · exact hne (h' v hv1 p hp1)
            · exact hne (k' v hv1 p hp1)
  · intro p hne hp
    have aux : ∀ ws : List (List ℕ), Even ws → (∀ v ∈ ws, ∀ q ∈ v, q = p) →
        maxSamples ws = some (if ws = [] then 0 else p) := by
      intro ws
      induction ws with
      | nil => intro _ _; rfl
      | cons v ws ih =>
        intro he hq
        obtain ⟨a, h1, h2⟩ := he v List.mem_cons_self
        have hv : vecPrec v = some p := by
          cases v with
          | nil => simp at h1
          | cons b l =>
            have := hq (b :: l) List.mem_cons_self b List.mem_cons_self
            simp [vecPrec, this]
        simp only [maxSamples, hv, Option.bind_some]
        rw [ih (fun w hw => he w (List.mem_cons_of_mem _ hw))
          (fun w hw => hq w (List.mem_cons_of_mem _ hw))]
        by_cases hws : ws = [] <;> simp [hws]
    have e1 := aux vs hv (fun v h => hp v (List.mem_append_left _ h))
    have e2 := aux ds hd (fun v h => hp v (List.mem_append_right _ h))
    rw [if_neg hne] at e1
    constructor
    · unfold fixedEnsure2
      rw [e1]
      rfl
    · unfold fixedEnsure3
      rw [e1, e2]
      by_cases hds : ds = [] <;> simp [hds]

example : Even [[30, 30], [20, 20]] ∧ Even [[16, 16]] ∧
    (ensure2 16 [16, 40] [[30, 30], [20, 20]]).map (fun u => (u.ret, u.times, u.samples)) =
      some (40, [40, 40], [[40, 40], [40, 40]]) ∧
    (ensure3 16 [16, 40] [[30, 30], [20, 20]] [[16, 16]]).map (fun u => (u.ret, u.derivs)) =
      some (40, [[40, 40]]) := by
  refine ⟨?_, ?_, by decide, by decide⟩ <;> intro v hv <;> simp at hv
  · rcases hv with rfl | rfl
    · exact ⟨30, rfl, by simp⟩
    · exact ⟨20, rfl, by simp⟩
  · subst hv
    exact ⟨16, rfl, by simp⟩

/-- The version with derivatives leaves times of 40 digits alone and returns 16. -/
theorem C125_refuted : ¬ C125_full ∧
    (ensure3 16 [40] [[16]] [[16]]).map (fun u => (u.ret, u.times)) = some (16, [40]) ∧
    -- only first coordinates count: the second one keeps 30 digits, or loses ten of them
    (ensure2 16 [16] [[16, 30]]).map (fun u => (u.ret, u.samples)) = some (16, [[16, 30]]) ∧
    (ensure2 16 [16] [[20, 30]]).map (fun u => (u.ret, u.samples)) = some (20, [[20, 20]]) ∧
    -- fixed precision: a number is returned that is not the precision of the samples
    (fixedEnsure2 16 [16] [[20], [30]]).map (fun u => (u.ret, u.samples)) =
      some (30, [[20], [30]]) := by
  refine ⟨fun hf => ?_, by decide, by decide, by decide, by decide⟩
  obtain ⟨u, h1, h2⟩ := (hf 16 [40] [[16]] [[16]] (by simp) (by simp)).2
  have he : ensure3 16 [40] [[16]] [[16]] = some ⟨16, 16, [40], [[16]], [[16]]⟩ := rfl
  rw [he] at h1
  cases h1
  have : (40 : ℕ) = 16 := h2.2.1 40 (by simp)
  omega

end B2.Endgame.Refine
