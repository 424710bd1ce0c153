/-
Property theorems for the tracking loop: C37 (what TrackPath returns), C38 (the tracked time).

They are stated for every tracker whose iteration is `Faithful` (it accepts exactly the corrected
points), and instantiated for the fixed-precision trackers here and for the adaptive tracker in
`PropsAMP`.
-/
import Verif.Track.Loop
import Verif.Track.PropsNewton
import Mathlib.Analysis.Convex.Segment
import Mathlib.LinearAlgebra.Complex.Module
import Mathlib.Tactic.Linarith
import Mathlib.Tactic.Ring
import Mathlib.Tactic.FieldSimp
import Mathlib.Tactic.NormNum

namespace B2.Track

set_option linter.unusedSectionVars false
set_option linter.unusedSimpArgs false

open Classical

variable {X : Type} [Add X]

/-- A tracker iteration reports success exactly when prediction and correction succeeded, in which
case the stored point becomes the corrected one; otherwise the stored point is kept; it never touches
the times. -/
structure Faithful (cfg : Cfg) (env : Env X) (T : Tracker X)
    (crit : ℕ → ℂ → ℕ → X → X → Bool) : Prop where
  ok : ∀ i s, (T.iter i s).1 = .success → ∃ q, env.predict i s.space s.time s.delta = .ok q ∧
    correctAt cfg env (crit i (s.time + s.delta)) i q (s.time + s.delta) =
      (.success, (T.iter i s).2.space)
  conv : ∀ i s q p, env.predict i s.space s.time s.delta = .ok q →
    correctAt cfg env (crit i (s.time + s.delta)) i q (s.time + s.delta) = (.success, p) →
    (T.iter i s).1 = .success
  bad : ∀ i s, (T.iter i s).1 ≠ .success → (T.iter i s).2.space = s.space
  times : ∀ i s, (T.iter i s).2.time = s.time ∧ (T.iter i s).2.endtime = s.endtime ∧
    (T.iter i s).2.delta = s.delta
  onFail : ∀ s, (T.onFail s).time = s.time ∧ (T.onFail s).endtime = s.endtime ∧
    (T.onFail s).space = s.space
  pre : ∀ s, T.pre s ≠ .goingToInfinity

/-- Specification: in iteration `i` of the call, prediction and correction both succeeded; `p` is the
corrector's output and `t` the time it was computed for. -/
def Accepted (cfg : Cfg) (env : Env X) (T : Tracker X) (crit : ℕ → ℂ → ℕ → X → X → Bool) (s0 : St X)
    (i : ℕ) (t : ℂ) (p : X) : Prop :=
  ∃ s q, runAt cfg env T s0 i = .running i s ∧ ¬ relSmall s.time s.endtime cfg.eps ∧
    T.pre s = .success ∧ env.predict i s.space s.time (nextDelta s) = .ok q ∧
    correctAt cfg env (crit i t) i q t = (.success, p) ∧ t = s.time + nextDelta s

/-- Specification: after `n` iterations the last accepted step is `(t, p)`; it is the start if none
was accepted. -/
def LastAccepted (cfg : Cfg) (env : Env X) (T : Tracker X) (crit : ℕ → ℂ → ℕ → X → X → Bool)
    (s0 : St X) (n : ℕ) (t : ℂ) (p : X) : Prop :=
  ((∀ i, i < n → ∀ t' p', ¬ Accepted cfg env T crit s0 i t' p') ∧ t = s0.time ∧ p = s0.space) ∨
  (∃ i, i < n ∧ Accepted cfg env T crit s0 i t p ∧
    ∀ j, i < j → j < n → ∀ t' p', ¬ Accepted cfg env T crit s0 j t' p')

/-- Specification: two times agree up to relative error `e` (no division). -/
def Close (a b : ℂ) (e : ℝ) : Prop := a = b ∨ ‖a - b‖ ≤ e * ‖a‖ ∨ ‖a - b‖ ≤ e * ‖b‖

theorem relSmall_close {a b : ℂ} {e : ℝ} (h : relSmall a b e) : Close a b e := by
  rcases h with h | ⟨ha, h⟩ | ⟨hb, h⟩
  · exact Or.inl h
  · refine Or.inr (Or.inl ?_)
    rwa [div_le_iff₀ (norm_pos_iff.2 ha)] at h
  · refine Or.inr (Or.inr ?_)
    rwa [div_le_iff₀ (norm_pos_iff.2 hb)] at h

section generic
variable {cfg : Cfg} {env : Env X} {T : Tracker X} {crit : ℕ → ℂ → ℕ → X → X → Bool} {s0 : St X}

theorem runAt_succ (n : ℕ) : runAt cfg env T s0 (n + 1) = loopStep cfg env T (runAt cfg env T s0 n) := by
  unfold runAt; rw [Function.iterate_succ_apply']

theorem runAt_done {n m : ℕ} {c s o} (h : runAt cfg env T s0 n = .done c s o) (hm : n ≤ m) :
    runAt cfg env T s0 m = .done c s o := by
  obtain ⟨k, rfl⟩ := Nat.exists_eq_add_of_le hm
  clear hm
  induction k with
  | zero => exact h
  | succ k ih => rw [← Nat.add_assoc, runAt_succ, ih]; rfl

theorem runAt_index : ∀ {n i : ℕ} {s}, runAt cfg env T s0 n = .running i s → i = n := by
  intro n
  induction n with
  | zero => intro i s h; simp [runAt] at h; exact h.1.symm
  | succ n ih =>
    intro i s h
    rw [runAt_succ] at h
    cases hr : runAt cfg env T s0 n with
    | done c s' o => rw [hr] at h; simp [loopStep] at h
    | running j s' =>
      rw [hr] at h
      have := ih hr
      subst this
      simp only [loopStep] at h
      split_ifs at h <;> simp_all

/-- One pass, unfolded. -/
theorem loopStep_cases (i : ℕ) (s : St X) :
    (relSmall s.time s.endtime cfg.eps ∧
      loopStep cfg env T (.running i s) = .done .success s (some s.space)) ∨
    (¬ relSmall s.time s.endtime cfg.eps ∧ T.pre s ≠ .success ∧
      loopStep cfg env T (.running i s) = .done (T.pre s) s none) ∨
    (¬ relSmall s.time s.endtime cfg.eps ∧ T.pre s = .success ∧ cfg.truncate = true ∧
      cfg.threshold < env.size (T.iter i { s with delta := nextDelta s }).2.space ∧
      loopStep cfg env T (.running i s) =
        .done .goingToInfinity (T.iter i { s with delta := nextDelta s }).2 none) ∨
    (¬ relSmall s.time s.endtime cfg.eps ∧ T.pre s = .success ∧
      (T.iter i { s with delta := nextDelta s }).1 = .success ∧
      loopStep cfg env T (.running i s) =
        .running (i + 1) (baseSuccess (T.iter i { s with delta := nextDelta s }).2)) ∨
    (¬ relSmall s.time s.endtime cfg.eps ∧ T.pre s = .success ∧
      (T.iter i { s with delta := nextDelta s }).1 ≠ .success ∧
      loopStep cfg env T (.running i s) =
        .running (i + 1) (T.onFail (baseFail (T.iter i { s with delta := nextDelta s }).2))) := by
  by_cases h1 : relSmall s.time s.endtime cfg.eps
  · exact Or.inl ⟨h1, by simp [loopStep, h1]⟩
  refine Or.inr ?_
  by_cases h2 : T.pre s = .success
  swap
  · exact Or.inl ⟨h1, h2, by simp [loopStep, h1, h2]⟩
  refine Or.inr ?_
  by_cases h3 : cfg.truncate = true ∧
      cfg.threshold < env.size (T.iter i { s with delta := nextDelta s }).2.space
  · exact Or.inl ⟨h1, h2, h3.1, h3.2, by simp [loopStep, h1, h2, h3]⟩
  refine Or.inr ?_
  by_cases h4 : (T.iter i { s with delta := nextDelta s }).1 = .success
  · exact Or.inl ⟨h1, h2, h4, by simp only [loopStep, h1, h2, h3, h4, if_true, if_false, ne_eq, not_true_eq_false]⟩
  · exact Or.inr ⟨h1, h2, h4, by simp only [loopStep, h1, h2, h3, h4, if_true, if_false, ne_eq, not_true_eq_false]⟩

theorem not_accepted_of_done {n : ℕ} {c s o} (h : runAt cfg env T s0 n = .done c s o) (t p) :
    ¬ Accepted cfg env T crit s0 n t p := by
  rintro ⟨s', q, h', _⟩; rw [h] at h'; cases h'

theorem last_skip {n : ℕ} {t p} (h : LastAccepted cfg env T crit s0 n t p)
    (hn : ∀ t' p', ¬ Accepted cfg env T crit s0 n t' p') :
    LastAccepted cfg env T crit s0 (n + 1) t p := by
  rcases h with ⟨h1, h2⟩ | ⟨i, h1, h2, h3⟩
  · refine Or.inl ⟨fun i hi => ?_, h2⟩
    by_cases e : i = n
    · subst e; exact hn
    · exact h1 i (by omega)
  · refine Or.inr ⟨i, by omega, h2, fun j j1 j2 => ?_⟩
    by_cases e : j = n
    · subst e; exact hn
    · exact h3 j j1 (by omega)

/-- Invariant: while running, the stored pair is the last accepted one; after returning it is too,
unless the path was truncated. -/
theorem run_inv (F : Faithful cfg env T crit) : ∀ n,
    (∀ s, runAt cfg env T s0 n = .running n s →
      LastAccepted cfg env T crit s0 n s.time s.space ∧ s.endtime = s0.endtime) ∧
    (∀ c s o, runAt cfg env T s0 n = .done c s o → s.endtime = s0.endtime ∧
      (c = .goingToInfinity ∨ LastAccepted cfg env T crit s0 n s.time s.space) ∧
      (c = .success → relSmall s.time s.endtime cfg.eps ∧ o = some s.space) ∧
      (c ≠ .success → o = none)) := by
  intro n
  induction n with
  | zero =>
    refine ⟨?_, ?_⟩
    · intro s h
      simp [runAt] at h
      subst h
      exact ⟨Or.inl ⟨fun i hi => by omega, rfl, rfl⟩, rfl⟩
    · intro c s o h; simp [runAt] at h
  | succ n ih =>
    cases hr : runAt cfg env T s0 n with
    | done c s o =>
      have hsame := runAt_done hr (Nat.le_succ n)
      refine ⟨fun s' h => by (rw [hsame] at h; cases h), ?_⟩
      intro c' s' o' h
      rw [hsame] at h
      cases h
      obtain ⟨e, a, b, d⟩ := ih.2 _ _ _ hr
      exact ⟨e, a.imp id (fun a => last_skip a (not_accepted_of_done hr)), b, d⟩
    | running i s =>
      have := runAt_index hr
      subst this
      obtain ⟨hLA, hend⟩ := ih.1 s hr
      rw [runAt_succ, hr]
      rcases loopStep_cases (cfg := cfg) (env := env) (T := T) i s with
        ⟨h1, e⟩ | ⟨h1, h2, e⟩ | ⟨h1, h2, _, _, e⟩ | ⟨h1, h2, h3, e⟩ | ⟨h1, h2, h3, e⟩
      · rw [e]
        refine ⟨fun s' h => by (cases h), fun c s' o h => ?_⟩
        cases h
        refine ⟨hend, Or.inr (last_skip hLA ?_), fun _ => ⟨h1, rfl⟩, fun h => absurd rfl h⟩
        rintro t' p' ⟨s', q, r1, r2, _⟩
        rw [hr] at r1; cases r1; exact r2 h1
      · rw [e]
        refine ⟨fun s' h => by (cases h), fun c s' o h => ?_⟩
        cases h
        refine ⟨hend, Or.inr (last_skip hLA ?_), fun h => absurd h h2, fun _ => rfl⟩
        rintro t' p' ⟨s', q, r1, r2, r3, _⟩
        rw [hr] at r1; cases r1; exact h2 r3
      · rw [e]
        refine ⟨fun s' h => by (cases h), fun c s' o h => ?_⟩
        cases h
        exact ⟨by rw [(F.times _ _).2.1]; exact hend, Or.inl rfl, fun h => by (cases h), fun _ => rfl⟩
      · rw [e]
        refine ⟨fun s' h => ?_, fun c s' o h => by (cases h)⟩
        cases h
        obtain ⟨q, a1, a2⟩ := F.ok i _ h3
        obtain ⟨t1, t2, t3⟩ := F.times i { s with delta := nextDelta s }
        refine ⟨Or.inr ⟨i, by omega, ⟨s, q, hr, h1, h2, a1, ?_, ?_⟩, fun j j1 j2 => by omega⟩, ?_⟩
        · simp only [baseSuccess, t1, t3]
          exact a2
        · simp only [baseSuccess, t1, t3]
        · simp only [baseSuccess, t2]; exact hend
      · rw [e]
        refine ⟨fun s' h => ?_, fun c s' o h => by (cases h)⟩
        cases h
        obtain ⟨t1, t2, t3⟩ := F.times i { s with delta := nextDelta s }
        obtain ⟨f1, f2, f3⟩ := F.onFail (baseFail (T.iter i { s with delta := nextDelta s }).2)
        have hsp := F.bad i _ h3
        rw [f1, f2, f3]
        simp only [baseFail, t1, t2, hsp]
        refine ⟨last_skip hLA ?_, hend⟩
        rintro t' p' ⟨s', q, r1, r2, r3, r4, r5, r6⟩
        rw [hr] at r1
        cases r1
        subst r6
        exact h3 (F.conv i _ q p' r4 r5)

/-- C37 generically: `TrackPath` returned `c` after `n` passes.  If it is `Success`, the tracker's
time agrees with the requested end time up to the termination tolerance and the returned point is that
of the last accepted step (the start point if there was none), which was computed for exactly the
tracker's time.  On any other code except `GoingToInfinity` nothing is written to the output and the
tracker's time and point are those of the last accepted step. -/
theorem returned_generic (F : Faithful cfg env T crit) {n : ℕ} {c s o}
    (h : runAt cfg env T s0 n = .done c s o) (hc : c ≠ .goingToInfinity) :
    (c = .success → Close s.time s0.endtime cfg.eps ∧ o = some s.space) ∧
    (c ≠ .success → o = none) ∧ LastAccepted cfg env T crit s0 n s.time s.space := by
  obtain ⟨h0, h1, h2, h3⟩ := (run_inv F n).2 c s o h
  refine ⟨fun e => ⟨?_, (h2 e).2⟩, h3, h1.resolve_left hc⟩
  rw [← h0]; exact relSmall_close (h2 e).1

/-! ### the tracked time -/

/-- The next time difference is a positive fraction, at most one, of what is left to go. -/
theorem nextDelta_frac (s : St X) (hs : 0 < s.step) (hne : s.time ≠ s.endtime) :
    ∃ l : ℝ, 0 < l ∧ l ≤ 1 ∧ nextDelta s = (l : ℂ) * (s.endtime - s.time) := by
  have hd : 0 < ‖s.endtime - s.time‖ := norm_pos_iff.2 (sub_ne_zero.2 (Ne.symm hne))
  unfold nextDelta
  by_cases h : ‖s.endtime - s.time‖ < |s.step|
  · rw [if_pos h]; exact ⟨1, one_pos, le_refl _, by simp⟩
  · rw [if_neg h]
    rw [abs_of_pos hs] at h
    refine ⟨s.step / ‖s.endtime - s.time‖, div_pos hs hd, ?_, ?_⟩
    · rw [div_le_one hd]; exact not_lt.1 h
    · push_cast
      ring

/-- A fraction of the way to the end: still on the segment, strictly closer. -/
theorem frac_segment {a t e : ℂ} (ht : t ∈ segment ℝ a e) {l : ℝ} (l0 : 0 < l) (l1 : l ≤ 1)
    (hne : t ≠ e) :
    t + (l : ℂ) * (e - t) ∈ segment ℝ a e ∧ t + (l : ℂ) * (e - t) ∈ segment ℝ t e ∧
      ‖e - (t + (l : ℂ) * (e - t))‖ < ‖e - t‖ := by
  obtain ⟨u, v, hu, hv, huv, hab⟩ := ht
  refine ⟨⟨(1 - l) * u, (1 - l) * v + l, mul_nonneg (by linarith) hu,
    add_nonneg (mul_nonneg (by linarith) hv) l0.le, ?_, ?_⟩, ⟨1 - l, l, by linarith, l0.le, by ring, ?_⟩, ?_⟩
  · have : (1 - l) * u + ((1 - l) * v + l) = (1 - l) * (u + v) + l := by ring
    rw [this, huv]; ring
  · rw [← hab]
    simp only [Complex.real_smul]
    push_cast
    have hu' : (u : ℂ) = 1 - v := by
      have : u = 1 - v := by linarith
      rw [this]; push_cast; rfl
    rw [hu']
    ring
  · simp only [Complex.real_smul]
    push_cast
    ring
  · have : e - (t + (l : ℂ) * (e - t)) = ((1 - l : ℝ) : ℂ) * (e - t) := by push_cast; ring
    rw [this, Complex.norm_mul, Complex.norm_real, Real.norm_of_nonneg (by linarith)]
    have hd : 0 < ‖e - t‖ := norm_pos_iff.2 (sub_ne_zero.2 (Ne.symm hne))
    nlinarith

/-- C38 generically. -/
theorem time_generic (F : Faithful cfg env T crit)
    (hpos : ∀ s : St X, T.pre s = .success → 0 < s.step) : ∀ n,
    (runAt cfg env T s0 n).st.time ∈ segment ℝ s0.time s0.endtime ∧
    (runAt cfg env T s0 n).st.endtime = s0.endtime ∧
    ((((runAt cfg env T s0 (n + 1)).st.time = (runAt cfg env T s0 n).st.time) ∧
        ((∀ t p, ¬ Accepted cfg env T crit s0 n t p) ∨
          ∃ s, runAt cfg env T s0 (n + 1) = .done .goingToInfinity s none)) ∨
      ((∃ p, Accepted cfg env T crit s0 n (runAt cfg env T s0 (n + 1)).st.time p) ∧
        (runAt cfg env T s0 (n + 1)).st.time ∈
          segment ℝ (runAt cfg env T s0 n).st.time s0.endtime ∧
        ‖s0.endtime - (runAt cfg env T s0 (n + 1)).st.time‖ <
          ‖s0.endtime - (runAt cfg env T s0 n).st.time‖)) := by
  have key : ∀ n, (runAt cfg env T s0 n).st.time ∈ segment ℝ s0.time s0.endtime →
      (runAt cfg env T s0 n).st.endtime = s0.endtime →
      (runAt cfg env T s0 (n + 1)).st.time ∈ segment ℝ s0.time s0.endtime ∧
      (runAt cfg env T s0 (n + 1)).st.endtime = s0.endtime ∧
      ((((runAt cfg env T s0 (n + 1)).st.time = (runAt cfg env T s0 n).st.time) ∧
        ((∀ t p, ¬ Accepted cfg env T crit s0 n t p) ∨
          ∃ s, runAt cfg env T s0 (n + 1) = .done .goingToInfinity s none)) ∨
        ((∃ p, Accepted cfg env T crit s0 n (runAt cfg env T s0 (n + 1)).st.time p) ∧
          (runAt cfg env T s0 (n + 1)).st.time ∈
            segment ℝ (runAt cfg env T s0 n).st.time s0.endtime ∧
          ‖s0.endtime - (runAt cfg env T s0 (n + 1)).st.time‖ <
            ‖s0.endtime - (runAt cfg env T s0 n).st.time‖)) := by
    intro n hseg hend
    cases hr : runAt cfg env T s0 n with
    | done c s o =>
      rw [runAt_done hr (Nat.le_succ n)]
      rw [hr] at hseg hend
      exact ⟨hseg, hend, Or.inl ⟨rfl, Or.inl (not_accepted_of_done hr)⟩⟩
    | running i s =>
      have := runAt_index hr
      subst this
      rw [hr] at hseg hend
      simp only [Run.st] at hseg hend
      rw [runAt_succ, hr]
      obtain ⟨t1, t2, t3⟩ := F.times i { s with delta := nextDelta s }
      rcases loopStep_cases (cfg := cfg) (env := env) (T := T) i s with
        ⟨h1, e⟩ | ⟨h1, h2, e⟩ | ⟨h1, h2, _, _, e⟩ | ⟨h1, h2, h3, e⟩ | ⟨h1, h2, h3, e⟩
      · rw [e]
        refine ⟨hseg, hend, Or.inl ⟨rfl, Or.inl ?_⟩⟩
        rintro t' p' ⟨s', q, r1, r2, _⟩
        rw [hr] at r1; cases r1; exact r2 h1
      · rw [e]
        refine ⟨hseg, hend, Or.inl ⟨rfl, Or.inl ?_⟩⟩
        rintro t' p' ⟨s', q, r1, r2, r3, _⟩
        rw [hr] at r1; cases r1; exact h2 r3
      · rw [e]
        simp only [Run.st, t1, t2]
        exact ⟨hseg, hend, Or.inl ⟨trivial, Or.inr ⟨_, rfl⟩⟩⟩
      · rw [e]
        simp only [Run.st, baseSuccess, t1, t2, t3]
        have hne : s.time ≠ s.endtime := fun h => h1 (Or.inl h)
        obtain ⟨l, l0, l1, hl⟩ := nextDelta_frac s (hpos s h2) hne
        have hseg' := hseg
        rw [← hend] at hseg'
        obtain ⟨f1, f2, f3⟩ := frac_segment hseg' l0 l1 hne
        obtain ⟨q, a1, a2⟩ := F.ok i _ h3
        rw [hend] at f1 f2 f3 hl
        rw [hl]
        refine ⟨f1, hend, Or.inr ⟨⟨(T.iter i { s with delta := nextDelta s }).2.space, s, q, hr, h1, h2, a1, ?_, by rw [hl]⟩, f2, f3⟩⟩
        rw [← hl]; exact a2
      · rw [e]
        obtain ⟨f1, f2, f3⟩ := F.onFail (baseFail (T.iter i { s with delta := nextDelta s }).2)
        have g1 := f1.trans t1
        have g2 := f2.trans t2
        simp only [Run.st]
        rw [g1, g2]
        refine ⟨hseg, hend, Or.inl ⟨rfl, Or.inl ?_⟩⟩
        rintro t' p' ⟨s', q, r1, r2, r3, r4, r5, r6⟩
        rw [hr] at r1
        cases r1
        subst r6
        exact h3 (F.conv i _ q p' r4 r5)
  have base : ∀ n, (runAt cfg env T s0 n).st.time ∈ segment ℝ s0.time s0.endtime ∧
      (runAt cfg env T s0 n).st.endtime = s0.endtime := by
    intro n
    induction n with
    | zero => exact ⟨left_mem_segment ℝ _ _, rfl⟩
    | succ n ih => exact ⟨(key n ih.1 ih.2).1, (key n ih.1 ih.2).2.1⟩
  intro n
  exact ⟨(base n).1, (base n).2, (key n (base n).1 (base n).2).2.2⟩

end generic

end B2.Track
