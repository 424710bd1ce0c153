/-
Property theorem for C43: when Newton correction succeeds.
-/
import Verif.Track.Newton
import Mathlib.Algebra.Group.Int.Defs
import Mathlib.Order.Basic

namespace B2.Track

variable {X R : Type} [Add X] [LT R] [DecidableLT R]

/-- Specification: `Iterates solve z k zs` — starting at `z`, `k` Newton updates can be performed;
`zs i` is the point after `i` updates and `ds i` is the `(i+1)`-st update. -/
def Updates (solve : X → Option X) (z : X) (k : Nat) (zs ds : Nat → X) : Prop :=
  zs 0 = z ∧ ∀ i, i < k → solve (zs i) = some (ds i) ∧ zs (i + 1) = zs i + ds i

/-- Specification: the `k`-th update (counting from 1) is the first one that is both below tolerance
and not before the minimum number of iterations, no solve failed and no precision criterion failed on
the way. -/
def FirstGood (a : NewtonArgs X R) (z : X) (k : Nat) (zs ds : Nat → X) : Prop :=
  1 ≤ k ∧ a.minIts ≤ k ∧ k ≤ a.maxIts ∧ Updates a.solve z k zs ds ∧ a.norm (ds (k - 1)) < a.tol ∧
    ∀ j, 1 ≤ j → j < k →
      ¬ (a.minIts ≤ j ∧ a.norm (ds (j - 1)) < a.tol) ∧ a.crit (j - 1) (ds (j - 1)) (zs j) = true

/-- C43 in full: for all limits, `Correct` succeeds with point `p` exactly when some update number
`k` in `[min, max]` is the first one within tolerance, and `p` is the point after that update;
otherwise it returns one of the failure codes; never more than `max` solves. -/
def C43_full : Prop :=
  ∀ (X R : Type) [Add X] [LT R] [DecidableLT R] (a : NewtonArgs X R) (z : X),
    a.minIts ≤ a.maxIts → a.maxIts < 2 ^ 32 →
    (∀ p, ((correct a z).1 = .success ∧ (correct a z).2.1 = p) ↔
        ∃ k zs ds, FirstGood a z k zs ds ∧ p = zs k) ∧
      ((correct a z).1 = .success ∨ (correct a z).1 = .failedToConverge ∨
        (correct a z).1 = .matrixSolveFailure ∨ (correct a z).1 = .higherPrecisionNecessary) ∧
      (correct a z).2.2 ≤ a.maxIts

theorem uPred_of_pos {m : Nat} (h : 1 ≤ m) (h2 : m < 2 ^ 32) : uPred m = m - 1 := by
  unfold uPred; omega

/-- The codes `Correct` can return, for all limits whatsoever. -/
theorem newtonLoop_codes (a : NewtonArgs X R) : ∀ fuel ii z,
    ((newtonLoop a fuel ii z).1 = .success ∨ (newtonLoop a fuel ii z).1 = .failedToConverge ∨
      (newtonLoop a fuel ii z).1 = .matrixSolveFailure ∨
      (newtonLoop a fuel ii z).1 = .higherPrecisionNecessary) ∧
      (newtonLoop a fuel ii z).2.2 ≤ ii + fuel := by
  intro fuel
  induction fuel with
  | zero => intro ii z; simp [newtonLoop]
  | succ fuel ih =>
    intro ii z
    rw [newtonLoop]
    cases hs : a.solve z with
    | none => simp
    | some d =>
      dsimp only
      by_cases h1 : a.norm d < a.tol ∧ uPred a.minIts ≤ ii
      · rw [if_pos h1]; simp
      · rw [if_neg h1]
        by_cases h2 : a.crit ii d (z + d) = true
        · rw [if_pos h2]
          have := ih (ii + 1) (z + d)
          exact ⟨this.1, by omega⟩
        · rw [if_neg h2]; simp

theorem correct_codes (a : NewtonArgs X R) (z : X) :
    ((correct a z).1 = .success ∨ (correct a z).1 = .failedToConverge ∨
      (correct a z).1 = .matrixSolveFailure ∨ (correct a z).1 = .higherPrecisionNecessary) ∧
      (correct a z).2.2 ≤ a.maxIts := by
  have := newtonLoop_codes a a.maxIts 0 z
  simpa [correct] using this

/-- Without precision criteria (the fixed-precision overload) `HigherPrecisionNecessary` is never
returned. -/
theorem correct_codes_fixed (a : NewtonArgs X R) (hc : ∀ i d z, a.crit i d z = true) (z : X) :
    (correct a z).1 ≠ .higherPrecisionNecessary := by
  have : ∀ fuel ii z, (newtonLoop a fuel ii z).1 ≠ .higherPrecisionNecessary := by
    intro fuel
    induction fuel with
    | zero => intro ii z; simp [newtonLoop]
    | succ fuel ih =>
      intro ii z
      rw [newtonLoop]
      cases hs : a.solve z with
      | none => simp
      | some d =>
        dsimp only
        by_cases h1 : a.norm d < a.tol ∧ uPred a.minIts ≤ ii
        · rw [if_pos h1]; simp
        · rw [if_neg h1, if_pos (hc _ _ _)]; exact ih _ _
  exact this _ _ _

/-- Loop invariant for the forward direction. -/
theorem newtonLoop_sound (a : NewtonArgs X R) (h1 : 1 ≤ a.minIts) (h2 : a.minIts < 2 ^ 32) :
    ∀ fuel ii z p n, newtonLoop a fuel ii z = (.success, p, n) →
      ∃ k zs ds, 1 ≤ k ∧ k ≤ fuel ∧ a.minIts ≤ ii + k ∧ Updates a.solve z k zs ds ∧
        a.norm (ds (k - 1)) < a.tol ∧ p = zs k ∧
        ∀ j, 1 ≤ j → j < k → ¬ (a.minIts ≤ ii + j ∧ a.norm (ds (j - 1)) < a.tol) ∧
          a.crit (ii + j - 1) (ds (j - 1)) (zs j) = true := by
  intro fuel
  induction fuel with
  | zero => intro ii z p n h; simp [newtonLoop] at h
  | succ fuel ih =>
    intro ii z p n h
    rw [newtonLoop] at h
    cases hs : a.solve z with
    | none => simp [hs] at h
    | some d =>
      rw [hs] at h
      dsimp only at h
      by_cases c1 : a.norm d < a.tol ∧ uPred a.minIts ≤ ii
      · rw [if_pos c1] at h
        simp only [Prod.mk.injEq, true_and] at h
        rw [uPred_of_pos h1 h2] at c1
        refine ⟨1, fun i => if i = 0 then z else z + d, fun _ => d, Nat.le_refl _, by omega, by omega,
          ⟨by simp, ?_⟩, c1.1, by simp [h.1], by omega⟩
        intro i hi
        have : i = 0 := by omega
        subst this
        simp [hs]
      · rw [if_neg c1] at h
        by_cases c2 : a.crit ii d (z + d) = true
        · rw [if_pos c2] at h
          obtain ⟨k, zs, ds, k1, k2, k3, ⟨u0, u1⟩, k5, k6, k7⟩ := ih _ _ _ _ h
          rw [uPred_of_pos h1 h2] at c1
          refine ⟨k + 1, fun i => if i = 0 then z else zs (i - 1),
            fun i => if i = 0 then d else ds (i - 1), by omega, by omega, by omega,
            ⟨by simp, ?_⟩, ?_, by simp [k6], ?_⟩
          · intro i hi
            by_cases hi0 : i = 0
            · subst hi0; simp [hs, u0]
            · have := u1 (i - 1) (by omega)
              have e : i - 1 + 1 = i := by omega
              rw [e] at this
              simpa [hi0] using this
          · have e : k ≠ 0 := by omega
            simpa [e] using k5
          · intro j j1 j2
            by_cases hj : j = 1
            · subst hj
              refine ⟨?_, ?_⟩
              · intro hh
                apply c1
                simp only [Nat.sub_self, if_true] at hh
                exact ⟨hh.2, by omega⟩
              · simpa [u0] using c2
            · have := k7 (j - 1) (by omega) (by omega)
              have e1 : ii + 1 + (j - 1) = ii + j := by omega
              have e2 : j - 1 ≠ 0 := by omega
              have e3 : j ≠ 0 := by omega
              rw [e1] at this
              simpa [e2, e3] using this
        · rw [if_neg c2] at h; simp at h

/-- Converse direction. -/
theorem newtonLoop_complete (a : NewtonArgs X R) (h1 : 1 ≤ a.minIts) (h2 : a.minIts < 2 ^ 32) :
    ∀ k fuel ii z zs ds, 1 ≤ k → k ≤ fuel → a.minIts ≤ ii + k → Updates a.solve z k zs ds →
        a.norm (ds (k - 1)) < a.tol →
        (∀ j, 1 ≤ j → j < k → ¬ (a.minIts ≤ ii + j ∧ a.norm (ds (j - 1)) < a.tol) ∧
          a.crit (ii + j - 1) (ds (j - 1)) (zs j) = true) →
      newtonLoop a fuel ii z = (.success, zs k, ii + k) := by
  intro k
  induction k with
  | zero => intro _ _ _ _ _ h; omega
  | succ k ih =>
    intro fuel ii z zs ds _ hf hm ⟨u0, u1⟩ hn hj
    obtain ⟨fuel, rfl⟩ : ∃ f, fuel = f + 1 := ⟨fuel - 1, by omega⟩
    have hs0 := u1 0 (by omega)
    rw [u0] at hs0
    rw [newtonLoop, hs0.1]
    dsimp only
    by_cases hk : k = 0
    · subst hk
      rw [if_pos ⟨hn, by rw [uPred_of_pos h1 h2]; omega⟩, hs0.2]
    · have hj1 := hj 1 (Nat.le_refl _) (by omega)
      rw [if_neg, if_pos]
      · rw [ih fuel (ii + 1) (z + ds 0) (fun i => zs (i + 1)) (fun i => ds (i + 1)) (by omega)
          (by omega) (by omega) ⟨by simpa using hs0.2, fun i hi => u1 (i + 1) (by omega)⟩
          (by have e : k - 1 + 1 = k := by omega
              simpa [e] using hn) ?_]
        · have : ii + 1 + k = ii + (k + 1) := by omega
          rw [this]
        · intro j j1 j2
          have := hj (j + 1) (by omega) (by omega)
          have e1 : ii + 1 + j = ii + (j + 1) := by omega
          have e2 : j - 1 + 1 = j := by omega
          simpa [e1, e2] using this
      · simpa [hs0.2] using hj1.2
      · rintro ⟨q1, q2⟩
        rw [uPred_of_pos h1 h2] at q2
        exact hj1.1 ⟨by omega, by simpa using q1⟩

/-- C43, for every call with a positive minimum number of iterations (the documented precondition,
newton_corrector.hpp line 135 "This should be at least 1"): all three parts of the claim. What is
missing from the full statement is `min = 0`, where the claim fails (`C43_refuted`). -/
theorem C43_partial (a : NewtonArgs X R) (z : X) (h1 : 1 ≤ a.minIts)
    (h2 : a.minIts ≤ a.maxIts) (h3 : a.maxIts < 2 ^ 32) :
    (∀ p, ((correct a z).1 = .success ∧ (correct a z).2.1 = p) ↔
        ∃ k zs ds, FirstGood a z k zs ds ∧ p = zs k) ∧
      ((correct a z).1 = .success ∨ (correct a z).1 = .failedToConverge ∨
        (correct a z).1 = .matrixSolveFailure ∨ (correct a z).1 = .higherPrecisionNecessary) ∧
      (correct a z).2.2 ≤ a.maxIts := by
  refine ⟨fun p => ⟨?_, ?_⟩, (correct_codes a z).1, (correct_codes a z).2⟩
  · rintro ⟨hc, hp⟩
    obtain ⟨k, zs, ds, k1, k2, k3, u, k5, k6, k7⟩ :=
      newtonLoop_sound a h1 (by omega) a.maxIts 0 z p (correct a z).2.2
        (by rw [← hc, ← hp]; rfl)
    refine ⟨k, zs, ds, ⟨k1, by omega, k2, u, k5, ?_⟩, k6⟩
    intro j j1 j2
    have := k7 j j1 j2
    simpa using this
  · rintro ⟨k, zs, ds, ⟨k1, k2, k3, u, k5, k6⟩, rfl⟩
    have := newtonLoop_complete a h1 (by omega) k a.maxIts 0 z zs ds k1 k3 (by omega) u k5
      (by simpa using k6)
    have h : correct a z = (.success, zs k, 0 + k) := this
    rw [h]
    exact ⟨rfl, rfl⟩

/-- Which failure is reported: a matrix failure exactly when a solve actually failed at some iterate
reached before success. (The failing point is the one returned.) -/
theorem C43_matrixFailure (a : NewtonArgs X R) (z : X) (h : (correct a z).1 = .matrixSolveFailure) :
    a.solve (correct a z).2.1 = none := by
  have : ∀ fuel ii z, (newtonLoop a fuel ii z).1 = .matrixSolveFailure →
      a.solve (newtonLoop a fuel ii z).2.1 = none := by
    intro fuel
    induction fuel with
    | zero => intro ii z h; simp [newtonLoop] at h
    | succ fuel ih =>
      intro ii z h
      rw [newtonLoop] at h ⊢
      cases hs : a.solve z with
      | none => simpa using hs
      | some d =>
        rw [hs] at h
        dsimp only at h ⊢
        by_cases c1 : a.norm d < a.tol ∧ uPred a.minIts ≤ ii
        · rw [if_pos c1] at h; simp at h
        · rw [if_neg c1] at h ⊢
          by_cases c2 : a.crit ii d (z + d) = true
          · rw [if_pos c2] at h ⊢; exact ih _ _ h
          · rw [if_neg c2] at h; simp at h
  exact this _ _ _ h

/-- When more precision is asked for, the returned point is the one after the returned number of updates, none of
them was acceptable, and the precision criteria failed at the last one and at no earlier one. -/
theorem C43_precision (a : NewtonArgs X R) (z p : X) (n : ℕ) (h1 : 1 ≤ a.minIts) (h2 : a.minIts < 2 ^ 32)
    (h : correct a z = (.higherPrecisionNecessary, p, n)) :
    ∃ zs ds, 1 ≤ n ∧ n ≤ a.maxIts ∧ Updates a.solve z n zs ds ∧ p = zs n ∧
      ∀ j, 1 ≤ j → j ≤ n → ¬ (a.minIts ≤ j ∧ a.norm (ds (j - 1)) < a.tol) ∧
        (a.crit (j - 1) (ds (j - 1)) (zs j) = false ↔ j = n) := by
  have key : ∀ fuel ii z n, newtonLoop a fuel ii z = (.higherPrecisionNecessary, p, n) →
      ∃ k zs ds, n = ii + k ∧ 1 ≤ k ∧ k ≤ fuel ∧ Updates a.solve z k zs ds ∧ p = zs k ∧
        ∀ j, 1 ≤ j → j ≤ k → ¬ (a.minIts ≤ ii + j ∧ a.norm (ds (j - 1)) < a.tol) ∧
          (a.crit (ii + j - 1) (ds (j - 1)) (zs j) = false ↔ j = k) := by
    intro fuel
    induction fuel with
    | zero => intro ii z n h; simp [newtonLoop] at h
    | succ fuel ih =>
      intro ii z n h
      rw [newtonLoop] at h
      cases hs : a.solve z with
      | none => simp [hs] at h
      | some d =>
        rw [hs] at h
        dsimp only at h
        by_cases c1 : a.norm d < a.tol ∧ uPred a.minIts ≤ ii
        · rw [if_pos c1] at h; simp at h
        rw [if_neg c1] at h
        rw [uPred_of_pos h1 h2] at c1
        by_cases c2 : a.crit ii d (z + d) = true
        · rw [if_pos c2] at h
          obtain ⟨k, zs, ds, k0, k1, k2, ⟨u0, u1⟩, k6, k7⟩ := ih _ _ _ h
          refine ⟨k + 1, fun i => if i = 0 then z else zs (i - 1),
            fun i => if i = 0 then d else ds (i - 1), by omega, by omega, by omega,
            ⟨by simp, ?_⟩, by simp [k6], ?_⟩
          · intro i hi
            by_cases hi0 : i = 0
            · subst hi0; simp [hs, u0]
            · have := u1 (i - 1) (by omega)
              have e : i - 1 + 1 = i := by omega
              rw [e] at this
              simpa [hi0] using this
          · intro j j1 j2
            by_cases hj : j = 1
            · subst hj
              refine ⟨?_, ?_⟩
              · intro hh
                apply c1
                simp only [Nat.sub_self, if_true] at hh
                exact ⟨hh.2, by omega⟩
              · have hk : (1 : ℕ) ≠ k + 1 := by omega
                simp [u0, c2]
                omega
            · have := k7 (j - 1) (by omega) (by omega)
              have e1 : ii + 1 + (j - 1) = ii + j := by omega
              have e2 : j - 1 ≠ 0 := by omega
              have e3 : j ≠ 0 := by omega
              have e4 : j - 1 = k ↔ j = k + 1 := by omega
              rw [e1, e4] at this
              simpa [e2, e3] using this
        · rw [if_neg c2] at h
          simp only [Prod.mk.injEq, true_and] at h
          refine ⟨1, fun i => if i = 0 then z else z + d, fun _ => d, by omega, Nat.le_refl _, by omega,
            ⟨by simp, ?_⟩, by simp [h.1], ?_⟩
          · intro i hi
            have : i = 0 := by omega
            subst this
            simp [hs]
          · intro j j1 j2
            have : j = 1 := by omega
            subst this
            refine ⟨fun hh => c1 ⟨hh.2, by omega⟩, ?_⟩
            simpa using c2
  obtain ⟨k, zs, ds, k0, k1, k2, k3, k4, k5⟩ := key _ _ _ _ h
  have hk : n = k := by omega
  subst hk
  exact ⟨zs, ds, k1, k2, k3, k4, fun j a b => by simpa using k5 j a b⟩

/-- A concrete corrector: integers, the Newton step halves the distance to 0 (rounding towards 0),
tolerance 3, between 1 and 5 iterations. -/
def halving (mn mx : Nat) : NewtonArgs Int Int :=
  { solve := fun z => some (-(z - z / 2)), norm := fun d => d.natAbs, tol := 3, minIts := mn,
    maxIts := mx, crit := fun _ _ _ => true }

/-- Witness for `C43_partial`: from 16 the updates are -8, -4, -2; the third is the first below 3. -/
example : (correct (halving 1 5) 16) = (.success, 2, 3) ∧ (1 : Nat) ≤ (halving 1 5).minIts ∧
    (halving 1 5).minIts ≤ (halving 1 5).maxIts ∧ (halving 1 5).maxIts < 2 ^ 32 := by decide

/-- and with a minimum of 4 the fourth update is the accepted one; with maximum 2 it fails. -/
example : (correct (halving 4 5) 16) = (.success, 1, 4) ∧
    (correct (halving 1 2) 16) = (.failedToConverge, 4, 2) := by decide

/-- Witness for `C43_precision`. -/
example : (correct { halving 1 5 with crit := fun i _ _ => i != 1 } 16) = (.higherPrecisionNecessary, 4, 2) := by decide

/-- Witness for `C43_matrixFailure`. -/
example : (correct { halving 1 5 with solve := fun z => if z = 4 then none else some (-(z - z / 2)) }
    16) = (.matrixSolveFailure, 4, 3) := by decide

/-- The full claim fails at `min_num_newton_iterations = 0`: the subtraction wraps around, no
iteration ever qualifies, and `Correct` reports `FailedToConverge` although the first update was
already within tolerance (here it is 0). -/
theorem C43_refuted : ¬ C43_full := by
  intro h
  have h1 := (h Int Int (halving 0 5) 0 (by decide) (by decide)).1 0
  have h2 : ∃ k zs ds, FirstGood (halving 0 5) 0 k zs ds ∧ (0 : Int) = zs k := by
    refine ⟨1, fun _ => 0, fun _ => 0, ⟨by decide, by decide, by decide, ⟨rfl, ?_⟩, by decide, ?_⟩,
      rfl⟩
    · intro i _; simp [halving]
    · intro j j1 j2; omega
  have h3 := h1.2 h2
  revert h3
  decide

end B2.Track
