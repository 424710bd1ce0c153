import Verif.Alg.Blackbox

/-!
# Run time options (C123)
-/

namespace B2.Alg.Blackbox

/-- What the options ask for: the tracker, the endgame of that flavour for that tracker, the start
system; systems given are copied, except for a user homotopy, which is used as given. -/
def Wanted (rt : RT) (s : Start) (i : Instance) : Prop :=
  i.tracker = rt.tracker ∧ i.start = s ∧ i.endgame = rt.endgame ∧ i.endgameFor = rt.tracker ∧
  (i.policy = .refer ↔ s = .user)

/-- **C123** in full: every choice of options gives the algorithm asked for; `MakeZeroDim` refuses
exactly user homotopies, for which there is `MakeUserHom`. -/
def C123_full : Prop :=
  ∀ rt : RT, (∀ i, makeZeroDim rt = some i → Wanted rt rt.start i) ∧
    (makeZeroDim rt = none ↔ rt.start = .user) ∧ Wanted rt .user (makeUserHom rt)

/-- **C123, partial.** Tracker, start system and storage policy are as asked for, the endgame is one for
that tracker, and user homotopies are refused by `MakeZeroDim`. The flavour of the endgame is as asked
for if that was Cauchy. Missing: power series endgames, see `C123_refuted`. -/
theorem C123_partial (rt : RT) :
    (∀ i, makeZeroDim rt = some i → i.tracker = rt.tracker ∧ i.start = rt.start ∧
      i.endgameFor = rt.tracker ∧ i.policy = .clone ∧
      (rt.endgame = .cauchy → Wanted rt rt.start i)) ∧
    (makeZeroDim rt = none ↔ rt.start = .user) ∧
    ((makeUserHom rt).tracker = rt.tracker ∧ (makeUserHom rt).start = .user ∧
      (makeUserHom rt).endgameFor = rt.tracker ∧ (makeUserHom rt).policy = .refer ∧
      (rt.endgame = .cauchy → Wanted rt .user (makeUserHom rt))) := by
  obtain ⟨s, t, e⟩ := rt
  refine ⟨?_, ?_, ?_⟩
  · intro i hi
    cases s <;> cases t <;> cases e <;> cases hi <;>
      exact ⟨rfl, rfl, rfl, rfl, fun h => by
        first
          | exact absurd h (by decide)
          | exact ⟨rfl, rfl, rfl, rfl, by
              simp [specifyTracker, specifyEndgame, specifyShouldClone, specifyComplete,
                shouldClone]⟩⟩
  · cases s <;> simp [makeZeroDim]
  · cases t <;> cases e <;>
      exact ⟨rfl, rfl, rfl, rfl, fun h => by
        first
          | exact ⟨rfl, rfl, rfl, rfl, by
              simp [makeUserHom, specifyTracker, specifyEndgame, specifyShouldClone,
                specifyComplete, shouldClone]⟩
          | exact absurd h (fun h => Endgame.noConfusion h)⟩

example : makeZeroDim ⟨.mhom, .fixedMultiple, .cauchy⟩ =
    some ⟨.fixedMultiple, .cauchy, .fixedMultiple, .mhom, .clone⟩ := rfl

/-- The power series endgame cannot be had: all options lead to the Cauchy endgame. -/
theorem C123_always_cauchy (rt : RT) :
    (∀ i, makeZeroDim rt = some i → i.endgame = .cauchy) ∧ (makeUserHom rt).endgame = .cauchy := by
  obtain ⟨s, t, e⟩ := rt
  constructor
  · intro i hi
    cases s <;> cases t <;> cases e <;> cases hi <;> rfl
  · cases t <;> cases e <;> rfl

theorem C123_refuted : ¬ C123_full := by
  intro hf
  have h := (hf ⟨.totalDegree, .adaptive, .powerSeries⟩).1 _ rfl
  cases h.2.2.1

end B2.Alg.Blackbox
