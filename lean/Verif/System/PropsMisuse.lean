import Verif.System.PropsStateNeg

/-!
# C105: wrong uses of the evaluation functions are rejected
-/

namespace B2.Sys

theorem differentiate_path {simp : Node → Node} {w : World} {o o' : Obj}
    (h : differentiate simp w o = some o') : o'.path = o.path := by
  cases hv : o.vars with
  | none => simp [differentiate, hv] at h
  | some vars =>
    cases hm : o.method with
    | functionTree =>
      simp only [differentiate, hv, hm, Option.bind_eq_bind, Option.bind_some, Option.some.injEq] at h
      subst h
      rfl
    | slp =>
      simp only [differentiate, hv, hm, Option.bind_eq_bind, Option.bind_some] at h
      split at h
      · simp only [Option.some.injEq] at h
        subst h
        rfl
      · cases h

/-- **C105 (points).** In every state, reachable or not, an evaluation at a point answers only if the
point has one entry for each variable of the system, and a time is given exactly if the system has a
path variable. -/
theorem C105_points (simp : Node → Node) (w : World) (i : ℕ) (x v : List ℂ) (m : List (List ℂ)) (t : ℂ) :
    ((evalAt simp w i v x).isSome ∨ (jacAt simp w i m x).isSome →
      (∃ vars, (w.objs i).vars = some vars ∧ x.length = vars.length) ∧ (w.objs i).path = none) ∧
    ((evalAtTime simp w i v x t).isSome ∨ (jacAtTime simp w i m x t).isSome ∨
        (timeAt simp w i v x t).isSome →
      (∃ vars, (w.objs i).vars = some vars ∧ x.length = vars.length) ∧ ∃ p, (w.objs i).path = some p) := by
  have path_eq : ∀ w', setVariables simp w i x = some w' → (w'.objs i).path = (w.objs i).path := by
    intro w' h
    cases hv : (w.objs i).vars with
    | none => simp [setVariables, hv] at h
    | some vars =>
      by_cases hl : x.length = vars.length
      · cases he : ensureDiff simp w (w.objs i) with
        | none => simp [setVariables, hv, hl, he] at h
        | some o' =>
          have ho : o'.path = (w.objs i).path := by
            unfold ensureDiff at he
            split at he
            · cases he; rfl
            · exact (differentiate_path he)
          cases hm : o'.method with
          | functionTree =>
            simp [setVariables, hv, hl, he, hm] at h
            subst h
            simpa [World.set] using ho
          | slp =>
            simp [setVariables, hv, hl, he, hm] at h
            obtain ⟨_, h⟩ := h
            subst h
            simpa [World.set] using ho
      · simp [setVariables, hv, hl] at h
  cases hv : (w.objs i).vars with
  | none => simp [evalAt, jacAt, evalAtTime, jacAtTime, timeAt, setVariables, hv]
  | some vars =>
    by_cases hl : x.length = vars.length
    · cases hp : (w.objs i).path with
      | none =>
        refine ⟨fun _ => ⟨⟨vars, rfl, hl⟩, rfl⟩, ?_⟩
        rintro (h | h | h)
        · simp [evalAtTime, hv, hp] at h
        · simp [jacAtTime, hv, hp] at h
        · cases hs : setVariables simp w i x with
          | none => simp [timeAt, hs] at h
          | some w' =>
            have := (path_eq w' hs).trans hp
            simp [timeAt, hs, setPath, this] at h
      | some p =>
        refine ⟨?_, fun _ => ⟨⟨vars, rfl, hl⟩, p, rfl⟩⟩
        rintro (h | h)
        · simp [evalAt, hv, hp] at h
        · simp [jacAt, hv, hp] at h
    · simp [evalAt, jacAt, evalAtTime, jacAtTime, timeAt, setVariables, hv, hl]

/-- **C105 (outputs).** In every state, the functions that fill a container the caller supplies answer
only if it is large enough: one entry per function and patch, for the Jacobian with one column per
variable; time derivatives also need a path variable. -/
theorem C105_outputs (simp : Node → Node) (w : World) (i : ℕ) (v : List ℂ) (m : List (List ℂ)) :
    ((evalStored w i v).isSome → v.length = (w.objs i).total) ∧
    ((jacStored simp w i m).isSome → ∃ vars, (w.objs i).vars = some vars ∧
      m.length = (w.objs i).total ∧ ∀ r ∈ m, r.length = vars.length) ∧
    ((timeStored simp w i v).isSome → (w.objs i).fns.length ≤ v.length ∧ ∃ p, (w.objs i).path = some p) := by
  refine ⟨fun h => ?_, fun h => ?_, fun h => ?_⟩
  · by_contra hc
    simp [evalStored, hc] at h
  · cases hv : (w.objs i).vars with
    | none => simp [jacStored, hv] at h
    | some vars =>
      refine ⟨vars, rfl, ?_⟩
      by_contra hc
      have hc' : m.length ≠ (w.objs i).total ∨ ¬ ∀ r ∈ m, r.length = vars.length := by
        by_contra hd
        push Not at hd
        exact hc hd
      unfold jacStored at h
      simp only [hv, Option.bind_eq_bind, Option.bind_some] at h
      rw [if_pos hc'] at h
      simp at h
  · by_contra hc
    have hc' : v.length < (w.objs i).fns.length ∨ (w.objs i).path.isNone = true := by
      by_contra hd
      push Not at hd
      apply hc
      refine ⟨hd.1, ?_⟩
      cases hp : (w.objs i).path with
      | none => simp [hp] at hd
      | some p => exact ⟨p, rfl⟩
    unfold timeStored at h
    simp only at h
    rw [if_pos hc'] at h
    simp at h

/-- The system with the one function `x`: the point `1` is accepted (`C105_points`
applies), a point of two entries, a time or a container of the wrong size is not. -/
example (m : List (List ℂ)) (v : List ℂ) (t a b : ℂ) :
    (evalAt id w0 0 [0] [1]).isSome ∧
    jacAt id w0 0 m [a, b] = none ∧
    jacAtTime id w0 0 m [a] t = none ∧
    timeAt id w0 0 v [a] t = none ∧
    evalStored w0 0 [a, b] = none := by
  have hv : (w0.objs 0).vars = some [0] := ord0
  have hp : (w0.objs 0).path = none := rfl
  have ht : (w0.objs 0).total = 1 := by simp [w0, World.set, Obj.total, o0, Obj.new]
  refine ⟨?_, ?_, ?_, ?_, ?_⟩
  · rw [eval0]; rfl
  · rw [← Option.not_isSome_iff_eq_none]
    intro h
    obtain ⟨⟨_, h1, h2⟩, _⟩ := (C105_points id w0 0 [a, b] [] m t).1 (.inr h)
    rw [hv] at h1
    cases h1
    simp at h2
  · rw [← Option.not_isSome_iff_eq_none]
    intro h
    obtain ⟨_, _, h2⟩ := (C105_points id w0 0 [a] [] m t).2 (.inr (.inl h))
    rw [hp] at h2
    cases h2
  · rw [← Option.not_isSome_iff_eq_none]
    intro h
    obtain ⟨_, _, h2⟩ := (C105_points id w0 0 [a] v m t).2 (.inr (.inr h))
    rw [hp] at h2
    cases h2
  · rw [← Option.not_isSome_iff_eq_none]
    intro h
    have := (C105_outputs id w0 0 [a, b] m).1 h
    rw [ht] at this
    simp at this

end B2.Sys
