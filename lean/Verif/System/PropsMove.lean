import Verif.System.PropsStateNeg

/-!
# Property C146: moving and swapping systems

The move constructor and `swap` leave the compiled program where it was. `SysOp.move` and `SysOp.swap` are
operations of the histories in `State.lean`, so C20 to C22 cover the histories in which they occur.
-/

namespace B2.Sys

open Classical

/-- What a user expects after `System k(std::move(i))`: at every point `k` returns the values that system
`i` stood for before the move. -/
def MovesTo (simp : Node → Node) (w : World) (i : ℕ) (w' : World) (k : ℕ) : Prop :=
  ∀ vars x env junk, Evaluable w i vars → Binds vars x env → PatchFits w i x →
    ((w.objs i).patched = false → (w.objs i).patch = []) → junk.length = (w.objs i).total →
    ((w.objs i).path = none →
      ∃ out w'', evalAt simp w' k junk x = some (out, w'') ∧ IsValue w i env x out) ∧
    ∀ p, (w.objs i).path = some p →
      ∃ out w'', evalAtTime simp w' k junk x (env p) = some (out, w'') ∧ IsValue w i env x out

/-- A system without variables, functions and patch, ready to be filled. -/
def IsEmpty (o : Obj) : Prop :=
  o.vs = Vars.empty ∧ o.path = none ∧ o.fns = [] ∧ o.diffed = false ∧ o.patched = false ∧ o.patch = []

/-- **C146, full statement.** After every history in which C20 holds, a system built by the move
constructor returns the values of the system it was built from, which is left empty; and two swapped
systems return each other's values. -/
def C146_full : Prop :=
  ∀ (simp : Node → Node) (ops : List SysOp) (w : World), SafeRun simp ops World.init →
    run simp ops World.init = some w → ∀ (i k : ℕ), i ≠ k →
    (∀ w', step simp w (.move i k) = some w' → MovesTo simp w i w' k ∧ IsEmpty (w'.objs i)) ∧
    ∀ w', step simp w (.swap i k) = some w' → MovesTo simp w i w' k ∧ MovesTo simp w k w' i

theorem movesTo_of {simp : Node → Node} {w w' : World} {i k : ℕ} {a : Obj} (hg : Good simp w')
    (hh : w'.heap = w.heap) (hk : w'.objs k = a.swapped (w.objs i)) : MovesTo simp w i w' k := by
  intro vars x env junk he hb hpf hup hj
  have hr : w'.roots (w'.objs k) = w.roots (w.objs i) := by
    rw [hk]; simp [World.roots, Obj.swapped, hh]
  have he' : Evaluable w' k vars := ⟨by rw [hk]; exact he.listed,
    by rw [hr, hk]; exact he.closed, by rw [hk]; exact he.nodup⟩
  have h := eval_good hg he' hb (by unfold PatchFits; rw [hk]; exact hpf) (by rw [hk]; exact hup)
    (by rw [hk]; exact hj)
  have hv : ∀ out, IsValue w' k env x out → IsValue w i env x out := by
    intro out ho
    unfold IsValue at ho ⊢
    rw [hr, hk] at ho
    exact ho
  refine ⟨fun hp => ?_, fun p hp => ?_⟩
  · obtain ⟨out, w'', h1, h2⟩ := h.1 (by rw [hk]; exact hp)
    exact ⟨out, w'', h1, hv _ h2⟩
  · obtain ⟨out, w'', h1, h2⟩ := h.2 p (by rw [hk]; exact hp)
    exact ⟨out, w'', h1, hv _ h2⟩

/-- **C146 (moving, partial).** Moving a system that was not differentiated since its last change, or that
is evaluated by function trees. Missing: a system differentiated for straight line evaluation, see
`C146_refuted`. -/
theorem C146_move_partial (simp : Node → Node) (ops : List SysOp) (w w' : World)
    (hsafe : SafeRun simp ops World.init) (hrun : run simp ops World.init = some w) (i k : ℕ)
    (hd : (w.objs i).diffed = false ∨ (w.objs i).method = .functionTree)
    (h : step simp w (.move i k) = some w') : MovesTo simp w i w' k ∧ IsEmpty (w'.objs i) := by
  have hg := run_good ops _ _ (good_init simp) hsafe hrun
  have hg' := step_good hg (op := .move i k)
    (by rintro ⟨h1, h2⟩; rcases hd with h3 | h3 <;> simp [h1, h2] at h3) h
  simp only [step] at h
  by_cases hik : i = k
  · rw [if_pos hik] at h; simp at h
  · rw [if_neg hik, Option.some.injEq] at h
    subst h
    refine ⟨movesTo_of (a := Obj.new .slp) hg' rfl (by simp [World.set]), ?_⟩
    simp [IsEmpty, World.set, Function.update_of_ne hik, Obj.swapped, Obj.new]

/-- **C146 (swapping, partial).** Swapping two systems neither of which was ever compiled, in particular two
systems evaluated by function trees. -/
theorem C146_swap_partial (simp : Node → Node) (ops : List SysOp) (w w' : World)
    (hsafe : SafeRun simp ops World.init) (hrun : run simp ops World.init = some w) (i k : ℕ) (hik : i ≠ k)
    (hi : (w.objs i).prog.fns = [] ∧ ((w.objs i).diffed = false ∨ (w.objs i).method = .functionTree))
    (hk : (w.objs k).prog.fns = [] ∧ ((w.objs k).diffed = false ∨ (w.objs k).method = .functionTree))
    (h : step simp w (.swap i k) = some w') : MovesTo simp w i w' k ∧ MovesTo simp w k w' i := by
  have hg := run_good ops _ _ (good_init simp) hsafe hrun
  have hg' := step_good hg (op := .swap i k)
    ⟨by rintro ⟨h1, h2⟩; rcases hi.2 with h3 | h3 <;> simp [h1, h2] at h3,
     by rintro ⟨h1, h2⟩; rcases hk.2 with h3 | h3 <;> simp [h1, h2] at h3, fun _ => hk.1, fun _ => hi.1⟩ h
  simp only [step, Option.some.injEq] at h
  subst h
  exact ⟨movesTo_of (a := w.objs k) hg' rfl (by simp [World.set]),
    movesTo_of (a := w.objs i) hg' rfl (by simp [World.set, Function.update_of_ne hik])⟩

/-- The hypotheses are met: the system `x` of `build0`, not evaluated yet, is moved to object 1, where it
has the value 3 at 3. -/
example : ∃ w', step id w0 (.move 0 1) = some w' ∧
    ∃ out w'', evalAt id w' 1 [5] [3] = some (out, w'') ∧ out = [3] := by
  have hs : step id w0 (.move 0 1) =
      some ((w0.set 0 ((w0.objs 0).swapped (Obj.new .slp))).set 1 ((Obj.new .slp).swapped (w0.objs 0))) := by
    simp [step]
  obtain ⟨h, -⟩ := C146_move_partial id build0 w0 _ (by simp [build0, SafeRun, Safe]) (run0 id) 0 1
    (Or.inl (by simp [w0, World.set, o0, Obj.new])) hs
  obtain ⟨out, w'', h1, pv, h2, _, h3⟩ := (h [0] [3] (fun _ => 3) [5] evaluable0 rfl
    (by simp [PatchFits, w0, World.set, o0, Obj.new]) (by simp [w0, World.set, o0, Obj.new])
    (by simp [w0, World.set, o0, Obj.new, Obj.total])).1 rfl
  refine ⟨_, hs, out, w'', h1, ?_⟩
  rw [h2, h3 (by simp [w0, World.set, o0, Obj.new])]
  simp [World.roots, w0, World.set, o0, World.init, eval]

/-- The same system swapped with an empty one. -/
example : ∃ w', step id w0 (.swap 0 1) = some w' ∧ MovesTo id w0 0 w' 1 ∧ MovesTo id w0 1 w' 0 := by
  refine ⟨_, rfl, C146_swap_partial id build0 w0 _ (by simp [build0, SafeRun, Safe]) (run0 id) 0 1 (by simp)
    ⟨?_, Or.inl ?_⟩ ⟨?_, Or.inl ?_⟩ rfl⟩ <;> simp [w0, World.set, World.init, o0, Obj.new, Prog.empty]

/-- The state after moving object 0 (`x`, evaluated before) to object 1. -/
noncomputable def wMoved : World :=
  ((w0.set 0 o1).set 0 (o1.swapped (Obj.new .slp))).set 1 ((Obj.new .slp).swapped o1)

theorem moved_step : step id (w0.set 0 o1) (.move 0 1) = some wMoved := by
  simp [step, wMoved, World.set]

/-- **C146 refuted.** The system `x`, evaluated once and then moved, returns whatever was in the memory of
the result vector (7) instead of the value 1. -/
theorem C146_refuted : ¬ C146_full := by
  intro hall
  have hm := ((hall id (build0 ++ [.eval 0 [0] [1]]) (w0.set 0 o1) (by simp [build0, SafeRun, Safe]) run1
    0 1 (by simp)).1 wMoved moved_step).1
  have he : Evaluable (w0.set 0 o1) 0 [0] := by
    refine ⟨ord0, ?_, ?_⟩ <;>
      simp [o1, w0, World.set, World.init, o0, Obj.new, World.roots, Closed, Node.vars]
  obtain ⟨out, w', h1, pv, h2, _, h3⟩ := (hm [0] [1] (fun _ => 1) [7] he rfl
    (by simp [PatchFits, World.set, o1, o0, Obj.new]) (by simp [World.set, o1, o0, Obj.new])
    (by simp [World.set, o1, o0, Obj.new, Obj.total])).1 rfl
  have h4 : ∃ w'', evalAt id wMoved 1 [7] [1] = some ([7], w'') := by
    have : (wMoved.objs 1).vars = some [0] := ord0
    refine ⟨wMoved.set 1 { o1 with prog := { Prog.empty with mem := bind [] [1] fun _ => 0 } }, ?_⟩
    simp [evalAt, this, setVariables, ensureDiff]
    simp [wMoved, o1, Obj.swapped, w0, World.set, World.init, o0, Obj.new, evalStored, evalTrees,
      evalPatch, Obj.total, blit, bind, Prog.empty]
  obtain ⟨w'', h4⟩ := h4
  rw [h4] at h1
  simp only [Option.some.injEq, Prod.mk.injEq] at h1
  rw [← h1.1, h3 (by simp [World.set, o1, o0, Obj.new])] at h2
  simp [World.roots, World.set, o1, w0, o0, Obj.new, World.init, eval] at h2

end B2.Sys
