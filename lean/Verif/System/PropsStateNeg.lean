import Verif.System.PropsState

/-!
# Where C20, C21, C22 fail, with concrete histories
-/

namespace B2.Sys

open Classical

/-- Object 0: one group with the variable `0`, one function, the variable itself. -/
def o0 : Obj := { Obj.new .slp with vs := Vars.empty.addGroup [0], fns := [0] }

/-- The same after its first evaluation at `1`. -/
noncomputable def o1 : Obj :=
  { o0 with diffed := true, dx := [.int 1], cur := [1],
            prog := ⟨[0], none, [.var 0], [.int 1], [], bind [0] [1] fun _ => 0⟩ }

def w0 : World := ({ World.init with heap := Function.update (fun _ => .int 0) 0 (.var 0), next := 1 }).set 0 o0

def build0 : List SysOp := [.varOp 0 (·.addGroup [0]), .addFunction 0 (.var 0)]

theorem run0 (simp : Node → Node) : run simp build0 World.init = some w0 := by
  simp [run, build0, step, w0, World.set, World.init, o0, Obj.new]

theorem ord0 : (Vars.empty.addGroup [0] : Vars Var).ordering = some [0] := by rfl

theorem evaluable0 : Evaluable w0 0 [0] := by
  refine ⟨ord0, ?_, ?_⟩ <;> simp [w0, World.set, World.init, o0, Obj.new, World.roots, Closed, Node.vars]

theorem eval0 : evalAt id w0 0 [0] [1] = some ([1], w0.set 0 o1) := by
  have : (w0.objs 0).vars = some [0] := ord0
  simp [evalAt, this, setVariables, ensureDiff, differentiate]
  simp [w0, o1, World.set, World.init, o0, Obj.new, World.roots, Closed, Node.vars, evalStored,
    evalTrees, evalPatch, Obj.total, blit, eval, bind, spaceDerivs, diff]

/-- The hypotheses of `C20_partial` are met by a system with one function, evaluated before. -/
example : ∃ out w', evalAt id (w0.set 0 o1) 0 [5] [3] = some (out, w') ∧
    IsValue (w0.set 0 o1) 0 (fun _ => 3) [3] out := by
  refine (C20_partial id (build0 ++ [.eval 0 [0] [1]]) (w0.set 0 o1) ?_ ?_ 0 [0] [3] (fun _ => 3) [5]
    ?_ rfl ?_ ?_ ?_).1 rfl
  · simp [build0, SafeRun, Safe]
  · have h := run0 id
    simp only [run, build0, Option.bind_eq_some_iff] at h
    simp only [run, build0, List.cons_append, List.nil_append]
    obtain ⟨a, h1, b, h2, h3⟩ := h
    rw [h1, Option.bind_some, h2, Option.bind_some, Option.some.inj h3]
    simp [step, eval0]
  · refine ⟨ord0, ?_, ?_⟩ <;>
      simp [o1, w0, World.set, World.init, o0, Obj.new, World.roots, Closed, Node.vars]
  · simp [PatchFits, World.set, o1, o0, Obj.new]
  · simp [World.set, o1, o0, Obj.new]
  · simp [World.set, o1, o0, Obj.new, Obj.total]

theorem run_append (simp : Node → Node) : ∀ (a b : List SysOp) (w : World),
    run simp (a ++ b) w = (run simp a w).bind (run simp b) := by
  intro a
  induction a with
  | nil => intro b w; simp [run]
  | cons o a ih => intro b w; simp [run, ih, Option.bind_assoc]

theorem run1 : run id (build0 ++ [.eval 0 [0] [1]]) World.init = some (w0.set 0 o1) := by
  simp [run_append, run0, run, step, eval0]

/-- The state after scaling by 2. -/
noncomputable def w2 : World := timesAssign (w0.set 0 o1) 0 (.int 2)

theorem run2 : run id (build0 ++ [.eval 0 [0] [1], .timesAssign 0 (.int 2)]) World.init = some w2 := by
  simp [run_append, run0, run, step, eval0, w2]

theorem evaluable2 : Evaluable w2 0 [0] := by
  refine ⟨ord0, ?_, ?_⟩ <;>
    simp [w2, o1, timesAssign, timesRoots, w0, World.set, World.init, o0, Obj.new, World.roots, Closed,
      Node.vars, Ops.vars]

theorem roots2 : w2.roots (w2.objs 0) =
    [.mult (.cons true (.int 2) (.cons true (.var 0) .nil))] := by
  simp [w2, o1, timesAssign, timesRoots, w0, World.set, World.init, o0, Obj.new, World.roots]

/-- **C20 refuted.** Evaluate `x`, multiply the system by 2, evaluate again at 1: the straight-line
program of the unscaled system answers 1 where the value is 2. -/
theorem C20_refuted : ¬ C20_full := by
  intro h
  obtain ⟨out, w', h1, pv, h2, _, h3⟩ := (h id _ w2 run2 0 [0] [1] (fun _ => 1) [0] evaluable2 rfl
    (by simp [PatchFits, w2, timesAssign, World.set, o1, o0, Obj.new])
    (by simp [w2, timesAssign, World.set, o1, o0, Obj.new, Obj.total])).1 rfl
  have h4 : evalAt id w2 0 [0] [1] = some ([1], w2.set 0 o1) := by
    have : (w2.objs 0).vars = some [0] := ord0
    simp [evalAt, this, setVariables, ensureDiff]
    simp [w2, timesAssign, timesRoots, w0, o1, World.set, World.init, o0, Obj.new, World.roots,
      evalStored, evalTrees, evalPatch, Obj.total, blit, eval, bind]
  rw [h4] at h1
  simp only [Option.some.injEq, Prod.mk.injEq] at h1
  rw [← h1.1, h3 rfl, roots2] at h2
  simp [eval, evalMult] at h2

/-- The state after copying object 0 to object 1. -/
noncomputable def w3 : World := (w0.set 0 o1).set 1 o1.copy

/-- **C20 refuted (copies).** A copy of a system that was evaluated before returns whatever was in the
memory of the result vector (here 7) instead of the value 1: the copy believes it is differentiated but
has an empty straight-line program. -/
theorem C20_refuted_copy :
    run id (build0 ++ [.eval 0 [0] [1], .copy 0 1]) World.init = some w3 ∧ Evaluable w3 1 [0] ∧
    w3.roots (w3.objs 1) = [.var 0] ∧ (∃ w', evalAt id w3 1 [7] [1] = some ([7], w')) := by
  refine ⟨?_, ⟨ord0, ?_, ?_⟩, ?_, ?_⟩
  · simp only [run_append, run0, run, step, eval0, w3, Option.bind_some, Option.map_some]
    simp [World.set]
  · simp [w3, o1, Obj.copy, w0, World.set, World.init, o0, Obj.new, World.roots, Closed, Node.vars]
  · simp [w3, o1, Obj.copy, w0, World.set, World.init, o0, Obj.new]
  · simp [w3, o1, Obj.copy, w0, World.set, World.init, o0, Obj.new, World.roots]
  · have : (w3.objs 1).vars = some [0] := ord0
    refine ⟨w3.set 1 { o1.copy with prog := { Prog.empty with mem := bind [] [1] fun _ => 0 } }, ?_⟩
    simp [evalAt, this, setVariables, ensureDiff]
    simp [w3, o1, Obj.copy, w0, World.set, World.init, o0, Obj.new, evalStored, evalTrees,
      evalPatch, Obj.total, blit, bind, Prog.empty]

/-- The state after switching the evaluation method. -/
noncomputable def w4 : World := (w0.set 0 o1).set 0 { o1 with method := .functionTree }

/-- **C20 refuted (change of method).** After an evaluation by straight-line program and a switch to
function trees, evaluating at 2 still returns the value at 1. -/
theorem C20_refuted_method :
    run id (build0 ++ [.eval 0 [0] [1], .setMethod 0 .functionTree]) World.init = some w4 ∧
    Evaluable w4 0 [0] ∧ w4.roots (w4.objs 0) = [.var 0] ∧
    (∃ w', evalAt id w4 0 [7] [2] = some ([1], w')) := by
  refine ⟨?_, ⟨ord0, ?_, ?_⟩, ?_, ?_⟩
  · simp only [run_append, run0, run, step, eval0, w4, Option.bind_some, Option.map_some]
    simp [World.set]
  · simp [w4, o1, w0, World.set, World.init, o0, Obj.new, World.roots, Closed, Node.vars]
  · simp [w4, o1, w0, World.set, World.init, o0, Obj.new]
  · simp [w4, o1, w0, World.set, World.init, o0, Obj.new, World.roots]
  · have : (w4.objs 0).vars = some [0] := ord0
    refine ⟨({ w4 with vals := bind [0] [2] w4.vals } : World).set 0
      { o1 with method := .functionTree, cur := [2] }, ?_⟩
    simp [evalAt, this, setVariables, ensureDiff]
    simp [w4, o1, w0, World.set, World.init, o0, Obj.new, evalStored, evalTrees, World.roots,
      evalPatch, Obj.total, blit, bind, eval]

/-- The state after patching and then adding a variable group. -/
noncomputable def w5 : World :=
  w0.set 0 { o0 with vs := (Vars.empty.addGroup [0]).addGroup [1], patch := [[1]] }

/-- **C20 refuted (dropped patch).** Adding a variable group to a patched system drops the patch, but
the result of `Eval` keeps its length: one function, two entries, the last of them uninitialised. -/
theorem C20_refuted_unpatched :
    run id (build0 ++ [.patch 0 [[1]], .varOp 0 (·.addGroup [1])]) World.init = some w5 ∧
    Evaluable w5 0 [0, 1] ∧ (w5.objs 0).patched = false ∧ w5.roots (w5.objs 0) = [.var 0] ∧
    (evalAt id w5 0 [7, 7] [1, 1]).map Prod.fst = some [1, 7] := by
  have hv : (w5.objs 0).vars = some [0, 1] := by rfl
  refine ⟨?_, ⟨hv, ?_, ?_⟩, ?_, ?_, ?_⟩
  · rw [run_append, run0]
    simp [run, step, w5, World.set, w0, World.init, o0, Obj.new]
  · simp [w5, w0, World.set, World.init, o0, Obj.new, World.roots, Closed, Node.vars]
  · simp [w5, w0, World.set, World.init, o0, Obj.new]
  · simp [w5, World.set, o0, Obj.new]
  · simp [w5, w0, World.set, World.init, o0, Obj.new, World.roots]
  · simp only [evalAt, hv, setVariables, ensureDiff, differentiate, Option.bind_eq_bind,
      Option.bind_some]
    simp [w5, w0, World.set, World.init, o0, Obj.new, World.roots, Closed, Node.vars, evalStored,
      evalTrees, evalPatch, Obj.total, blit, eval, bind]

theorem hasDeriv_unique {f : Node} {v : Var} {env : Env} {a b : ℂ} (h1 : IsPartialDeriv f v env a)
    (h2 : IsPartialDeriv f v env b) : a = b := HasDerivAt.unique h1 h2

/-- **C22 refuted.** Evaluate `x`, multiply by 2, take the Jacobian: it is still that of `x`. -/
theorem C22_refuted : ¬ C22_full := by
  intro h
  have hdf : Differentiable w2 0 (fun _ => 1) [0] := by
    intro f hf
    rw [roots2, List.mem_singleton] at hf
    subst hf
    simp [Smooth, SmoothMult, ExpFree, ExpFreeOps]
  obtain ⟨J, w', h1, rows, pr, h2, h3, _, h4⟩ := (h id (fun _ _ => rfl) _ w2 run2 0 [0] [1]
    (fun _ => 1) [[0]] evaluable2 rfl hdf
    (by simp [w2, timesAssign, World.set, o1, o0, Obj.new])
    (by simp [Shaped, w2, timesAssign, World.set, o1, o0, Obj.new, Obj.total])).1 rfl
  have h5 : (jacAt id w2 0 [[0]] [1]).map Prod.fst = some [[1]] := by
    have hv : (w2.objs 0).vars = some [0] := ord0
    simp only [jacAt, hv, setVariables, ensureDiff, Option.bind_eq_bind, Option.bind_some]
    simp [w2, timesAssign, timesRoots, w0, o1, World.set, World.init, o0, Obj.new, jacStored,
      ensureDiff, jacValues, jacRows, jacPatch, Obj.total, blit2, blit, eval]
    simp [Obj.vars, ord0]
  rw [h1] at h5
  simp only [Option.map_some, Option.some.injEq] at h5
  rw [h5, h4 rfl, List.append_nil] at h2
  subst h2
  rw [roots2] at h3
  cases h3 with
  | cons h3 _ =>
    cases h3 with
    | cons h3 _ =>
      have h6 := diff_correct 0 (fun _ => 1) (.mult (.cons true (.int 2) (.cons true (.var 0) .nil)))
        (by simp [Smooth, SmoothMult]) (by simp [ExpFree, ExpFreeOps])
      have := hasDeriv_unique h3 h6
      simp [diff, diffMult, eval, evalSum, evalMult, Ops.append, Node.isFloatZero, Node.isFloatOne,
        sumOrZero, quotientTail] at this

/-- A system with two patched groups of one variable each. -/
noncomputable def w6 : World :=
  w0.set 0 { o0 with vs := (Vars.empty.addGroup [0]).addGroup [1], patch := [[1], [1]], patched := true }

theorem run6 : run id (build0 ++ [.varOp 0 (·.addGroup [1]), .patch 0 [[1], [1]]]) World.init =
    some w6 := by
  rw [run_append, run0]
  simp [run, step, w6, World.set, w0, World.init, o0, Obj.new]

/-- **C21 refuted.** For a system with two patched groups, the entry of the first patch row in the
column of the second group is whatever was in the memory of the result (7 here; it should be 0). -/
theorem C21_refuted : ¬ C21_full := by
  intro h
  have hv : (w6.objs 0).vars = some [0, 1] := by rfl
  have hroots : w6.roots (w6.objs 0) = [.var 0] := by
    simp [w6, w0, World.set, World.init, o0, Obj.new, World.roots]
  have he : Evaluable w6 0 [0, 1] := by
    refine ⟨hv, ?_, ?_⟩
    · rw [hroots]; simp [Closed, Node.vars]
    · simp [w6, World.set, o0]
  have hdf : Differentiable w6 0 (fun _ => 1) [0, 1] := by
    intro f hf
    rw [hroots, List.mem_singleton] at hf
    subst hf
    simp [Smooth, ExpFree]
  obtain ⟨J, w', h1, rows, pr, h2, h3, h4, _⟩ := h id (fun _ _ => rfl) _ w6
    (by simp [build0, SafeRun, Safe]) run6 0 [0, 1] [1, 1]
    (fun _ => 1) [[7, 7], [7, 7], [7, 7]] he rfl hdf
    (by simp [w6, World.set, Patch.numVariables])
    (by simp [w6, World.set])
    (by simp [Shaped, w6, World.set, o0, Obj.total]) rfl
  have h5 : (jacAt id w6 0 [[7, 7], [7, 7], [7, 7]] [1, 1]).map Prod.fst =
      some [[1, 0], [1, 7], [7, 1]] := by
    obtain ⟨w1, k1, kt, _, kr⟩ := ready_space (x := [1, 1]) (env := fun _ => 1)
      ((run_good _ _ _ (good_init id) (by simp [build0, SafeRun, Safe]) run6).sync 0) he rfl rfl
    obtain ⟨w2, k2⟩ := jacStored_ready (simp := id) (fun _ _ => rfl) (junk := [[7, 7], [7, 7], [7, 7]])
      kt.sync kt.diffed (kt.evaluable he) kr
      (by rw [kt.patched, kt.patch]; simp [w6, World.set, Patch.numVariables])
      (by rw [kt.patched, kt.patch]; simp [w6, World.set])
      (by unfold Shaped; rw [Obj.total, kt.fns, kt.patch]; simp [w6, World.set, o0])
    rw [kt.roots, kt.patched, kt.patch, kt.fns, hroots] at k2
    simp only [jacAt, hv, k1, k2, Option.bind_eq_bind, Option.bind_some]
    simp [w6, World.set, o0, Obj.new, diff, eval, Patch.overwrite]
  rw [h1] at h5
  simp only [Option.map_some, Option.some.injEq] at h5
  have hpr : pr = [[1, 0], [0, 1]] := by
    rw [h4 (by simp [w6, World.set])]
    simp [w6, World.set, Patch.blockRows]
  rw [h5, hpr, ] at h2
  rw [hroots] at h3
  cases h3 with
  | cons _ h3 =>
    cases h3
    simp at h2

/-- **C70, full statement.** -/
def C70_full : Prop :=
  ∀ (simp : Node → Node), (∀ e n, eval e (simp n) = eval e n) →
  ∀ (ops : List SysOp) (w : World), run simp ops World.init = some w →
    ∀ i vars x env junk p, Evaluable w i vars → Binds vars x env → Differentiable w i env [p] →
      ((w.objs i).patched = true → (w.objs i).patch.length =
        (w.objs i).vs.groups.length + (w.objs i).vs.homGroups.length) →
      ((w.objs i).patched = false → (w.objs i).patch = []) →
      junk.length = (w.objs i).total → (w.objs i).path = some p →
      ∃ ds w', timeAt simp w i junk x (env p) =
          some (ds ++ List.replicate (w.objs i).patch.length 0, w') ∧
        List.Forall₂ (fun f d => IsPartialDeriv f p env d) (w.roots (w.objs i)) ds

/-- A system with path variable 1 and the function `t` itself. -/
def o7 : Obj := { o0 with path := some 1 }

def w7 : World :=
  ({ World.init with heap := Function.update (fun _ => .int 0) 0 (.var 1), next := 1 }).set 0 o7

def build7 : List SysOp := [.varOp 0 (·.addGroup [0]), .addFunction 0 (.var 1), .addPath 0 1]

theorem run7 (simp : Node → Node) : run simp build7 World.init = some w7 := by
  simp [run, build7, step, w7, World.set, World.init, o7, o0, Obj.new]

/-- The same after its first evaluation at `x = 0`, `t = 0`. -/
noncomputable def o8 : Obj :=
  { o7 with diffed := true, dx := [.int 0], dt := [.int 1], cur := [0],
            prog := ⟨[0], some 1, [.var 1], [.int 0], [.int 1], fun _ => 0⟩ }

theorem eval7 : evalAtTime id w7 0 [0] [0] 0 = some ([0], w7.set 0 o8) := by
  have : (w7.objs 0).vars = some [0] := ord0
  simp [evalAtTime, this, setVariables, ensureDiff, differentiate, setPath]
  simp [w7, o8, o7, World.set, World.init, o0, Obj.new, World.roots, Closed, Node.vars, evalStored,
    evalTrees, evalPatch, Obj.total, blit, eval, bind, spaceDerivs, diff]

noncomputable def w9 : World := timesAssign (w7.set 0 o8) 0 (.int 2)

theorem run9 : run id (build7 ++ [.evalTime 0 [0] [0] 0, .timesAssign 0 (.int 2)]) World.init =
    some w9 := by
  rw [run_append, run7]
  simp [run, step, eval7, w9]

theorem roots9 : w9.roots (w9.objs 0) =
    [.mult (.cons true (.int 2) (.cons true (.var 1) .nil))] := by
  simp [w9, o8, o7, timesAssign, timesRoots, w7, World.set, World.init, o0, Obj.new, World.roots]

/-- **C70 refuted** by scaling after an evaluation. -/
theorem C70_refuted : ¬ C70_full := by
  intro h
  have he : Evaluable w9 0 [0] := by
    refine ⟨ord0, ?_, ?_⟩
    · rw [roots9]
      simp [w9, timesAssign, World.set, o8, o7, Closed, Node.vars, Ops.vars]
    · simp [w9, timesAssign, World.set, o8, o7, o0]
  obtain ⟨ds, w', j1, j2⟩ := h id (fun _ _ => rfl) _ _ run9 0 [0] [0] (fun _ => 0) [0] 1 he rfl
    (by intro f hf; rw [roots9, List.mem_singleton] at hf; subst hf
        simp [Smooth, SmoothMult, ExpFree, ExpFreeOps])
    (by simp [w9, timesAssign, World.set, o8, o7, o0, Obj.new])
    (by simp [w9, timesAssign, World.set, o8, o7, o0, Obj.new])
    (by simp [w9, timesAssign, World.set, o8, o7, o0, Obj.new, Obj.total])
    rfl
  have j3 : (timeAt id w9 0 [0] [0] 0).map Prod.fst = some [1] := by
    have hv : (w9.objs 0).vars = some [0] := ord0
    simp only [timeAt, hv, setVariables, ensureDiff, Option.bind_eq_bind, Option.bind_some]
    simp [w9, timesAssign, timesRoots, w7, o8, o7, World.set, World.init, o0, Obj.new, setPath,
      timeStored, ensureDiff, timeValues, timeRows, timePatch, blit, eval]
  rw [j1] at j3
  simp [w9, timesAssign, World.set, o8, o7, o0, Obj.new] at j3
  subst j3
  rw [roots9] at j2
  cases j2 with
  | cons j2 _ =>
    have h6 := diff_correct 1 (fun _ => 0) (.mult (.cons true (.int 2) (.cons true (.var 1) .nil)))
      (by simp [Smooth, SmoothMult]) (by simp [ExpFree, ExpFreeOps])
    have := hasDeriv_unique j2 h6
    simp [diff, diffMult, eval, evalSum, evalMult, Ops.append, Node.isFloatZero, Node.isFloatOne,
      sumOrZero, quotientTail] at this

/-- The hypotheses of `C22_partial` and `C70_partial` hold for that system before it is scaled. -/
example : ∃ ds w', timeAt id (w7.set 0 o8) 0 [5] [3] 4 = some (ds ++ [], w') ∧
    List.Forall₂ (fun f d => IsPartialDeriv f 1 (fun v => if v = 0 then 3 else 4) d) [.var 1] ds := by
  have hroots : (w7.set 0 o8).roots ((w7.set 0 o8).objs 0) = [.var 1] := by
    simp [World.set, o8, o7, o0, w7, World.roots]
  have := C70_partial id (fun _ _ => rfl) (build7 ++ [.evalTime 0 [0] [0] 0]) (w7.set 0 o8)
    (by simp [build7, SafeRun, Safe]) (by rw [run_append, run7]; simp [run, step, eval7])
    0 [0] [3] (fun v => if v = 0 then 3 else 4) [5] 1
    ⟨ord0, by rw [hroots]; simp [World.set, o8, o7, Closed, Node.vars], by simp [World.set, o8, o7, o0]⟩
    rfl (by intro f hf; rw [hroots, List.mem_singleton] at hf; subst hf; simp [Smooth, ExpFree])
    (by simp [World.set, o8, o7, o0, Obj.new]) (by simp [World.set, o8, o7, o0, Obj.new])
    (by simp [World.set, o8, o7, o0, Obj.new, Obj.total]) rfl
  rw [hroots] at this
  simpa [World.set, o8, o7, o0, Obj.new] using this

end B2.Sys
