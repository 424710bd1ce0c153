import Verif.Start.PropsTotalDegree
import Verif.Tree.PropsForm

/-!
# C104: `System::IsHomogeneous`
-/

namespace B2.Start

open B2.Sys

/-- The blocks of variables in which a homogeneous system must be homogeneous, as a user thinks of them:
each affine group together with its homogenizing variable, each projective group, and the ungrouped
variables together. -/
inductive HomBlock (o : Obj) : List Var → Prop
  | affine {k : ℕ} {g : List Var} {h : Var} : o.vs.groups[k]? = some g → o.vs.homVars[k]? = some h → HomBlock o (h :: g)
  | projective {g : List Var} : g ∈ o.vs.homGroups → HomBlock o g
  | ungrouped : o.vs.ungrouped ≠ [] → HomBlock o o.vs.ungrouped

/-- Every affine group has its homogenizing variable, and every function is homogeneous, of some degree,
in every block. -/
def Multihomogeneous (w : World) (o : Obj) : Prop :=
  o.vs.homVars.length = o.vs.groups.length ∧
  ∀ f ∈ w.roots o, ∀ b, HomBlock o b → ∃ d : ℤ, IsHomogeneousFun b f d

/-- C104, full statement: for systems polynomial in their variables, `IsHomogeneous()` answers true exactly
if the system is homogeneous. -/
def C104_full : Prop :=
  ∀ (w : World) (o : Obj), (∀ f ∈ w.roots o, ∀ env, FrozenExponents w.vals env f) →
    (∀ f ∈ w.roots o, ∀ b, HomBlock o b → ∀ v ∈ b, 0 ≤ degV w.vals v f) →
    (systemIsHom w o ↔ Multihomogeneous w o)

theorem isHom_block {w : World} {o : Obj} (h : systemIsHom w o) {f : Node} (hf : f ∈ w.roots o)
    {b : List Var} (hb : HomBlock o b) : isHom w.vals b f := by
  obtain ⟨hn, h⟩ := h
  obtain ⟨h1, h2, h3⟩ := h f hf
  cases hb with
  | @affine k g x hg hx =>
    apply h1
    obtain ⟨hk, _⟩ := List.getElem?_eq_some_iff.mp hx
    rw [if_neg (by unfold Vars.numHomVars; omega)]
    apply List.mem_of_getElem? (i := k)
    simp [List.getElem?_zipWith, hg, hx]
  | projective hg => exact h2 b hg
  | ungrouped hu => exact h3 hu

theorem systemIsHom_of_blocks {w : World} {o : Obj} (hn : o.vs.homVars.length = o.vs.groups.length)
    (h : ∀ f ∈ w.roots o, ∀ b, HomBlock o b → isHom w.vals b f) : systemIsHom w o := by
  refine ⟨hn, fun f hf => ⟨fun g hg => ?_, fun g hg => h f hf g (.projective hg),
    fun hu => h f hf _ (.ungrouped hu)⟩⟩
  by_cases h0 : o.vs.numHomVars = 0
  · rw [if_pos h0] at hg
    have : o.vs.groups = [] := List.eq_nil_of_length_eq_zero (hn ▸ h0)
    simp [this] at hg
  · rw [if_neg h0] at hg
    obtain ⟨k, hk⟩ := List.mem_iff_getElem?.mp hg
    rw [List.getElem?_zipWith] at hk
    cases h1 : o.vs.groups[k]? with
    | none => simp [h1] at hk
    | some g' =>
      cases h2 : o.vs.homVars[k]? with
      | none => simp [h1, h2] at hk
      | some x =>
        simp [h1, h2] at hk
        subst hk
        exact h f hf _ (.affine h1 h2)

/-- **C104 (sound).** A positive answer is right when the rule for the group degree of negations and powers
is right for the operands occurring (`ExactUnary`, e.g. no powers of sums mixing variables of one block).
Missing: such powers, where the claim is false. -/
theorem C104_sound_partial (w : World) (o : Obj) (hf : ∀ f ∈ w.roots o, ∀ env, FrozenExponents w.vals env f)
    (hd : ∀ f ∈ w.roots o, ∀ b, HomBlock o b → ∀ v ∈ b, 0 ≤ degV w.vals v f)
    (he : ∀ f ∈ w.roots o, ∀ b, HomBlock o b → ExactUnary w.vals b f) (h : systemIsHom w o) :
    Multihomogeneous w o :=
  ⟨h.1, fun f hr b hb => ⟨_, C06_isHomogeneous_partial w.vals b f (hf f hr) (hd f hr b hb) (he f hr b hb)
    (isHom_block h hr hb)⟩⟩

/-- **C104 (complete).** The answer is positive for homogenized systems whose functions are written as forms
in every block: sums of terms of one degree. Missing: powers of sums mixing variables of one block, where
the claim is false, and functions that are homogeneous only after cancellation. -/
theorem C104_complete_partial (w : World) (o : Obj) (hn : o.vs.homVars.length = o.vs.groups.length)
    (hform : ∀ f ∈ w.roots o, ∀ b, HomBlock o b → ∃ d, Form b f d)
    (he : ∀ f ∈ w.roots o, ∀ b, HomBlock o b → ExactUnary w.vals b f) : systemIsHom w o :=
  systemIsHom_of_blocks hn fun f hf b hb =>
    let ⟨d, hd⟩ := hform f hf b hb
    (C87_recognised_partial w.vals b f d hd (he f hf b hb)).1

/-- **C104 (affine systems).** The answer is negative as long as one affine group has no homogenizing
variable, whatever the functions. -/
theorem C104_affine (w : World) (o : Obj) (h : o.vs.homVars.length ≠ o.vs.groups.length) :
    ¬ systemIsHom w o := fun hc => h hc.1

/-- **C104 (exactness).** The answer depends on the functions only through the answers of their own test on
the blocks. -/
theorem C104_exact (w : World) (o : Obj) : systemIsHom w o ↔
    o.vs.homVars.length = o.vs.groups.length ∧ ∀ f ∈ w.roots o, ∀ b, HomBlock o b → isHom w.vals b f :=
  ⟨fun h => ⟨h.1, fun _ hf _ hb => isHom_block h hf hb⟩, fun h => systemIsHom_of_blocks h.1 h.2⟩

/-- One projective group `x, y` and the given function. -/
noncomputable def projWorld (n : Node) : World :=
  ({ World.init with heap := fun _ => n, next := 1 }).set 0
    { Obj.new .slp with vs := Vars.empty.addHomGroup [0, 1], fns := [0] }

theorem projBlock {n : Node} {b : List Var} (h : HomBlock ((projWorld n).objs 0) b) : b = [0, 1] := by
  cases h with
  | affine h1 _ => simp [projWorld, World.set, Vars.addHomGroup, Vars.empty] at h1
  | projective h => simpa [projWorld, World.set, Vars.addHomGroup, Vars.empty] using h
  | ungrouped h => simp [projWorld, World.set, Vars.addHomGroup, Vars.empty] at h

/-- **The code violates C104**: the system with the one function `(x+y)^2 + x^4` of the projective group
`x, y` is reported homogeneous. -/
theorem C104_refuted : ¬ C104_full := by
  intro H
  let n : Node := .sum (.cons true (.ipow (.sum (.cons true (.var 0) (.cons true (.var 1) .nil))) 2)
      (.cons true (.ipow (.var 0) 4) .nil))
  have hr : (projWorld n).roots ((projWorld n).objs 0) = [n] := by
    simp [projWorld, World.set, World.roots]
  have h := H (projWorld n) ((projWorld n).objs 0)
    (by rw [hr]; simp [n, FrozenExponents, FrozenExponentsOps])
    (by
      rw [hr]
      intro f hf b hb
      rw [projBlock hb]
      simp only [List.mem_singleton] at hf
      subst hf
      simp [n, degV, degVSum])
  have h1 : systemIsHom (projWorld n) ((projWorld n).objs 0) := by
    refine systemIsHom_of_blocks rfl ?_
    rw [hr]
    intro f hf b hb
    rw [projBlock hb]
    simp only [List.mem_singleton] at hf
    subst hf
    simp [n, isHom, isHomOps, sumDegreesAgree, allDegreesEq, degG, degV, degVSum, foldUnary]
  obtain ⟨d, hd⟩ := (h.mp h1).2 n (by rw [hr]; simp) [0, 1]
    (.projective (by simp [projWorld, World.set, Vars.addHomGroup, Vars.empty]))
  have h2 := hd 2 (fun w => if w = 1 then 1 else 0) (by norm_num)
  have h3 := hd 2 (fun w => if w = 0 then 1 else 0) (by norm_num)
  simp [n, eval, evalSum, scale] at h2 h3
  norm_num at h2 h3
  rw [← h2] at h3
  norm_num at h3

/-- Homogenized `x*y - h^2` in one affine group `x, y` with homogenizing variable `h`. -/
noncomputable def affWorld : World :=
  ({ World.init with heap := fun _ => .sum (.cons true (.mult (.cons true (.var 0) (.cons true (.var 1) .nil)))
      (.cons false (.ipow (.var 2) 2) .nil)), next := 1 }).set 0
    { Obj.new .slp with vs := { Vars.empty.addGroup [0, 1] with homVars := [2] }, fns := [0] }

/-- Non-vacuity of both directions: `x*y - h^2`. -/
example : systemIsHom affWorld (affWorld.objs 0) ∧ Multihomogeneous affWorld (affWorld.objs 0) := by
  have hb : ∀ b, HomBlock (affWorld.objs 0) b → b = [2, 0, 1] := by
    intro b h
    cases h with
    | @affine k _ _ h1 h2 =>
      cases k with
      | zero =>
        simp [affWorld, World.set, Vars.addGroup, Vars.empty] at h1 h2
        simp [← h1, ← h2]
      | succ k => simp [affWorld, World.set, Vars.addGroup, Vars.empty] at h1
    | projective h => simp [affWorld, World.set, Vars.addGroup, Vars.empty, Obj.new] at h
    | ungrouped h => simp [affWorld, World.set, Vars.addGroup, Vars.empty, Obj.new] at h
  have hr : affWorld.roots (affWorld.objs 0) = [.sum (.cons true (.mult (.cons true (.var 0)
      (.cons true (.var 1) .nil))) (.cons false (.ipow (.var 2) 2) .nil))] := by
    simp [affWorld, World.set, World.roots]
  have h := C104_complete_partial affWorld (affWorld.objs 0) rfl
    (by
      rw [hr]
      intro f hf b h
      rw [hb b h]
      simp only [List.mem_singleton] at hf
      subst hf
      exact ⟨2, .sum (.mult (d := 1 + (1 + 0)) (.mul (.var (by simp)) (.mul (.var (by simp)) .nil)))
        (.cons (.ipow (d := 1) 2 (.var (by simp))) .nil)⟩)
    (by
      rw [hr]
      intro f hf b h
      rw [hb b h]
      simp only [List.mem_singleton] at hf
      subst hf
      simp [ExactUnary, ExactUnaryOps, degG, degV])
  refine ⟨h, C104_sound_partial _ _ ?_ ?_ ?_ h⟩
  all_goals rw [hr]; intro f hf; simp only [List.mem_singleton] at hf; subst hf
  · simp [FrozenExponents, FrozenExponentsOps]
  · intro b h
    rw [hb b h]
    simp [degV, degVSum, degVMult]
  · intro b h
    rw [hb b h]
    simp [ExactUnary, ExactUnaryOps, degG, degV]

end B2.Start
