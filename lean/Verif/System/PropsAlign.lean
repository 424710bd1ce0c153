import Verif.System.PropsVars

/-!
# Property C69: patches and variable groups line up

`AutoPatchFIFO` (`system.cpp:900-908`) makes `Patch(VariableGroupSizesFIFO())`. A patch reads its
point in consecutive blocks of these sizes (`patch.hpp:319-346`, modelled in `Verif.Patch.Basic`);
the point lists the coordinates in the order of `Variables()`.
-/

namespace B2.Sys

variable {α : Type}

/-- Cut the front of a list into consecutive blocks. -/
def cut : List ℕ → List α → List (List α)
  | [], _ => []
  | n :: ns, l => l.take n :: cut ns (l.drop n)

/-- The variables of each variable group (with its homogenizing variable), oldest group first. -/
def groupBlocks (bs : List (Block α)) : List (List α) := bs.filterMap fun
  | .ungrouped _ => none
  | b => some b.vars

/-- **C69, full statement.** Cutting the coordinates by the sizes the patch is built from gives each
group its own coordinates. -/
def C69_full : Prop :=
  ∀ (α : Type) (h : List (Op α)) (l : List α) (sizes : List ℕ),
    ((Vars.run h).variables).map Prod.fst = some l → (Vars.run h).groupSizes = some sizes →
    cut sizes l = groupBlocks (specRun h)

def isUngrouped : Block α → Bool
  | .ungrouped _ => true
  | _ => false

theorem cut_blocks : ∀ (bs : List (Block α)) (rest : List α), (∀ b ∈ bs, isUngrouped b = false) →
    cut (blockSizes bs) (bs.flatMap Block.vars ++ rest) = groupBlocks bs := by
  intro bs
  induction bs with
  | nil => intro _ _; rfl
  | cons b bs ih =>
    intro rest h
    have hb := h b (by simp)
    have hr := ih rest fun b' hb' => h b' (by simp [hb'])
    unfold blockSizes groupBlocks at hr ⊢
    cases b with
    | ungrouped v => simp [isUngrouped] at hb
    | affine hv vs => simpa [cut, List.append_assoc] using hr
    | homog vs => simpa [cut, List.append_assoc] using hr

theorem blocks_ungrouped : ∀ (us : List (Block α)), (∀ b ∈ us, isUngrouped b = true) →
    blockSizes us = [] ∧ groupBlocks us = [] := by
  intro us h
  unfold blockSizes groupBlocks
  simp only [List.filterMap_eq_nil_iff]
  constructor <;>
  · intro b hb
    have := h b hb
    cases b <;> simp_all [isUngrouped]

/-- **C69 (partial).** It holds when all ungrouped variables come after all groups; in particular when
there are none. Missing: an ungrouped variable added before a group, see `C69_refuted`. -/
theorem C69_partial (h : List (Op α)) (gs us : List (Block α)) (hs : specRun h = gs ++ us)
    (hg : ∀ b ∈ gs, isUngrouped b = false) (hu : ∀ b ∈ us, isUngrouped b = true)
    (l : List α) (sizes : List ℕ) (hl : ((Vars.run h).variables).map Prod.fst = some l)
    (hz : (Vars.run h).groupSizes = some sizes) : cut sizes l = groupBlocks (specRun h) := by
  have hc : Consistent (specRun h) := by
    by_contra hc
    rw [(C18_variables h).2 hc] at hl
    simp at hl
  have h1 := ((C18_variables h).1 hc).1
  rw [hl, Option.some.injEq] at h1
  have h2 := (C19_groupSizes h hc).1
  rw [hz, Option.some.injEq] at h2
  subst h1 h2
  rw [hs]
  have e1 : blockSizes (gs ++ us) = blockSizes gs := by
    have := (blocks_ungrouped us hu).1
    unfold blockSizes at this ⊢
    rw [List.filterMap_append, this, List.append_nil]
  have e2 : groupBlocks (gs ++ us) = groupBlocks gs := by
    have := (blocks_ungrouped us hu).2
    unfold groupBlocks at this ⊢
    rw [List.filterMap_append, this, List.append_nil]
  rw [e1, e2, List.flatMap_append]
  exact cut_blocks gs _ hg

/-- **C69 refuted**: an ungrouped variable added before a group. The patch meant for the group `2, 3`
constrains `1, 2`. -/
theorem C69_refuted : ¬ C69_full := by
  intro H
  have := H ℕ [.addUngrouped 1, .addHomGroup [2, 3]] [1, 2, 3] [2] rfl rfl
  simp [cut, groupBlocks, specRun, specStep, Block.vars] at this

/-- `C69_partial` applies to two groups of different sizes followed by an ungrouped variable. -/
example : cut [2, 3] [1, 2, 3, 4, 5, 6] =
    groupBlocks (specRun [.addHomGroup [1, 2], .addGroup [3, 4, 5], .addUngrouped 6]) :=
  C69_partial _ [.homog [1, 2], .affine none [3, 4, 5]] [.ungrouped 6] rfl (by simp [isUngrouped])
    (by simp [isUngrouped]) _ _ rfl rfl

end B2.Sys
