import Verif.System.VarsProof
import Mathlib.Data.Rat.Defs
import Mathlib.Data.List.Nodup
import Mathlib.Data.Rat.Defs
import Mathlib.Tactic.NormNum.Inv
import Mathlib.Algebra.Field.Rat

/-!
# C18, C19, C25: variable ordering, group sizes, dehomogenization

`specRun h` is the list of blocks the user added in the history `h`, in order, each affine group
with its homogenizing variable once homogenized.
-/

namespace B2.Sys

set_option linter.unusedSectionVars false
set_option linter.unusedSimpArgs false

variable {α : Type}

/-! ### C18 -/

/-- The variables the user added. -/
def added (h : List (Op α)) : List α := h.flatMap fun
  | .addGroup vs | .addHomGroup vs | .addUngroupeds vs => vs
  | .addUngrouped v => [v]
  | .homogenize _ | .query => []

/-- C18: after any history of additions, homogenizations and queries, `Variables()` returns the
blocks one after the other in the order they were added, each affine block preceded by its
homogenizing variable if homogenized; there are `NumVariables()` of them. It throws exactly when
some but not all affine groups have a homogenizing variable (a group was added after
homogenizing). -/
theorem C18_variables (h : List (Op α)) :
    (Consistent (specRun h) → ((Vars.run h).variables).map Prod.fst =
        some ((specRun h).flatMap Block.vars) ∧
      ((specRun h).flatMap Block.vars).length = (Vars.run h).numVariables) ∧
    (¬ Consistent (specRun h) → (Vars.run h).variables = none) := by
  have hr := rep_run h
  constructor
  · intro hc
    refine ⟨?_, hr.toRep.numVariables.symm⟩
    have ho := hr.toRep.ordering hc
    rw [Vars.variables]
    cases hl : (Vars.run h).cache with
    | some l =>
      have := hr.cache l hl
      rw [ho, Option.some.injEq] at this
      simp [this]
    | none => simp [ho]
  · intro hc
    have ho := hr.toRep.ordering_none hc
    rw [Vars.variables]
    cases hl : (Vars.run h).cache with
    | some l =>
      have := hr.cache l hl
      rw [ho] at this
      simp at this
    | none => simp [ho]

theorem vars_perm (bs : List (Block α)) : (bs.flatMap Block.vars).Perm
    (hvs bs ++ (bs.flatMap fun
      | .affine _ vs | .homog vs => vs
      | .ungrouped v => [v])) := by
  induction bs with
  | nil => simp [hvs]
  | cons b bs ih =>
    simp only [List.flatMap_cons]
    cases b with
    | affine h vs =>
      cases h with
      | none =>
        simp only [Block.vars, Option.toList_none, List.nil_append, hvs]
        refine (ih.append_left vs).trans ?_
        rw [← List.append_assoc, ← List.append_assoc]
        exact List.perm_append_comm.append_right _
      | some w =>
        simp only [Block.vars, Option.toList_some, List.singleton_append, hvs, List.cons_append]
        refine List.Perm.cons w ((ih.append_left vs).trans ?_)
        rw [← List.append_assoc, ← List.append_assoc]
        exact List.perm_append_comm.append_right _
    | homog vs =>
      simp only [Block.vars, hvs]
      refine (ih.append_left vs).trans ?_
      rw [← List.append_assoc, ← List.append_assoc]
      exact List.perm_append_comm.append_right _
    | ungrouped v =>
      simp only [Block.vars, hvs]
      refine (ih.append_left [v]).trans ?_
      rw [← List.append_assoc, ← List.append_assoc]
      exact List.perm_append_comm.append_right _

theorem natural_added (h : List (Op α)) : ((specRun h).flatMap fun
      | .affine _ vs | .homog vs => vs
      | .ungrouped v => [v]) = added h := by
  have key : ∀ (h : List (Op α)) (bs : List (Block α)), ((h.foldl specStep bs).flatMap fun
      | .affine _ vs | .homog vs => vs
      | .ungrouped v => [v]) = (bs.flatMap fun
      | .affine _ vs | .homog vs => vs
      | .ungrouped v => [v]) ++ added h := by
    intro h
    induction h with
    | nil => intro bs; simp [added]
    | cons o h ih =>
      intro bs
      rw [List.foldl_cons, ih]
      have hassign : ∀ (fresh : ℕ → α) (bs : List (Block α)) k,
          ((assign fresh k bs).flatMap fun
            | .affine _ vs | .homog vs => vs
            | .ungrouped v => [v]) = bs.flatMap fun
            | .affine _ vs | .homog vs => vs
            | .ungrouped v => [v] := by
        intro fresh bs
        induction bs with
        | nil => intro k; rfl
        | cons b bs ih => intro k; cases b <;> simp [assign, ih]
      cases o with
      | homogenize fresh =>
        simp only [specStep]
        split_ifs <;> simp [added, hassign]
      | addUngroupeds vs => simp [specStep, added, List.flatMap_map]
      | _ => simp [specStep, added]
  have := key h []
  simpa [specRun] using this

theorem hvs_fresh (h : List (Op α)) : hvs (specRun h) = [] ∨
    ∃ fresh n, Op.homogenize fresh ∈ h ∧ hvs (specRun h) = (List.range n).map fresh := by
  have key : ∀ (h : List (Op α)) (bs : List (Block α)) (P : (ℕ → α) → Prop),
      (hvs bs = [] ∨ ∃ fresh n, P fresh ∧ hvs bs = (List.range n).map fresh) →
      (∀ fresh, Op.homogenize fresh ∈ h → P fresh) →
      hvs (h.foldl specStep bs) = [] ∨
        ∃ fresh n, P fresh ∧ hvs (h.foldl specStep bs) = (List.range n).map fresh := by
    intro h
    induction h with
    | nil => intro bs P h1 _; exact h1
    | cons o h ih =>
      intro bs P h1 h2
      rw [List.foldl_cons]
      refine ih _ P ?_ (fun fresh hf => h2 fresh (by simp [hf]))
      cases o with
      | homogenize fresh =>
        simp only [specStep]
        split_ifs with ha
        · exact h1
        · right
          refine ⟨fresh, (affs bs).length, h2 fresh (by simp), ?_⟩
          rw [(assign_proj fresh bs 0).2.2.2.2, List.range_eq_range']
      | addUngroupeds vs => simpa [specStep, hvs_append, (ung_map vs).2.2.2.1] using h1
      | _ => simpa [specStep, hvs_append, hvs] using h1
  exact key h [] (fun fresh => Op.homogenize fresh ∈ h) (.inl rfl) (fun _ h => h)

/-- C18, "exactly once": if the variables added are distinct and the homogenizing variables are new,
the list returned by `Variables()` has no repetition and contains every added variable. -/
theorem C18_each_once (h : List (Op α)) (hnd : (added h).Nodup)
    (hf : ∀ fresh, Op.homogenize fresh ∈ h → Function.Injective fresh ∧ ∀ k, fresh k ∉ added h)
    (l : List α) (hl : ((Vars.run h).variables).map Prod.fst = some l) :
    l.Nodup ∧ ∀ v ∈ added h, v ∈ l := by
  have hc : Consistent (specRun h) := by
    by_contra hc
    rw [(C18_variables h).2 hc] at hl
    simp at hl
  rw [((C18_variables h).1 hc).1, Option.some.injEq] at hl
  subst hl
  have hp := vars_perm (specRun h)
  rw [natural_added] at hp
  constructor
  · rw [hp.nodup_iff]
    rcases hvs_fresh h with he | ⟨fresh, n, hm, he⟩
    · rw [he]; exact hnd
    · rw [he, List.nodup_append]
      refine ⟨List.Nodup.map (hf fresh hm).1 List.nodup_range, hnd, ?_⟩
      intro a ha b hb e
      subst e
      obtain ⟨k, -, rfl⟩ := List.mem_map.1 ha
      exact (hf fresh hm).2 k hb
  · intro v hv
    exact hp.mem_iff.2 (List.mem_append_right _ hv)

/-- Non-vacuity: two affine groups, an ungrouped variable and a homogeneous group, homogenized. -/
example : ((Vars.run [.addGroup [1, 2], .addUngrouped 3, .query, .addHomGroup [4, 5],
    .addGroup [6], .homogenize (· + 100), .query]).variables).map Prod.fst =
      some [100, 1, 2, 3, 4, 5, 101, 6] := by
  have h := (C18_variables [.addGroup [1, 2], .addUngrouped 3, .query, .addHomGroup [4, 5],
    .addGroup [6], .homogenize (· + 100), .query]).1 (by
      rw [consistent_iff]
      simp [specRun, specStep, assign, Block.isHomogenized, hvs, affs])
  rw [h.1]
  rfl

/-! ### C19 -/

/-- The sizes of the group blocks. -/
def blockSizes (bs : List (Block α)) : List ℕ := bs.filterMap fun
  | .ungrouped _ => none
  | b => some b.vars.length

/-- The number of ungrouped variables. -/
def ungroupedCount (bs : List (Block α)) : ℕ := bs.countP fun
  | .ungrouped _ => true
  | _ => false

theorem sizesLoop_spec (s : Vars α) (hom : Bool) (bs : List (Block α)) : ∀ (a g : ℕ),
    s.groups.drop a = affs bs → s.homGroups.drop g = homs bs →
    (hom = true → ∀ h vs, Block.affine h vs ∈ bs → h ≠ none) →
    (hom = false → ∀ h vs, Block.affine h vs ∈ bs → h = none) →
    s.sizesLoop hom (kinds bs) a g = some (blockSizes bs) := by
  have hd : ∀ {β : Type} (l : List β) (n : ℕ) (x : β) (r : List β), l.drop n = x :: r →
      l[n]? = some x ∧ l.drop (n + 1) = r := by
    intro β l n x r h
    constructor
    · have := congrArg (fun l => l[0]?) h
      simpa using this
    · rw [← List.drop_drop, h]; rfl
  induction bs with
  | nil => intros; rfl
  | cons b bs ih =>
    intro a g h1 h3 h4 h5
    have h4' : hom = true → ∀ h vs, Block.affine h vs ∈ bs → h ≠ none :=
      fun h _ _ hm => h4 h _ _ (List.mem_cons_of_mem _ hm)
    have h5' : hom = false → ∀ h vs, Block.affine h vs ∈ bs → h = none :=
      fun h _ _ hm => h5 h _ _ (List.mem_cons_of_mem _ hm)
    cases b with
    | ungrouped v =>
      simp only [affs, homs] at h1 h3
      simp only [kinds, Vars.sizesLoop, ih _ _ h1 h3 h4' h5']
      simp [blockSizes]
    | homog vs =>
      simp only [affs, homs] at h1 h3
      obtain ⟨e1, e2⟩ := hd _ _ _ _ h3
      simp only [kinds, Vars.sizesLoop, e1, Option.bind_eq_bind, Option.bind_some,
        ih _ _ h1 e2 h4' h5']
      simp [blockSizes, Block.vars]
    | affine h vs =>
      simp only [affs, homs] at h1 h3
      obtain ⟨e1, e2⟩ := hd _ _ _ _ h1
      simp only [kinds, Vars.sizesLoop, e1, Option.bind_eq_bind, Option.bind_some,
        ih _ _ e2 h3 h4' h5']
      cases hom with
      | false =>
        have := h5 rfl h vs (by simp)
        subst this
        simp [blockSizes, Block.vars]
      | true =>
        obtain ⟨w, rfl⟩ := Option.ne_none_iff_exists'.1 (h4 rfl h vs (by simp))
        simp [blockSizes, Block.vars]

/-- C19: `VariableGroupSizes()` lists the sizes of the group blocks in `Variables()`, in order of
addition, and they sum to `NumVariables()` minus the number of ungrouped variables. -/
theorem C19_groupSizes (h : List (Op α)) (hc : Consistent (specRun h)) :
    (Vars.run h).groupSizes = some (blockSizes (specRun h)) ∧
    (blockSizes (specRun h)).sum + ungroupedCount (specRun h) = (Vars.run h).numVariables := by
  have hr := (rep_run h).toRep
  have hc' := (consistent_iff _).1 hc
  constructor
  · simp only [Vars.groupSizes, Vars.numHomVars, hr.homVars, hr.groups]
    rw [if_neg (by simpa using hc'), hr.order]
    refine sizesLoop_spec _ _ _ 0 0 (by simp [hr.groups]) (by simp [hr.homGroups]) ?_ ?_
    · intro hd
      rw [← hvs_length_eq_iff]
      have := of_decide_eq_true hd
      omega
    · intro hd
      rw [← hvs_nil_iff]
      have := of_decide_eq_false hd
      exact List.eq_nil_of_length_eq_zero (by omega)
  · rw [hr.numVariables]
    generalize specRun h = bs
    induction bs with
    | nil => rfl
    | cons b bs ih =>
      rw [List.flatMap_cons, List.length_append, ← ih]
      cases b <;> simp [blockSizes, ungroupedCount, Block.vars] <;> omega

/-- Non-vacuity: sizes of an affine group of two (homogenized: three), and a homogeneous group. -/
example : (Vars.run [.addGroup [1, 2], .addUngrouped 3, .addHomGroup [4, 5],
    .homogenize (· + 100)]).groupSizes = some [3, 2] := by
  rw [(C19_groupSizes _ (by
    rw [consistent_iff]; simp [specRun, specStep, assign, Block.isHomogenized, hvs, affs])).1]
  rfl

/-! ### Clearing -/

/-- Not part of a history above: `ClearVariables()` forgets the variables but not the order in which
they were added, so a system that is cleared and filled again reads past the end of its groups
when asked for its variables (here: one affine group, cleared, another one). -/
theorem C68_clear_refuted : ¬ ∀ (s : Vars ℕ) (vs : List ℕ),
    ((s.clear).addGroup vs).ordering = some vs := by
  intro H
  have := H (Vars.run [.addGroup [1]]) [2]
  simp [Vars.run, Vars.step, Vars.addGroup, Vars.empty, Vars.clear, Vars.ordering,
    Vars.orderingLoop, Vars.numHomVars] at this

/-- After `ClearVariables()`, `NumNaturalVariables()` counts exactly the variables added since. -/
theorem C68_count (s : Vars α) (h : List (Op α)) :
    (h.foldl Vars.step s.clear).numNatural = (added h).length := by
  have key : ∀ (h : List (Op α)) (s : Vars α),
      (h.foldl Vars.step s).numNatural = s.numNatural + (added h).length := by
    intro h
    induction h with
    | nil => intro s; simp [added]
    | cons o h ih =>
      intro s
      rw [List.foldl_cons, ih]
      cases o with
      | homogenize fresh =>
        simp only [Vars.step, Vars.homogenize]
        split_ifs <;> simp [added, Vars.numNatural]
      | query =>
        simp only [Vars.step, Vars.variables]
        cases s.cache with
        | some l => simp [added]
        | none => cases s.ordering <;> simp [added, Vars.numNatural]
      | _ =>
        simp [Vars.step, Vars.addGroup, Vars.addHomGroup, Vars.addUngrouped, Vars.addUngroupeds,
          Vars.numNatural, added]
        try omega
  rw [key]
  simp [Vars.clear, Vars.numNatural]

/-- After `ClearVariables()` the homogenizing variables are gone as well. -/
theorem C68_homVars (s : Vars α) : s.clear.numHomVars = 0 ∧ s.clear.numVariables = 0 := by
  simp [Vars.clear, Vars.numHomVars, Vars.numVariables, Vars.numNatural]

/-- `Variables()` called before `ClearVariables()` makes it return the old list after it. -/
theorem C68_stale (s : Vars α) (l : List α) (h : s.cache = some l) :
    (s.clear.variables).map Prod.fst = some l := by
  simp [Vars.variables, Vars.clear, h]

theorem orderingLoop_counts (s : Vars α) (hv : Bool) : ∀ (ks : List Kind) (a u g : ℕ) (acc l : List α),
    s.orderingLoop hv ks a u g acc = some l →
    (Kind.affine ∈ ks → a + ks.count .affine ≤ s.groups.length) ∧
    (Kind.homogeneous ∈ ks → g + ks.count .homogeneous ≤ s.homGroups.length) ∧
    (Kind.ungrouped ∈ ks → u + ks.count .ungrouped ≤ s.ungrouped.length) := by
  intro ks
  induction ks with
  | nil => intro a u g acc l _; simp
  | cons k ks ih =>
    intro a u g acc l h
    cases k with
    | affine =>
      obtain ⟨acc', gp, h2, h3⟩ : ∃ acc' gp, s.groups[a]? = some gp ∧
          s.orderingLoop hv ks (a + 1) u g acc' = some l := by
        cases hv with
        | true =>
          simp only [Vars.orderingLoop, if_true, Option.bind_eq_bind, Option.bind_eq_some_iff] at h
          obtain ⟨_, -, gp, h2, h3⟩ := h
          exact ⟨_, gp, h2, h3⟩
        | false =>
          simp only [Vars.orderingLoop, Bool.false_eq_true, if_false, Option.bind_eq_bind,
            Option.bind_eq_some_iff] at h
          obtain ⟨_, -, gp, h2, h3⟩ := h
          exact ⟨_, gp, h2, h3⟩
      have hlt := (List.getElem?_eq_some_iff.1 h2).1
      obtain ⟨i1, i2, i3⟩ := ih _ _ _ _ _ h3
      refine ⟨fun _ => ?_, fun hm => ?_, fun hm => ?_⟩
      · rw [List.count_cons_self]
        by_cases hm : Kind.affine ∈ ks
        · have := i1 hm; omega
        · rw [List.count_eq_zero_of_not_mem hm]; omega
      · rw [List.count_cons_of_ne (by decide)]; exact i2 (by simpa using hm)
      · rw [List.count_cons_of_ne (by decide)]; exact i3 (by simpa using hm)
    | homogeneous =>
      simp only [Vars.orderingLoop, Option.bind_eq_bind, Option.bind_eq_some_iff] at h
      obtain ⟨gp, h2, h3⟩ := h
      have hlt := (List.getElem?_eq_some_iff.1 h2).1
      obtain ⟨i1, i2, i3⟩ := ih _ _ _ _ _ h3
      refine ⟨fun hm => ?_, fun _ => ?_, fun hm => ?_⟩
      · rw [List.count_cons_of_ne (by decide)]; exact i1 (by simpa using hm)
      · rw [List.count_cons_self]
        by_cases hm : Kind.homogeneous ∈ ks
        · have := i2 hm; omega
        · rw [List.count_eq_zero_of_not_mem hm]; omega
      · rw [List.count_cons_of_ne (by decide)]; exact i3 (by simpa using hm)
    | ungrouped =>
      simp only [Vars.orderingLoop, Option.bind_eq_bind, Option.bind_eq_some_iff] at h
      obtain ⟨gp, h2, h3⟩ := h
      have hlt := (List.getElem?_eq_some_iff.1 h2).1
      obtain ⟨i1, i2, i3⟩ := ih _ _ _ _ _ h3
      refine ⟨fun hm => ?_, fun hm => ?_, fun _ => ?_⟩
      · rw [List.count_cons_of_ne (by decide)]; exact i1 (by simpa using hm)
      · rw [List.count_cons_of_ne (by decide)]; exact i2 (by simpa using hm)
      · rw [List.count_cons_self]
        by_cases hm : Kind.ungrouped ∈ ks
        · have := i3 hm; omega
        · rw [List.count_eq_zero_of_not_mem hm]; omega

/-- A call that adds something. -/
def Op.isAdd : Op α → Bool
  | .addGroup _ | .addHomGroup _ | .addUngrouped _ => true
  | .addUngroupeds _ | .homogenize _ | .query => false

/-- The exact extent of the defect: once anything was added, a system that is cleared and to which a group
or a variable is added again never lists its variables: `Variables()` throws or reads out of range after
every later history. -/
theorem C68_never (h₁ h₂ : List (Op α)) (hne : specRun h₁ ≠ []) (ha : ∃ o ∈ h₂, o.isAdd = true) :
    (h₂.foldl Vars.step (Vars.run h₁).clear).variables = none := by
  have hr := (rep_run h₁).toRep
  -- more kinds are recorded than there are groups and variables
  let Bad : Vars α → Prop := fun s =>
    s.groups.length < s.order.count .affine ∨ s.homGroups.length < s.order.count .homogeneous ∨
      s.ungrouped.length < s.order.count .ungrouped
  have hord : ∀ s, Bad s → s.ordering = none := by
    intro s hb
    by_contra hc
    obtain ⟨l, hl⟩ := Option.ne_none_iff_exists'.1 hc
    simp only [Vars.ordering] at hl
    split_ifs at hl
    simp only [Option.bind_eq_bind, Option.bind_eq_some_iff] at hl
    obtain ⟨l', hl', -⟩ := hl
    obtain ⟨i1, i2, i3⟩ := orderingLoop_counts s _ _ _ _ _ _ _ hl'
    rcases hb with hb | hb | hb
    · have := i1 (List.count_pos_iff.1 (by omega)); omega
    · have := i2 (List.count_pos_iff.1 (by omega)); omega
    · have := i3 (List.count_pos_iff.1 (by omega)); omega
  have hstep : ∀ s o, Bad s → Bad (Vars.step s o) := by
    intro s o hb
    cases o with
    | addGroup vs =>
      simp only [Bad, Vars.step, Vars.addGroup, List.length_append, List.count_append,
        List.length_singleton, List.count_singleton_self] at hb ⊢
      rw [List.count_eq_zero_of_not_mem (l := [Kind.affine]) (a := .homogeneous) (by simp),
        List.count_eq_zero_of_not_mem (l := [Kind.affine]) (a := .ungrouped) (by simp)]
      omega
    | addHomGroup vs =>
      simp only [Bad, Vars.step, Vars.addHomGroup, List.length_append, List.count_append,
        List.length_singleton, List.count_singleton_self] at hb ⊢
      rw [List.count_eq_zero_of_not_mem (l := [Kind.homogeneous]) (a := .affine) (by simp),
        List.count_eq_zero_of_not_mem (l := [Kind.homogeneous]) (a := .ungrouped) (by simp)]
      omega
    | addUngrouped v =>
      simp only [Bad, Vars.step, Vars.addUngrouped, List.length_append, List.count_append,
        List.length_singleton, List.count_singleton_self] at hb ⊢
      rw [List.count_eq_zero_of_not_mem (l := [Kind.ungrouped]) (a := .affine) (by simp),
        List.count_eq_zero_of_not_mem (l := [Kind.ungrouped]) (a := .homogeneous) (by simp)]
      omega
    | addUngroupeds vs =>
      simp only [Bad, Vars.step, Vars.addUngroupeds, List.length_append, List.count_append,
        List.map_const', List.count_replicate] at hb ⊢
      simp
      omega
    | homogenize fresh =>
      simp only [Vars.step, Vars.homogenize]
      split_ifs <;> exact hb
    | query =>
      simp only [Vars.step, Vars.variables]
      cases s.cache with
      | some l => exact hb
      | none => rw [hord s hb]; exact hb
  have hcache : ∀ s o, Bad s → (s.cache = none ∨ o.isAdd = true) → (Vars.step s o).cache = none := by
    intro s o hb hc
    cases o with
    | homogenize fresh =>
      simp only [Vars.step, Vars.homogenize]
      rcases hc with hc | hc
      · split_ifs <;> simp [hc]
      · simp [Op.isAdd] at hc
    | query =>
      rcases hc with hc | hc
      · simp only [Vars.step, Vars.variables, hc, hord s hb]; simp [hc]
      · simp [Op.isAdd] at hc
    | _ => simp [Vars.step, Vars.addGroup, Vars.addHomGroup, Vars.addUngrouped, Vars.addUngroupeds]
  have hmain : ∀ (h : List (Op α)) (s : Vars α), Bad s → (s.cache = none ∨ ∃ o ∈ h, o.isAdd = true) →
      Bad (h.foldl Vars.step s) ∧ (h.foldl Vars.step s).cache = none := by
    intro h
    induction h with
    | nil => intro s hb hc; exact ⟨hb, by simpa using hc⟩
    | cons o h ih =>
      intro s hb hc
      rw [List.foldl_cons]
      refine ih _ (hstep s o hb) ?_
      rcases hc with hc | ⟨o', ho', hc⟩
      · exact .inl (hcache s o hb (.inl hc))
      · rcases List.mem_cons.1 ho' with rfl | ho'
        · exact .inl (hcache s _ hb (.inr hc))
        · exact .inr ⟨o', ho', hc⟩
  have hb0 : Bad (Vars.run h₁).clear := by
    simp only [Bad, Vars.clear, List.length_nil, hr.order]
    cases hs : specRun h₁ with
    | nil => exact absurd hs hne
    | cons b bs => cases b <;> simp [kinds]
  obtain ⟨k1, k2⟩ := hmain h₂ _ hb0 (.inr ha)
  simp [Vars.variables, k2, hord _ k1]

/-- C68, the part that holds: if nothing had been added before `ClearVariables()`, the system is as new.
Missing: everything else (`C68_never`). -/
theorem C68_partial (h₁ h₂ : List (Op α)) (he : specRun h₁ = []) (hc : Consistent (specRun h₂)) :
    ((h₂.foldl Vars.step (Vars.run h₁).clear).variables).map Prod.fst =
      some ((specRun h₂).flatMap Block.vars) := by
  have hr := (rep_run h₁).toRep
  have e1 : (Vars.run h₁).clear = Vars.run h₁ := by
    have e1 := hr.groups
    have e2 := hr.homGroups
    have e3 := hr.homVars
    have e4 := hr.ungrouped
    rw [he] at e1 e2 e3 e4
    simp only [affs, homs, hvs, ungs] at e1 e2 e3 e4
    cases hv : Vars.run h₁
    rw [hv] at e1 e2 e3 e4
    simp only at e1 e2 e3 e4
    simp [Vars.clear, e1, e2, e3, e4]
  have e2 : specRun (h₁ ++ h₂) = specRun h₂ := by
    simp only [specRun, List.foldl_append] at he ⊢
    rw [he]
  have e3 : h₂.foldl Vars.step (Vars.run h₁).clear = Vars.run (h₁ ++ h₂) := by
    rw [e1, Vars.run, Vars.run, List.foldl_append]
  rw [e3, ← e2]
  exact ((C18_variables (h₁ ++ h₂)).1 (by rw [e2]; exact hc)).1

/-- Non-vacuity: `x` is added, the variables are cleared, `y` is added: no list of variables; the counter
is right. -/
example : (([.addGroup [2]] : List (Op ℕ)).foldl Vars.step (Vars.run [.addGroup [1], .query]).clear).variables
      = none ∧
    (([.addGroup [2]] : List (Op ℕ)).foldl Vars.step (Vars.run [.addGroup [1], .query]).clear).numNatural = 1 :=
  ⟨C68_never _ _ (by simp [specRun, specStep]) ⟨_, List.mem_singleton_self _, rfl⟩, C68_count _ _⟩

example : ((([.addGroup [2]] : List (Op ℕ)).foldl Vars.step (Vars.run [.query]).clear).variables).map
    Prod.fst = some [2] :=
  C68_partial [.query] [.addGroup [2]] rfl (.inl (by simp [specRun, specStep]))

/-! ### C25 -/

section dehom

variable {K : Type} [Div K]

/-- What dehomogenizing does to the coordinates of one block: divide by the first one and drop it,
if the block has a homogenizing variable. -/
def dehomBlock : Block α → List K → List K
  | .affine (some _) _, c :: cs => cs.map (· / c)
  | _, cs => cs

/-- `cs` are the coordinates of a point, split into the blocks of the system. -/
def Splits (bs : List (Block α)) (cs : List (List K)) : Prop :=
  List.Forall₂ (fun (b : Block α) (c : List K) => c.length = b.vars.length) bs cs

/-- C25, full statement: `DehomogenizePoint` acts blockwise. -/
def C25_full : Prop :=
  ∀ (α K : Type) [Div K] (h : List (Op α)) (cs : List (List K)), Consistent (specRun h) →
    Splits (specRun h) cs →
    (Vars.run h).dehomogenize cs.flatten = some (List.zipWith dehomBlock (specRun h) cs).flatten

theorem block_spec (f : K → K) (c post : List K) : ∀ (pre : List K),
    block f (pre ++ (c ++ post)) pre.length c.length = some (c.map f) := by
  induction c with
  | nil => intro pre; rfl
  | cons a c ih =>
    intro pre
    have h1 : (pre ++ (a :: c ++ post))[pre.length]? = some a := by simp
    have h2 := ih (pre ++ [a])
    simp only [List.append_assoc, List.singleton_append, List.length_append,
      List.length_singleton] at h2
    simp only [List.length_cons, block, h1, Option.bind_eq_bind, Option.bind_some]
    rw [show pre ++ (a :: c ++ post) = pre ++ (a :: (c ++ post)) by simp, h2]
    simp

theorem dehomLoop_spec (s : Vars α) (hom : Bool) (n m : ℕ) (hm : ∀ vs ∈ s.homGroups.head?, vs.length = m)
    (hn : hom = false → ∀ vs ∈ s.groups.head?, vs.length = n)
    (bs : List (Block α)) : ∀ (cs : List (List K)) (a : ℕ) (pre : List K),
    Splits bs cs →
    (∀ vs, Block.homog vs ∈ bs → vs.length = m ∧ s.homGroups ≠ []) →
    (hom = false → a = 0 ∧ ∀ h vs, Block.affine h vs ∈ bs → h = none ∧ vs.length = n ∧
      s.groups ≠ []) →
    (hom = true → s.groups.drop a = affs bs ∧ ∀ h vs, Block.affine h vs ∈ bs → h ≠ none) →
    s.dehomLoop hom (pre ++ cs.flatten) (kinds bs) a 0 pre.length =
      some (List.zipWith dehomBlock bs cs).flatten := by
  have hd : ∀ {β : Type} (l : List β) (n : ℕ) (x : β) (r : List β), l.drop n = x :: r →
      l[n]? = some x ∧ l.drop (n + 1) = r := by
    intro β l n x r h
    constructor
    · have := congrArg (fun l => l[0]?) h
      simpa using this
    · rw [← List.drop_drop, h]; rfl
  have hz : ∀ {β : Type} (l : List β), l ≠ [] → ∃ x, l[0]? = some x ∧ x ∈ l.head? := by
    intro β l h
    cases l with
    | nil => exact absurd rfl h
    | cons x l => exact ⟨x, rfl, by simp⟩
  induction bs with
  | nil =>
    intro cs a pre hs _ _ _
    cases hs
    rfl
  | cons b bs ih =>
    intro cs a pre hs h1 h2 h3
    rcases hs with _ | ⟨hlen, hs⟩
    rename_i c cs
    have h1' : ∀ vs, Block.homog vs ∈ bs → vs.length = m ∧ s.homGroups ≠ [] :=
      fun vs hv => h1 vs (List.mem_cons_of_mem _ hv)
    have h2' : hom = false → ∀ h vs, Block.affine h vs ∈ bs → h = none ∧ vs.length = n ∧
        s.groups ≠ [] := fun hh h vs hv => (h2 hh).2 h vs (List.mem_cons_of_mem _ hv)
    have h3' : hom = true → ∀ h vs, Block.affine h vs ∈ bs → h ≠ none :=
      fun hh h vs hv => (h3 hh).2 h vs (List.mem_cons_of_mem _ hv)
    rw [List.flatten_cons]
    cases b with
    | ungrouped v =>
      simp only [Block.vars, List.length_singleton] at hlen
      obtain ⟨w, rfl⟩ := List.length_eq_one_iff.1 hlen
      have e : (pre ++ ([w] ++ cs.flatten))[pre.length]? = some w := by simp
      have := ih cs a (pre ++ [w]) hs h1' (fun hh => ⟨(h2 hh).1, h2' hh⟩)
        (fun hh => ⟨(h3 hh).1, h3' hh⟩)
      simp only [List.append_assoc, List.length_append, List.length_singleton] at this
      simp only [kinds, Vars.dehomLoop, e, Option.bind_eq_bind, Option.bind_some, this]
      simp [dehomBlock]
    | homog vs =>
      obtain ⟨hvm, hne⟩ := h1 vs (by simp)
      obtain ⟨g, hg, hg'⟩ := hz _ hne
      have hgl := hm g hg'
      simp only [Block.vars] at hlen
      have hb := block_spec (id : K → K) c cs.flatten pre
      have := ih cs a (pre ++ c) hs h1' (fun hh => ⟨(h2 hh).1, h2' hh⟩)
        (fun hh => ⟨(h3 hh).1, h3' hh⟩)
      simp only [List.append_assoc, List.length_append] at this
      simp only [kinds, Vars.dehomLoop, hg, Option.bind_eq_bind, Option.bind_some]
      rw [hgl, ← hvm, ← hlen, hb, Option.bind_some, this]
      simp [dehomBlock]
    | affine h vs =>
      cases hom with
      | false =>
        obtain ⟨rfl, h6⟩ := h2 rfl
        obtain ⟨rfl, hvn, hne⟩ := h6 h vs (by simp)
        obtain ⟨g, hg, hg'⟩ := hz _ hne
        have hgl := hn rfl g hg'
        simp only [Block.vars, Option.toList_none, List.nil_append] at hlen
        have hb := block_spec (id : K → K) c cs.flatten pre
        have := ih cs 0 (pre ++ c) hs h1' (fun hh => ⟨rfl, h2' hh⟩) (by simp)
        simp only [List.append_assoc, List.length_append] at this
        simp only [kinds, Vars.dehomLoop, hg, Option.bind_eq_bind, Option.bind_some,
          Bool.false_eq_true, if_false]
        rw [hgl, ← hvn, ← hlen, hb, Option.bind_some, this]
        simp [dehomBlock]
      | true =>
        obtain ⟨h3, h4⟩ := h3 rfl
        obtain ⟨w, rfl⟩ := Option.ne_none_iff_exists'.1 (h4 h vs (by simp))
        simp only [affs] at h3
        obtain ⟨e1, e2⟩ := hd _ _ _ _ h3
        simp only [Block.vars, Option.toList_some, List.singleton_append, List.length_cons] at hlen
        cases c with
        | nil => simp at hlen
        | cons c0 c =>
          have hlen' : c.length = vs.length := by simpa using hlen
          have e : (pre ++ (c0 :: c ++ cs.flatten))[pre.length]? = some c0 := by simp
          have hb := block_spec (· / c0) c cs.flatten (pre ++ [c0])
          have := ih cs (a + 1) (pre ++ c0 :: c) hs h1' (by simp) (fun hh => ⟨e2, h3' hh⟩)
          simp only [List.append_assoc, List.length_append, List.length_cons, List.length_nil,
            List.nil_append, List.cons_append, Nat.zero_add] at this hb e ⊢
          simp only [kinds, Vars.dehomLoop, e, e1, Option.bind_eq_bind, Option.bind_some,
            if_true]
          rw [← hlen', hb, Option.bind_some,
            show pre.length + 1 + c.length = pre.length + (c.length + 1) by omega, this]
          simp [dehomBlock]

/-- C25 for systems whose homogeneous groups all have the same size (in particular at most one) and
which are homogenized, or whose affine groups all have the same size. Missing from `C25_full`: the
group counters are not advanced in the other cases, and it is false. -/
theorem C25_dehomogenize_partial (h : List (Op α)) (cs : List (List K)) (m n : ℕ)
    (hc : Consistent (specRun h)) (hs : Splits (specRun h) cs)
    (hm : ∀ vs, Block.homog vs ∈ specRun h → vs.length = m)
    (hn : ∀ vs, Block.affine none vs ∈ specRun h → vs.length = n) :
    (Vars.run h).dehomogenize cs.flatten =
      some (List.zipWith dehomBlock (specRun h) cs).flatten := by
  have hr := (rep_run h).toRep
  have hc' := (consistent_iff _).1 hc
  have hhoms : ∀ bs : List (Block α), ∀ vs, vs ∈ homs bs ↔ Block.homog vs ∈ bs := by
    intro bs vs
    induction bs with
    | nil => simp [homs]
    | cons b bs ih => cases b <;> simp [homs, ih]
  have haffs : ∀ bs : List (Block α), ∀ vs, vs ∈ affs bs ↔ ∃ w, Block.affine w vs ∈ bs := by
    intro bs vs
    induction bs with
    | nil => simp [affs]
    | cons b bs ih =>
      cases b with
      | affine w us =>
        simp only [affs, List.mem_cons, ih, Block.affine.injEq]
        constructor
        · rintro (rfl | ⟨w', h⟩)
          · exact ⟨w, .inl ⟨rfl, rfl⟩⟩
          · exact ⟨w', .inr h⟩
        · rintro ⟨w', ⟨rfl, rfl⟩ | h⟩
          · exact .inl rfl
          · exact .inr ⟨w', h⟩
      | _ => simp [affs, ih]
  have hmem : ∀ {β : Type} (l : List β) (x : β), x ∈ l.head? → x ∈ l := by
    intro β l x h
    exact List.mem_of_mem_head? h
  simp only [Vars.dehomogenize, hr.homVars, hr.groups, hr.order]
  rw [if_pos (by omega)]
  have hnone : (hvs (specRun h)).length = 0 → ∀ w vs, Block.affine w vs ∈ specRun h → w = none := by
    intro h0
    rw [← hvs_nil_iff]
    exact List.eq_nil_of_length_eq_zero h0
  have key := dehomLoop_spec (K := K) (Vars.run h) (decide ((hvs (specRun h)).length ≠ 0)) n m
    (by
      intro vs hv
      rw [hr.homGroups] at hv
      exact hm vs ((hhoms _ _).1 (hmem _ _ hv)))
    (by
      intro hd vs hv
      rw [hr.groups] at hv
      obtain ⟨w, hw⟩ := (haffs _ _).1 (hmem _ _ hv)
      have := hnone (by simpa using hd) w vs hw
      subst this
      exact hn vs hw)
    (specRun h) cs 0 [] hs
    (by
      intro vs hv
      refine ⟨hm vs hv, ?_⟩
      rw [hr.homGroups]
      exact List.ne_nil_of_mem ((hhoms _ _).2 hv))
    (by
      intro hd
      refine ⟨rfl, fun w vs hw => ?_⟩
      have := hnone (by simpa using hd) w vs hw
      subst this
      refine ⟨rfl, hn vs hw, ?_⟩
      rw [hr.groups]
      exact List.ne_nil_of_mem ((haffs _ _).2 ⟨_, hw⟩))
    (by
      intro hd
      refine ⟨by simp [hr.groups], ?_⟩
      rw [← hvs_length_eq_iff]
      have := of_decide_eq_true hd
      omega)
  simp only [List.nil_append, List.length_nil] at key
  rw [key, Option.bind_some, if_pos]
  simp only [Vars.numNatural, hr.groups, hr.homGroups, hr.ungrouped]
  clear key hr hc hc' hm hn hnone
  generalize specRun h = bs at hs
  induction hs with
  | nil => simp [affs, homs, ungs]
  | @cons b c bs cs hbc _ ih =>
    rw [List.zipWith_cons_cons, List.flatten_cons, List.length_append, ih]
    cases b with
    | affine w vs =>
      cases w with
      | none => simp [affs, homs, ungs, dehomBlock, Block.vars] at hbc ⊢; omega
      | some w =>
        cases c with
        | nil => simp [Block.vars] at hbc
        | cons c0 c => simp [affs, homs, ungs, dehomBlock, Block.vars] at hbc ⊢; omega
    | homog vs => simp [affs, homs, ungs, dehomBlock, Block.vars] at hbc ⊢; omega
    | ungrouped v => simp [affs, homs, ungs, dehomBlock, Block.vars] at hbc ⊢; omega

end dehom

/-- Put a one in front of the coordinates of a homogenized block. -/
def insertOne {K : Type} [One K] : Block α → List K → List K
  | .affine (some _) _, c => 1 :: c
  | _, c => c

/-- C25, round trip: inserting ones and dehomogenizing gives the point back (under the same
conditions as above). -/
theorem C25_round_trip_partial {K : Type} [Field K] (h : List (Op α)) (ns : List (List K)) (m n : ℕ)
    (hc : Consistent (specRun h))
    (hl : (specRun h).length = ns.length)
    (hs : Splits (specRun h) (List.zipWith insertOne (specRun h) ns))
    (hm : ∀ vs, Block.homog vs ∈ specRun h → vs.length = m)
    (hn : ∀ vs, Block.affine none vs ∈ specRun h → vs.length = n) :
    (Vars.run h).dehomogenize (List.zipWith insertOne (specRun h) ns).flatten =
      some ns.flatten := by
  rw [C25_dehomogenize_partial h _ m n hc hs hm hn]
  congr 2
  clear hc hs hm hn
  generalize specRun h = bs at hl
  induction bs generalizing ns with
  | nil => cases ns <;> simp_all
  | cons b bs ih =>
    cases ns with
    | nil => simp at hl
    | cons c ns =>
      rw [List.zipWith_cons_cons, List.zipWith_cons_cons, ih ns (by simpa using hl)]
      congr 1
      cases b with
      | affine w vs => cases w <;> simp [insertOne, dehomBlock]
      | _ => simp [insertOne, dehomBlock]

/-- Non-vacuity: two affine groups around a homogeneous group, homogenized. -/
example : (Vars.run [.addGroup [1, 2], .addHomGroup [3, 4], .addGroup [5],
    .homogenize (· + 100)]).dehomogenize ([[2, 4, 6], [7, 8], [5, 10]] : List (List ℚ)).flatten =
      some [2, 3, 7, 8, 2] := by
  rw [C25_dehomogenize_partial (m := 2) (n := 0)
    [.addGroup [1, 2], .addHomGroup [3, 4], .addGroup [5], .homogenize (· + 100)]]
  · simp [specRun, specStep, assign, Block.isHomogenized, dehomBlock]
    norm_num
  · rw [consistent_iff]; simp [specRun, specStep, assign, Block.isHomogenized, hvs, affs]
  · simp [specRun, specStep, assign, Block.isHomogenized, Splits, Block.vars]
  · simp [specRun, specStep, assign, Block.isHomogenized]
  · simp [specRun, specStep, assign, Block.isHomogenized]

/-- Two homogeneous groups of sizes 2 and 1: the size of the first is used for both, and the point is
read past its end. -/
theorem C25_refuted : ¬ C25_full := by
  intro H
  have h := H ℕ ℚ [.addHomGroup [1, 2], .addHomGroup [3]] [[1, 2], [3]]
    (by left; simp [specRun, specStep]) (by simp [Splits, specRun, specStep, Block.vars])
  simp [Vars.run, Vars.step, Vars.addHomGroup, Vars.empty, Vars.dehomogenize, Vars.dehomLoop,
    block] at h

/-- Also without homogeneous groups: two affine groups of sizes 2 and 1, not homogenized. -/
theorem C25_affine_refuted : ¬ ∀ (h : List (Op ℕ)) (cs : List (List ℚ)),
    (∀ o ∈ h, ∃ vs, o = .addGroup vs) → Splits (specRun h) cs →
    (Vars.run h).dehomogenize cs.flatten = some cs.flatten := by
  intro H
  have h := H [.addGroup [1, 2], .addGroup [3]] [[1, 2], [3]]
    (by simp) (by simp [Splits, specRun, specStep, Block.vars])
  simp [Vars.run, Vars.step, Vars.addGroup, Vars.empty, Vars.dehomogenize, Vars.dehomLoop,
    block] at h

end B2.Sys
