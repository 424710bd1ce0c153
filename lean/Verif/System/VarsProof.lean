import Verif.System.Vars

/-! # Specification of the variable structure by blocks, and lemmas -/

namespace B2.Sys

variable {α : Type}

/-- What the user added, in order of addition: single variables, affine groups (with their
homogenizing variable once homogenized), homogeneous groups. -/
inductive Block (α : Type)
  | ungrouped (v : α)
  | affine (h : Option α) (vs : List α)
  | homog (vs : List α)

/-- The variables of a block, homogenizing variable first. -/
def Block.vars : Block α → List α
  | .ungrouped v => [v]
  | .affine h vs => h.toList ++ vs
  | .homog vs => vs

/-- The calls that build up the variable structure. `homogenize` carries the new variables, `query` is
`Variables()`. -/
inductive Op (α : Type)
  | addGroup (vs : List α)
  | addHomGroup (vs : List α)
  | addUngrouped (v : α)
  | addUngroupeds (vs : List α)
  | homogenize (fresh : ℕ → α)
  | query

/-- The effect on the system; a call that throws leaves it unchanged. -/
def Vars.step (s : Vars α) : Op α → Vars α
  | .addGroup vs => s.addGroup vs
  | .addHomGroup vs => s.addHomGroup vs
  | .addUngrouped v => s.addUngrouped v
  | .addUngroupeds vs => s.addUngroupeds vs
  | .homogenize fresh => (s.homogenize fresh).getD s
  | .query => match s.variables with
    | some (_, s') => s'
    | none => s

/-- A history of calls on a new system. -/
def Vars.run (h : List (Op α)) : Vars α := h.foldl Vars.step Vars.empty

/-- Give each affine block its homogenizing variable; `k` counts affine blocks. -/
def assign (fresh : ℕ → α) : ℕ → List (Block α) → List (Block α)
  | _, [] => []
  | k, .affine _ vs :: r => .affine (some (fresh k)) vs :: assign fresh (k + 1) r
  | k, b :: r => b :: assign fresh k r

/-- The block has a homogenizing variable. -/
def Block.isHomogenized : Block α → Bool
  | .affine (some _) _ => true
  | _ => false

/-- The specification: the blocks after a call. A system none of whose groups is homogenized gets
one variable per affine group; otherwise nothing changes. -/
def specStep (bs : List (Block α)) : Op α → List (Block α)
  | .addGroup vs => bs ++ [.affine none vs]
  | .addHomGroup vs => bs ++ [.homog vs]
  | .addUngrouped v => bs ++ [.ungrouped v]
  | .addUngroupeds vs => bs ++ vs.map .ungrouped
  | .homogenize fresh => if bs.any Block.isHomogenized then bs else assign fresh 0 bs
  | .query => bs

/-- The blocks after a history. -/
def specRun (h : List (Op α)) : List (Block α) := h.foldl specStep []

/-- Either no affine group or every affine group has a homogenizing variable. -/
def Consistent (bs : List (Block α)) : Prop :=
  (∀ h vs, Block.affine h vs ∈ bs → h = none) ∨ (∀ h vs, Block.affine h vs ∈ bs → h ≠ none)

/-! ### Projections -/

def affs : List (Block α) → List (List α)
  | [] => []
  | .affine _ vs :: r => vs :: affs r
  | _ :: r => affs r

def homs : List (Block α) → List (List α)
  | [] => []
  | .homog vs :: r => vs :: homs r
  | _ :: r => homs r

def ungs : List (Block α) → List α
  | [] => []
  | .ungrouped v :: r => v :: ungs r
  | _ :: r => ungs r

def hvs : List (Block α) → List α
  | [] => []
  | .affine (some h) _ :: r => h :: hvs r
  | _ :: r => hvs r

def kinds : List (Block α) → List Kind
  | [] => []
  | .affine _ _ :: r => .affine :: kinds r
  | .homog _ :: r => .homogeneous :: kinds r
  | .ungrouped _ :: r => .ungrouped :: kinds r

section append
variable (a b : List (Block α))

theorem affs_append : affs (a ++ b) = affs a ++ affs b := by
  induction a with
  | nil => rfl
  | cons x a ih => cases x <;> simp [affs, ih]

theorem homs_append : homs (a ++ b) = homs a ++ homs b := by
  induction a with
  | nil => rfl
  | cons x a ih => cases x <;> simp [homs, ih]

theorem ungs_append : ungs (a ++ b) = ungs a ++ ungs b := by
  induction a with
  | nil => rfl
  | cons x a ih => cases x <;> simp [ungs, ih]

theorem hvs_append : hvs (a ++ b) = hvs a ++ hvs b := by
  induction a with
  | nil => rfl
  | cons x a ih =>
    cases x with
    | affine h vs => cases h <;> simp [hvs, ih]
    | _ => simp [hvs, ih]

theorem kinds_append : kinds (a ++ b) = kinds a ++ kinds b := by
  induction a with
  | nil => rfl
  | cons x a ih => cases x <;> simp [kinds, ih]

end append

theorem ung_map (vs : List α) : affs (vs.map Block.ungrouped) = [] ∧
    homs (vs.map Block.ungrouped) = [] ∧ ungs (vs.map Block.ungrouped) = vs ∧
    hvs (vs.map Block.ungrouped) = [] ∧
    kinds (vs.map Block.ungrouped) = vs.map fun _ => Kind.ungrouped := by
  induction vs with
  | nil => simp [affs, homs, ungs, hvs, kinds]
  | cons v vs ih => simp [affs, homs, ungs, hvs, kinds, ih]

theorem assign_proj (fresh : ℕ → α) (bs : List (Block α)) : ∀ k,
    affs (assign fresh k bs) = affs bs ∧ homs (assign fresh k bs) = homs bs ∧
    ungs (assign fresh k bs) = ungs bs ∧ kinds (assign fresh k bs) = kinds bs ∧
    hvs (assign fresh k bs) = (List.range' k (affs bs).length).map fresh := by
  induction bs with
  | nil => simp [assign, affs, homs, ungs, hvs, kinds]
  | cons b bs ih =>
    intro k
    cases b with
    | affine h vs =>
      obtain ⟨h1, h2, h3, h4, h5⟩ := ih (k + 1)
      simp [assign, affs, homs, ungs, hvs, kinds, h1, h2, h3, h4, h5, List.range'_succ]
    | _ =>
      obtain ⟨h1, h2, h3, h4, h5⟩ := ih k
      simp [assign, affs, homs, ungs, hvs, kinds, h1, h2, h3, h4, h5]

theorem hvs_nil_iff (bs : List (Block α)) :
    hvs bs = [] ↔ ∀ h vs, Block.affine h vs ∈ bs → h = none := by
  induction bs with
  | nil => simp [hvs]
  | cons b bs ih =>
    cases b with
    | affine h vs =>
      cases h with
      | none =>
        simp only [hvs, ih, List.mem_cons, Block.affine.injEq]
        constructor
        · rintro H h' vs' (⟨rfl, rfl⟩ | hm)
          · rfl
          · exact H _ _ hm
        · exact fun H h' vs' hm => H h' vs' (.inr hm)
      | some h =>
        simp only [hvs, List.cons_ne_nil, List.mem_cons, false_iff]
        intro H
        exact absurd (H (some h) vs (.inl rfl)) (by simp)
    | _ => simp [hvs, ih]

theorem hvs_length_le (bs : List (Block α)) : (hvs bs).length ≤ (affs bs).length := by
  induction bs with
  | nil => simp [hvs, affs]
  | cons b bs ih =>
    cases b with
    | affine h vs => cases h <;> simp [hvs, affs] <;> omega
    | _ => simpa [hvs, affs] using ih

theorem hvs_length_eq_iff (bs : List (Block α)) :
    (hvs bs).length = (affs bs).length ↔ ∀ h vs, Block.affine h vs ∈ bs → h ≠ none := by
  induction bs with
  | nil => simp [hvs, affs]
  | cons b bs ih =>
    cases b with
    | affine h vs =>
      cases h with
      | none =>
        have := hvs_length_le bs
        simp only [hvs, affs, List.length_cons]
        constructor
        · intro h; omega
        · intro H
          exact absurd rfl (H none vs (by simp))
      | some h =>
        simp only [hvs, affs, List.length_cons, Nat.add_right_cancel_iff, ih, List.mem_cons,
          Block.affine.injEq]
        constructor
        · rintro H h' vs' (⟨rfl, rfl⟩ | hm)
          · simp
          · exact H _ _ hm
        · exact fun H h' vs' hm => H h' vs' (.inr hm)
    | _ => simp [hvs, affs, ih]

theorem any_hom_iff (bs : List (Block α)) : bs.any Block.isHomogenized = true ↔ hvs bs ≠ [] := by
  induction bs with
  | nil => simp [hvs]
  | cons b bs ih =>
    cases b with
    | affine h vs => cases h <;> simp_all [hvs, Block.isHomogenized]
    | _ => simp_all [hvs, Block.isHomogenized]

/-! ### The state represents the blocks -/

/-- The fields of the system agree with the blocks. -/
structure Rep (s : Vars α) (bs : List (Block α)) : Prop where
  ungrouped : s.ungrouped = ungs bs
  groups : s.groups = affs bs
  homGroups : s.homGroups = homs bs
  homVars : s.homVars = hvs bs
  order : s.order = kinds bs

theorem consistent_iff (bs : List (Block α)) :
    Consistent bs ↔ ¬ ((hvs bs).length > 0 ∧ (hvs bs).length ≠ (affs bs).length) := by
  rw [Consistent, ← hvs_nil_iff, ← hvs_length_eq_iff, ← List.length_eq_zero_iff]
  omega

/-- The ordering loop reads off the blocks. -/
theorem orderingLoop_spec (s : Vars α) (hom : Bool) (bs : List (Block α)) : ∀ (a u g : ℕ) acc,
    s.groups.drop a = affs bs → s.ungrouped.drop u = ungs bs → s.homGroups.drop g = homs bs →
    (hom = true → s.homVars.drop a = hvs bs ∧ ∀ h vs, Block.affine h vs ∈ bs → h ≠ none) →
    (hom = false → ∀ h vs, Block.affine h vs ∈ bs → h = none) →
    s.orderingLoop hom (kinds bs) a u g acc = some (acc ++ bs.flatMap Block.vars) := by
  have hd : ∀ {β : Type} (l : List β) (n : ℕ) (x : β) (r : List β), l.drop n = x :: r →
      l[n]? = some x ∧ l.drop (n + 1) = r := by
    intro β l n x r h
    constructor
    · have := congrArg (fun l => l[0]?) h
      simpa using this
    · rw [← List.drop_drop, h]; rfl
  induction bs with
  | nil => intros; simp [kinds, Vars.orderingLoop]
  | cons b bs ih =>
    intro a u g acc h1 h2 h3 h4 h5
    cases b with
    | ungrouped v =>
      simp only [affs, ungs, homs, hvs] at h1 h2 h3 h4
      obtain ⟨e1, e2⟩ := hd _ _ _ _ h2
      simp only [kinds, Vars.orderingLoop, e1, Option.bind_eq_bind, Option.bind_some]
      rw [ih _ _ _ _ h1 e2 h3 (fun h => ⟨(h4 h).1, fun _ _ hm => (h4 h).2 _ _ (List.mem_cons_of_mem _ hm)⟩)
        (fun h _ _ hm => h5 h _ _ (List.mem_cons_of_mem _ hm))]
      simp [Block.vars]
    | homog vs =>
      simp only [affs, ungs, homs, hvs] at h1 h2 h3 h4
      obtain ⟨e1, e2⟩ := hd _ _ _ _ h3
      simp only [kinds, Vars.orderingLoop, e1, Option.bind_eq_bind, Option.bind_some]
      rw [ih _ _ _ _ h1 h2 e2 (fun h => ⟨(h4 h).1, fun _ _ hm => (h4 h).2 _ _ (List.mem_cons_of_mem _ hm)⟩)
        (fun h _ _ hm => h5 h _ _ (List.mem_cons_of_mem _ hm))]
      simp [Block.vars]
    | affine h vs =>
      simp only [affs, ungs, homs] at h1 h2 h3
      obtain ⟨e1, e2⟩ := hd _ _ _ _ h1
      cases hom with
      | false =>
        have := h5 rfl h vs (by simp)
        subst this
        simp only [kinds, Vars.orderingLoop, e1, Option.bind_eq_bind, Option.bind_some,
          Bool.false_eq_true, if_false]
        rw [ih _ _ _ _ e2 h2 h3 (by simp) (fun h _ _ hm => h5 h _ _ (List.mem_cons_of_mem _ hm))]
        simp [Block.vars]
      | true =>
        obtain ⟨h6, h7⟩ := h4 rfl
        obtain ⟨w, rfl⟩ := Option.ne_none_iff_exists'.1 (h7 h vs (by simp))
        simp only [hvs] at h6
        obtain ⟨e3, e4⟩ := hd _ _ _ _ h6
        simp only [kinds, Vars.orderingLoop, e1, e3, Option.bind_eq_bind, Option.bind_some,
          if_true, Option.map_some]
        rw [ih _ _ _ _ e2 h2 h3 (fun _ => ⟨e4, fun _ _ hm => h7 _ _ (List.mem_cons_of_mem _ hm)⟩) (by simp)]
        simp [Block.vars]

theorem length_blocks (bs : List (Block α)) : (bs.flatMap Block.vars).length =
    (hvs bs).length + (((affs bs).map List.length).sum + ((homs bs).map List.length).sum +
      (ungs bs).length) := by
  induction bs with
  | nil => simp [hvs, affs, homs, ungs]
  | cons b bs ih =>
    rw [List.flatMap_cons, List.length_append, ih]
    cases b with
    | affine h vs => cases h <;> simp [hvs, affs, homs, ungs, Block.vars] <;> omega
    | _ => simp [hvs, affs, homs, ungs, Block.vars]; omega

theorem Rep.numVariables {s : Vars α} {bs : List (Block α)} (h : Rep s bs) :
    s.numVariables = (bs.flatMap Block.vars).length := by
  rw [length_blocks, Vars.numVariables, Vars.numHomVars, Vars.numNatural, h.ungrouped, h.groups,
    h.homGroups, h.homVars]

theorem Rep.ordering {s : Vars α} {bs : List (Block α)} (h : Rep s bs) (hc : Consistent bs) :
    s.ordering = some (bs.flatMap Block.vars) := by
  have hc' := (consistent_iff bs).1 hc
  have hlen := h.numVariables
  simp only [Vars.ordering, Vars.numHomVars, h.homVars, h.groups]
  rw [if_neg (by simpa using hc'), h.order]
  have := orderingLoop_spec s (decide ((hvs bs).length > 0)) bs 0 0 0 []
    (by simp [h.groups]) (by simp [h.ungrouped]) (by simp [h.homGroups])
    (by
      intro hd
      refine ⟨by simp [h.homVars], ?_⟩
      rw [← hvs_length_eq_iff]
      have := of_decide_eq_true hd
      omega)
    (by
      intro hd
      rw [← hvs_nil_iff]
      have := of_decide_eq_false hd
      exact List.eq_nil_of_length_eq_zero (by omega))
  rw [this]
  simp [hlen]

theorem Rep.ordering_none {s : Vars α} {bs : List (Block α)} (h : Rep s bs)
    (hc : ¬ Consistent bs) : s.ordering = none := by
  have hc' := (consistent_iff bs).not.1 hc
  rw [not_not] at hc'
  simp only [Vars.ordering, Vars.numHomVars, h.homVars, h.groups]
  rw [if_pos (by simpa using hc')]

theorem orderingLoop_cache (s : Vars α) (c : Option (List α)) (hom : Bool) (ks : List Kind) :
    ∀ (a u g : ℕ) (acc : List α), Vars.orderingLoop { s with cache := c } hom ks a u g acc =
      Vars.orderingLoop s hom ks a u g acc := by
  induction ks with
  | nil => intros; rfl
  | cons k ks ih => intros; cases k <;> simp [Vars.orderingLoop, ih]

theorem ordering_cache (s : Vars α) (c : Option (List α)) :
    Vars.ordering { s with cache := c } = s.ordering := by
  unfold Vars.ordering
  simp only [orderingLoop_cache]
  rfl

/-- Represents, with a correct cache. -/
structure Rep' (s : Vars α) (bs : List (Block α)) : Prop extends Rep s bs where
  cache : ∀ l, s.cache = some l → s.ordering = some l

theorem Rep'.step {s : Vars α} {bs : List (Block α)} (h : Rep' s bs) (o : Op α) :
    Rep' (s.step o) (specStep bs o) := by
  obtain ⟨⟨h1, h2, h3, h4, h5⟩, h6⟩ := h
  cases o with
  | addGroup vs =>
    exact ⟨⟨by simp [Vars.step, specStep, Vars.addGroup, ungs_append, h1, ungs],
      by simp [Vars.step, specStep, Vars.addGroup, affs_append, h2, affs],
      by simp [Vars.step, specStep, Vars.addGroup, homs_append, h3, homs],
      by simp [Vars.step, specStep, Vars.addGroup, hvs_append, h4, hvs],
      by simp [Vars.step, specStep, Vars.addGroup, kinds_append, h5, kinds]⟩,
      by simp [Vars.step, Vars.addGroup]⟩
  | addHomGroup vs =>
    exact ⟨⟨by simp [Vars.step, specStep, Vars.addHomGroup, ungs_append, h1, ungs],
      by simp [Vars.step, specStep, Vars.addHomGroup, affs_append, h2, affs],
      by simp [Vars.step, specStep, Vars.addHomGroup, homs_append, h3, homs],
      by simp [Vars.step, specStep, Vars.addHomGroup, hvs_append, h4, hvs],
      by simp [Vars.step, specStep, Vars.addHomGroup, kinds_append, h5, kinds]⟩,
      by simp [Vars.step, Vars.addHomGroup]⟩
  | addUngrouped v =>
    exact ⟨⟨by simp [Vars.step, specStep, Vars.addUngrouped, ungs_append, h1, ungs],
      by simp [Vars.step, specStep, Vars.addUngrouped, affs_append, h2, affs],
      by simp [Vars.step, specStep, Vars.addUngrouped, homs_append, h3, homs],
      by simp [Vars.step, specStep, Vars.addUngrouped, hvs_append, h4, hvs],
      by simp [Vars.step, specStep, Vars.addUngrouped, kinds_append, h5, kinds]⟩,
      by simp [Vars.step, Vars.addUngrouped]⟩
  | addUngroupeds vs =>
    obtain ⟨g1, g2, g3, g4, g5⟩ := ung_map vs
    exact ⟨⟨by simp [Vars.step, specStep, Vars.addUngroupeds, ungs_append, h1, g3],
      by simp [Vars.step, specStep, Vars.addUngroupeds, affs_append, h2, g1],
      by simp [Vars.step, specStep, Vars.addUngroupeds, homs_append, h3, g2],
      by simp [Vars.step, specStep, Vars.addUngroupeds, hvs_append, h4, g4],
      by simp [Vars.step, specStep, Vars.addUngroupeds, kinds_append, h5, g5]⟩,
      by simp [Vars.step, Vars.addUngroupeds]⟩
  | homogenize fresh =>
    obtain ⟨g1, g2, g3, g4, g5⟩ := assign_proj fresh bs 0
    simp only [Vars.step, specStep]
    by_cases ha : bs.any Block.isHomogenized = true
    · rw [if_pos ha]
      rw [any_hom_iff] at ha
      have hne : s.numHomVars ≠ 0 := by
        rw [Vars.numHomVars, h4]
        exact fun h => ha (List.eq_nil_of_length_eq_zero h)
      by_cases hm : s.numHomVars = s.groups.length
      · simp only [Vars.homogenize, hm, decide_not]
        simp only [ne_eq, not_true_eq_false, and_false, if_false, Option.getD_some]
        have : ¬ s.groups.length = 0 := by rw [← hm]; exact hne
        simp only [this, decide_false, Bool.not_false, if_true]
        exact ⟨⟨h1, h2, h3, h4, h5⟩, by simp⟩
      · have e : s.homogenize fresh = none := by simp [Vars.homogenize, hne, hm]
        rw [e, Option.getD_none]
        exact ⟨⟨h1, h2, h3, h4, h5⟩, h6⟩
    · rw [if_neg ha]
      rw [any_hom_iff, not_not] at ha
      have hz : s.numHomVars = 0 := by rw [Vars.numHomVars, h4, ha]; rfl
      simp only [Vars.homogenize, hz]
      simp only [ne_eq, not_true_eq_false, decide_false, Bool.false_eq_true, false_and, if_false,
        Option.getD_some]
      refine ⟨⟨by rw [g3]; exact h1, by rw [g1]; exact h2, by rw [g2]; exact h3, ?_,
        by rw [g4]; exact h5⟩, by simp⟩
      dsimp only
      rw [g5, h2, List.range_eq_range']
  | query =>
    simp only [Vars.step, specStep, Vars.variables]
    cases hc : s.cache with
    | some l => exact ⟨⟨h1, h2, h3, h4, h5⟩, h6⟩
    | none =>
      cases ho : s.ordering with
      | none => exact ⟨⟨h1, h2, h3, h4, h5⟩, h6⟩
      | some l =>
        simp only [Option.map_some]
        refine ⟨⟨h1, h2, h3, h4, h5⟩, ?_⟩
        intro l' hl'
        simp only [Option.some.injEq] at hl'
        subst hl'
        rw [ordering_cache, ho]

theorem rep_run (h : List (Op α)) : Rep' (Vars.run h) (specRun h) := by
  have : ∀ (s : Vars α) bs, Rep' s bs → Rep' (h.foldl Vars.step s) (h.foldl specStep bs) := by
    induction h with
    | nil => exact fun _ _ h => h
    | cons o h ih => exact fun s bs hr => ih _ _ (hr.step o)
  exact this _ _ ⟨⟨rfl, rfl, rfl, rfl, rfl⟩, by simp [Vars.empty]⟩

end B2.Sys
