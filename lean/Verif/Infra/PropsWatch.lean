/-
Property C176: which observers receive the events of which objects.
-/
import Verif.Infra.Watch

namespace B2.Infra

/-! ### Specification -/

/-- When observer `a` was attached to the object `o`, in terms of the calls made on `o` alone: `some k` if it was added by
the `k`-th action and not removed since, `none` if it is not attached.  A copy is a new object, to which nothing was
added; an assigned object keeps the observers that were added to it. -/
def addedAt : List Act → ℕ → ℕ → Option ℕ
  | [], _, _ => none
  | .create p :: h, o, a => if p = o then none else addedAt h o a
  | .copy _ d :: h, o, a => if d = o then none else addedAt h o a
  | .assign _ _ :: h, o, a => addedAt h o a
  | .add p b :: h, o, a => if p = o ∧ b = a ∧ addedAt h o a = none then some h.length else addedAt h o a
  | .rem p b :: h, o, a => if p = o ∧ b = a then none else addedAt h o a
  | .destroy _ :: h, o, a => addedAt h o a

/-- The same, where a copied or assigned object takes over the attachments of its source and loses its own. -/
def inheritedAt : List Act → ℕ → ℕ → Option ℕ
  | [], _, _ => none
  | .create p :: h, o, a => if p = o then none else inheritedAt h o a
  | .copy s d :: h, o, a => if d = o then inheritedAt h s a else inheritedAt h o a
  | .assign s d :: h, o, a => if d = o then inheritedAt h s a else inheritedAt h o a
  | .add p b :: h, o, a => if p = o ∧ b = a ∧ inheritedAt h o a = none then some h.length else inheritedAt h o a
  | .rem p b :: h, o, a => if p = o ∧ b = a then none else inheritedAt h o a
  | .destroy _ :: h, o, a => inheritedAt h o a

/-- An event of `o` after the actions `h` is delivered according to the attachments `att`: if an attached observer was
destroyed the behaviour is undefined; otherwise each attached observer receives the event, once, in the order in which
they were attached, and no other does. -/
def Delivers (att : List Act → ℕ → ℕ → Option ℕ) (h : List Act) (o : ℕ) : Prop :=
  ((∃ a, (att h o a).isSome ∧ .destroy a ∈ h) → deliver (watchRun h) o = none) ∧
  ((∀ a, (att h o a).isSome → .destroy a ∉ h) →
    ∃ l, deliver (watchRun h) o = some l ∧ l.Nodup ∧ (∀ a, a ∈ l ↔ (att h o a).isSome) ∧
      l.Pairwise fun a b => ∃ i j, att h o a = some i ∧ att h o b = some j ∧ i < j)

/-- Only objects without observers are copied, and only to objects without observers. -/
def Bare : List Act → Prop
  | [] => True
  | .copy s _ :: h => Bare h ∧ ∀ a, addedAt h s a = none
  | .assign s d :: h => Bare h ∧ (∀ a, addedAt h s a = none) ∧ ∀ a, addedAt h d a = none
  | _ :: h => Bare h

/-- **C176**, the full statement: an observer receives the events of exactly the objects it was added to. -/
def C176_full : Prop := ∀ h o, Delivers addedAt h o

/-! ### Proof -/

theorem mem_addObs (l : List ℕ) (a b : ℕ) : b ∈ addObs l a ↔ b ∈ l ∨ b = a := by
  unfold addObs
  split
  · rename_i h
    constructor
    · exact Or.inl
    · rintro (h' | rfl)
      · exact h'
      · exact h
  · simp

/-- The list of an object: the attached observers, each once, in order. -/
theorem watchers_spec (h : List Act) (o : ℕ) :
    ((watchRun h).watchers o).Nodup ∧ (∀ a, a ∈ (watchRun h).watchers o ↔ (inheritedAt h o a).isSome) ∧
      (((watchRun h).watchers o).Pairwise fun a b =>
        ∃ i j, inheritedAt h o a = some i ∧ inheritedAt h o b = some j ∧ i < j) ∧
      ∀ a i, inheritedAt h o a = some i → i < h.length := by
  induction h generalizing o with
  | nil => simp [watchRun, inheritedAt]
  | cons x h ih =>
    cases x with
    | create p =>
      by_cases hp : p = o
      · subst hp
        simp [watchRun, watchStep, Watch.put, inheritedAt]
      · obtain ⟨a1, a2, a3, a4⟩ := ih o
        simp only [watchRun, watchStep, Watch.put, inheritedAt, if_neg hp, if_neg (Ne.symm hp)]
        exact ⟨a1, a2, a3, fun a i hi => Nat.lt_succ_of_lt (a4 a i hi)⟩
    | copy s d =>
      by_cases hp : d = o
      · subst hp
        obtain ⟨a1, a2, a3, a4⟩ := ih s
        simp only [watchRun, watchStep, Watch.put, inheritedAt, if_true]
        exact ⟨a1, a2, a3, fun a i hi => Nat.lt_succ_of_lt (a4 a i hi)⟩
      · obtain ⟨a1, a2, a3, a4⟩ := ih o
        simp only [watchRun, watchStep, Watch.put, inheritedAt, if_neg hp, if_neg (Ne.symm hp)]
        exact ⟨a1, a2, a3, fun a i hi => Nat.lt_succ_of_lt (a4 a i hi)⟩
    | assign s d =>
      by_cases hp : d = o
      · subst hp
        obtain ⟨a1, a2, a3, a4⟩ := ih s
        simp only [watchRun, watchStep, Watch.put, inheritedAt, if_true]
        exact ⟨a1, a2, a3, fun a i hi => Nat.lt_succ_of_lt (a4 a i hi)⟩
      · obtain ⟨a1, a2, a3, a4⟩ := ih o
        simp only [watchRun, watchStep, Watch.put, inheritedAt, if_neg hp, if_neg (Ne.symm hp)]
        exact ⟨a1, a2, a3, fun a i hi => Nat.lt_succ_of_lt (a4 a i hi)⟩
    | destroy b =>
      obtain ⟨a1, a2, a3, a4⟩ := ih o
      simp only [watchRun, watchStep, inheritedAt]
      exact ⟨a1, a2, a3, fun a i hi => Nat.lt_succ_of_lt (a4 a i hi)⟩
    | add p b =>
      obtain ⟨a1, a2, a3, a4⟩ := ih o
      by_cases hp : p = o
      swap
      · simp only [watchRun, watchStep, Watch.put, inheritedAt, if_neg (Ne.symm hp), hp, false_and, if_false]
        exact ⟨a1, a2, a3, fun a i hi => Nat.lt_succ_of_lt (a4 a i hi)⟩
      subst hp
      simp only [watchRun, watchStep, Watch.put, inheritedAt, if_true, true_and]
      by_cases hb : b ∈ (watchRun h).watchers p
      · have e : ∀ a, (if b = a ∧ inheritedAt h p a = none then some h.length else inheritedAt h p a) =
            inheritedAt h p a := by
          intro a
          apply if_neg
          rintro ⟨rfl, h0⟩
          have := (a2 b).1 hb
          rw [h0] at this
          cases this
        simp only [e]
        rw [addObs, if_pos hb]
        exact ⟨a1, a2, a3, fun a i hi => Nat.lt_succ_of_lt (a4 a i hi)⟩
      · have hn : inheritedAt h p b = none := by
          cases hc : inheritedAt h p b with
          | none => rfl
          | some i => exact absurd ((a2 b).2 (by rw [hc]; rfl)) hb
        have e : ∀ a, (if b = a ∧ inheritedAt h p a = none then some h.length else inheritedAt h p a) =
            if b = a then some h.length else inheritedAt h p a := by
          intro a
          by_cases hba : b = a
          · subst hba
            rw [if_pos ⟨rfl, hn⟩, if_pos rfl]
          · rw [if_neg (fun c => hba c.1), if_neg hba]
        simp only [e]
        rw [addObs, if_neg hb]
        refine ⟨?_, ?_, ?_, ?_⟩
        · rw [List.nodup_append]
          refine ⟨a1, by simp, ?_⟩
          intro x hx y hy
          rw [List.mem_singleton] at hy
          subst hy
          rintro rfl
          exact hb hx
        · intro a
          by_cases hba : b = a
          · subst hba; simp
          · rw [if_neg hba, List.mem_append, a2 a]
            simp [Ne.symm hba]
        · rw [List.pairwise_append]
          refine ⟨?_, by simp, ?_⟩
          · refine a3.imp_of_mem ?_
            rintro x y hx hy ⟨i, j, hi, hj, hij⟩
            have hxb : b ≠ x := fun c => hb (c ▸ hx)
            have hyb : b ≠ y := fun c => hb (c ▸ hy)
            exact ⟨i, j, by rw [if_neg hxb]; exact hi, by rw [if_neg hyb]; exact hj, hij⟩
          · intro x hx y hy
            rw [List.mem_singleton] at hy
            subst hy
            have hxb : y ≠ x := fun c => hb (c ▸ hx)
            have := (a2 x).1 hx
            obtain ⟨i, hi⟩ := Option.isSome_iff_exists.1 this
            exact ⟨i, h.length, by rw [if_neg hxb]; exact hi, by rw [if_pos rfl], a4 x i hi⟩
        · intro a i hi
          by_cases hba : b = a
          · rw [if_pos hba] at hi
            cases hi
            exact Nat.lt_succ_self _
          · rw [if_neg hba] at hi
            exact Nat.lt_succ_of_lt (a4 a i hi)
    | rem p b =>
      obtain ⟨a1, a2, a3, a4⟩ := ih o
      by_cases hp : p = o
      swap
      · simp only [watchRun, watchStep, Watch.put, inheritedAt, if_neg (Ne.symm hp), hp, false_and, if_false]
        exact ⟨a1, a2, a3, fun a i hi => Nat.lt_succ_of_lt (a4 a i hi)⟩
      subst hp
      simp only [watchRun, watchStep, Watch.put, inheritedAt, if_true, true_and]
      refine ⟨a1.filter _, ?_, ?_, ?_⟩
      · intro a
        by_cases hba : b = a
        · subst hba; simp [remObs]
        · rw [if_neg hba, ← a2 a]
          simp [remObs, Ne.symm hba]
      · have := a3.filter fun c => decide (c ≠ b)
        unfold remObs
        refine this.imp_of_mem ?_
        rintro x y hx hy ⟨i, j, hi, hj, hij⟩
        have hxb : b ≠ x := by
          have := (List.mem_filter.1 hx).2
          rintro rfl
          simp at this
        have hyb : b ≠ y := by
          have := (List.mem_filter.1 hy).2
          rintro rfl
          simp at this
        exact ⟨i, j, by rw [if_neg hxb]; exact hi, by rw [if_neg hyb]; exact hj, hij⟩
      · intro a i hi
        by_cases hba : b = a
        · rw [if_pos hba] at hi; cases hi
        · rw [if_neg hba] at hi
          exact Nat.lt_succ_of_lt (a4 a i hi)

theorem mem_dead (h : List Act) (a : ℕ) : a ∈ (watchRun h).dead ↔ .destroy a ∈ h := by
  induction h with
  | nil => simp [watchRun]
  | cons x h ih => cases x <;> simp [watchRun, watchStep, Watch.put, ih]

theorem delivers_inherited (h : List Act) (o : ℕ) : Delivers inheritedAt h o := by
  obtain ⟨a1, a2, a3, -⟩ := watchers_spec h o
  constructor
  · rintro ⟨a, ha, hd⟩
    unfold deliver
    rw [if_pos]
    exact List.any_eq_true.2 ⟨a, (a2 a).2 ha, decide_eq_true ((mem_dead h a).2 hd)⟩
  · intro hl
    refine ⟨(watchRun h).watchers o, ?_, a1, a2, a3⟩
    unfold deliver
    rw [if_neg]
    intro hc
    obtain ⟨a, ha, hd⟩ := List.any_eq_true.1 hc
    exact hl a ((a2 a).1 ha) ((mem_dead h a).1 (of_decide_eq_true hd))

theorem inherited_of_bare : ∀ (h : List Act), Bare h → ∀ o a, inheritedAt h o a = addedAt h o a
  | [], _, _, _ => rfl
  | .create p :: h, hb, o, a => by
    simp only [inheritedAt, addedAt, inherited_of_bare h hb]
  | .copy s d :: h, hb, o, a => by
    simp only [inheritedAt, addedAt, inherited_of_bare h hb.1, hb.2]
  | .assign s d :: h, hb, o, a => by
    simp only [inheritedAt, addedAt, inherited_of_bare h hb.1]
    by_cases hd : d = o
    · subst hd
      rw [if_pos rfl, hb.2.1, hb.2.2]
    · rw [if_neg hd]
  | .add p b :: h, hb, o, a => by
    simp only [inheritedAt, addedAt, inherited_of_bare h hb]
  | .rem p b :: h, hb, o, a => by
    simp only [inheritedAt, addedAt, inherited_of_bare h hb]
  | .destroy b :: h, hb, o, a => by
    simp only [inheritedAt, addedAt, inherited_of_bare h hb]

/-- **C176**, when no object that has observers is copied or assigned to.  Missing: copies of observed objects. -/
theorem C176_partial (h : List Act) (hb : Bare h) (o : ℕ) : Delivers addedAt h o := by
  have e : inheritedAt h o = addedAt h o := funext fun a => inherited_of_bare h hb o a
  have := delivers_inherited h o
  unfold Delivers at this ⊢
  rw [← e]
  exact this

/-- What happens in general: a copy takes over the observers of its source. -/
theorem C176_copy_partial (h : List Act) (o : ℕ) : Delivers inheritedAt h o := delivers_inherited h o

/-- **C176 fails**: an observer added to a tracker receives the events of a copy made of it. -/
theorem C176_refuted : ¬ C176_full := by
  intro hf
  have h := (hf [.copy 1 2, .add 1 7, .create 1] 2).2 (by
    intro a ha
    simp [addedAt] at ha)
  obtain ⟨l, h1, -, h3, -⟩ := h
  have : l = [7] := by
    have e : deliver (watchRun [.copy 1 2, .add 1 7, .create 1]) 2 = some [7] := by decide
    rw [e] at h1
    exact (Option.some.inj h1).symm
  subst this
  exact absurd ((h3 7).1 (by simp)) (by decide)

/-- A second way: removing the observer from the tracker it was added to, before destroying it, does not suffice. -/
theorem C176_dangling : ∃ h o a, (∀ p, addedAt h p a = none) ∧ deliver (watchRun h) o = none ∧
    ∀ b, .destroy b ∈ h → b = a := by
  refine ⟨[.destroy 7, .rem 1 7, .copy 1 2, .add 1 7, .create 1], 2, 7, ?_, by decide, by simp⟩
  intro p
  by_cases h1 : (1 : ℕ) = p
  · subst h1; decide
  · by_cases h2 : (2 : ℕ) = p
    · subst h2; decide
    · simp [addedAt, h1, h2]

/-- Is `a` one of the plain observers glued together in the observer? -/
inductive PartOf (a : ℕ) : Obs → Prop
  | plain : PartOf a (.plain a)
  | multi {b ps p} : p ∈ ps → PartOf a p → PartOf a (.multi b ps)

theorem mem_seesAll (a : ℕ) (ps : List Obs) : a ∈ seesAll ps ↔ ∃ p ∈ ps, a ∈ p.sees := by
  induction ps with
  | nil => simp [seesAll]
  | cons p ps ih => simp [seesAll, ih]

/-- A `MultiObserver` passes an event to all observers glued together in it, also through other `MultiObserver`s, and to
no others. -/
theorem C176_multi_partial (a : ℕ) (o : Obs) : a ∈ o.sees ↔ PartOf a o := by
  constructor
  · induction o using Obs.rec (motive_2 := fun ps => ∀ p ∈ ps, a ∈ p.sees → PartOf a p) with
    | plain b =>
      intro h
      simp only [Obs.sees, List.mem_singleton] at h
      subst h
      exact .plain
    | multi b ps ih =>
      intro h
      rw [Obs.sees, mem_seesAll] at h
      obtain ⟨p, hp, ha⟩ := h
      exact .multi hp (ih p hp ha)
    | nil => cases ‹_ ∈ []›
    | cons p ps ih1 ih2 =>
      rename_i q hq ha
      rcases List.mem_cons.1 hq with rfl | hq
      · exact ih1 ha
      · exact ih2 q hq ha
  · intro h
    induction h with
    | plain => simp [Obs.sees]
    | multi hp _ ih =>
      rw [Obs.sees, mem_seesAll]
      exact ⟨_, hp, ih⟩

/-- An event reaches the glued observers in their order, one after the other. -/
theorem C176_order_partial (b : ℕ) (l : List ℕ) : (Obs.multi b (l.map .plain)).sees = l := by
  rw [Obs.sees]
  induction l with
  | nil => rfl
  | cons a l ih => simp [seesAll, Obs.sees, ih]

/-! ### Non-vacuity -/

/-- Two trackers, three observers, one of them removed and added again: object 1 notifies 9 and then 7. -/
example : Bare [.add 2 8, .add 1 7, .rem 1 7, .copy 3 2, .add 1 9, .add 1 7, .create 3, .create 1] ∧
    deliver (watchRun [.add 2 8, .add 1 7, .rem 1 7, .copy 3 2, .add 1 9, .add 1 7, .create 3, .create 1]) 1 =
      some [9, 7] := by
  constructor
  · simp [Bare, addedAt]
  · decide

end B2.Infra
