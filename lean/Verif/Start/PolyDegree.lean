import Verif.Start.TotalDegree
import Verif.Tree.PolyTree

/-!
# The total degree of polynomials

Lemmas for `Verif/Alg/PropsSetup.lean`: for polynomials the total degree is the degree in any group
holding all their variables; which variables homogenizing brings in.
-/

namespace B2

variable {cur : Env}

theorem mono_degT {u : List Var} (hu : u.Nodup) (n : Node) : MonoTree n → (∀ v ∈ n.vars, v ∈ u) →
    degT cur n = (u.map fun v => degV cur v n).sum := by
  induction n using Node.rec (motive_2 := fun ops => MonoOps ops → (∀ v ∈ ops.vars, v ∈ u) →
    degTMult cur ops = (u.map fun v => degVMult cur v ops).sum) with
  | nil _ => simp [degTMult, degVMult]
  | cons s n r ih1 ih2 h hv =>
    simp only [Ops.vars, List.mem_append] at hv
    have e1 := ih1 h.1 fun v hm => hv v (Or.inl hm)
    have e2 := ih2 h.2.2 fun v hm => hv v (Or.inr hm)
    have n1 : 0 ≤ degT cur n := by
      rw [e1]
      exact List.sum_nonneg (by simpa using fun v _ => mono_nonneg (cur := cur) (v := v) n h.1)
    have hm : MonoTree (.mult r) := h.2.2
    have n2 : 0 ≤ degTMult cur r := by
      rw [e2]
      refine List.sum_nonneg ?_
      intro x hx
      obtain ⟨v, _, rfl⟩ := List.mem_map.1 hx
      have := mono_nonneg (cur := cur) (v := v) (.mult r) hm
      simpa only [degV] using this
    have n3 : s = false → degT cur n = 0 := by
      intro hs
      rw [e1]
      have : (u.map fun v => degV cur v n) = u.map fun _ => 0 :=
        List.map_congr_left fun v _ => mono_absent h.1 (by simp [h.2.1 hs])
      rw [this]; simp
    have e3 : degTMult cur (.cons s n r) = degT cur n + degTMult cur r := by
      simp only [degTMult]
      rw [if_neg (by omega), if_neg (by rintro ⟨a, b⟩; exact a (n3 b)), if_neg (by omega)]
    have e4 : (u.map fun v => degVMult cur v (.cons s n r)) =
        u.map fun v => degV cur v n + degVMult cur v r :=
      List.map_congr_left fun v _ => by
        have : MonoTree (.mult (.cons s n r)) := h
        have := mono_nonneg (cur := cur) (v := v) _ this
        simp only [degV] at this
        exact degVMult_cons_eq this
    rw [e3, e4, List.sum_map_add, e1, e2]
  | mult ops ih => simpa only [MonoTree, degT, degV, Node.vars] using ih
  | neg n ih => simpa only [MonoTree, degT, degV, Node.vars] using ih
  | ipow n k ih =>
    intro h hv
    have e := ih h.2 (by simpa [Node.vars] using hv)
    have n1 : 0 ≤ degT cur n := by
      rw [e]
      exact List.sum_nonneg (by simpa using fun v _ => mono_nonneg (cur := cur) (v := v) n h.2)
    have e4 : (u.map fun v => degV cur v (.ipow n k)) = u.map fun v => k * degV cur v n :=
      List.map_congr_left fun v _ => by
        have := mono_nonneg (cur := cur) (v := v) n h.2
        simp only [degV]
        rw [if_neg (by omega)]
    rw [e4, List.sum_map_mul_left, ← e]
    simp only [degT]
    rw [if_neg (by omega)]
  | var w =>
    intro h hv
    have hm : w ∈ u := hv w (by simp [Node.vars])
    have := mono_degG (cur := cur) hu (.var w) h
    rw [← this]
    simp [degT, degG, hm]
  | _ => intro h _; first | exact h.elim | simp [degT, degV]

/-- The total degree of a polynomial is its degree in a group holding all its variables. -/
theorem poly_degT {u : List Var} (hu : u.Nodup) (n : Node) : PolyTree n → (∀ v ∈ n.vars, v ∈ u) →
    degT cur n = degG cur u n := by
  induction n using Node.rec (motive_2 := fun ops =>
    (PolySum ops → (∀ v ∈ ops.vars, v ∈ u) → degTSum cur ops = degGSum cur u ops) ∧
    (PolyMult ops → (∀ v ∈ ops.vars, v ∈ u) → degTMult cur ops = degGMult cur u ops)) with
  | nil => simp [degTSum, degTMult, degGSum, degGMult]
  | cons s n r ih1 ih2 =>
    constructor
    · intro h hv
      simp only [Ops.vars, List.mem_append] at hv
      simp only [degTSum, degGSum]
      rw [ih1 h.1 fun v hm => hv v (Or.inl hm), ih2.1 h.2 fun v hm => hv v (Or.inr hm)]
    · intro h hv
      simp only [Ops.vars, List.mem_append] at hv
      simp only [degTMult, degGMult]
      rw [ih1 h.1 fun v hm => hv v (Or.inl hm), ih2.2 h.2.2 fun v hm => hv v (Or.inr hm)]
  | sum ops ih => exact fun h hv => by simpa only [degT, degG] using ih.1 h hv
  | mult ops ih => exact fun h hv => by simpa only [degT, degG] using ih.2 h hv
  | fn n ih => exact fun h hv => by simpa only [degT, degG] using ih h hv
  | neg n ih =>
    intro h hv
    have h' : MonoTree (.neg n) := h
    rw [mono_degT hu _ h' hv, mono_degG hu _ h']
  | ipow n k ih =>
    intro h hv
    have h' : MonoTree (.ipow n k) := h
    rw [mono_degT hu _ h' hv, mono_degG hu _ h']
  | var w =>
    intro h hv
    have hm : w ∈ u := hv w (by simp [Node.vars])
    simp [degT, degG, hm]
  | _ => intro h _; first | exact h.elim | simp [degT, degG]

theorem padTerm_vars (h : Var) (d : ℤ) (n : Node) : ∀ v ∈ (padTerm h d n).vars, v = h ∨ v ∈ n.vars := by
  intro v hv
  unfold padTerm at hv
  split at hv
  · split at hv <;> simpa [Node.vars, Ops.vars] using hv
  · exact Or.inr hv

theorem padOps_vars (h : Var) (vars : List Var) (m : ℤ) : ∀ ops : Ops,
    ∀ v ∈ (padOps cur vars h m ops).vars, v = h ∨ v ∈ ops.vars
  | .nil => by simp [padOps, Ops.vars]
  | .cons s n r => by
    intro v hv
    simp only [padOps, Ops.vars, List.mem_append] at hv ⊢
    rcases hv with hv | hv
    · rcases padTerm_vars _ _ _ v hv with h | h
      · exact Or.inl h
      · exact Or.inr (Or.inl h)
    · rcases padOps_vars h vars m r v hv with h | h
      · exact Or.inl h
      · exact Or.inr (Or.inr h)

/-- Homogenizing brings in the homogenizing variable only. -/
theorem hom_vars {g : List Var} {h : Var} (n : Node) : ∀ n', hom cur g h n = some n' →
    ∀ v ∈ n'.vars, v = h ∨ v ∈ n.vars := by
  induction n using Node.rec (motive_2 := fun ops => ∀ ops', homOps cur g h ops = some ops' →
    ∀ v ∈ ops'.vars, v = h ∨ v ∈ ops.vars) with
  | nil ops' h' v hv => simp only [homOps, Option.some.injEq] at h'; subst h'; exact Or.inr hv
  | cons s n r ih1 ih2 ops' h' v hv =>
    simp only [homOps, Option.bind_eq_bind, Option.bind_eq_some_iff, Option.some.injEq] at h'
    obtain ⟨n', e1, r', e2, rfl⟩ := h'
    simp only [Ops.vars, List.mem_append] at hv ⊢
    rcases hv with hv | hv
    · rcases ih1 _ e1 v hv with h | h
      · exact Or.inl h
      · exact Or.inr (Or.inl h)
    · rcases ih2 _ e2 v hv with h | h
      · exact Or.inl h
      · exact Or.inr (Or.inr h)
  | sum ops ih =>
    intro n' h'
    simp only [hom, Option.bind_eq_bind, Option.bind_eq_some_iff] at h'
    obtain ⟨ops', e1, h'⟩ := h'
    split at h'
    · simp only [Option.some.injEq] at h'
      subst h'
      intro v hv
      rcases padOps_vars _ _ _ _ v (by simpa only [Node.vars] using hv) with h | h
      · exact Or.inl h
      · simpa only [Node.vars] using ih _ e1 v h
    · simp at h'
  | pow b e ih1 ih2 =>
    intro n' h'
    simp only [hom] at h'
    split at h'
    · simp only [Option.bind_eq_bind, Option.bind_eq_some_iff, Option.some.injEq] at h'
      obtain ⟨b', e1, rfl⟩ := h'
      intro v hv
      simp only [Node.vars, List.mem_append] at hv ⊢
      rcases hv with hv | hv
      · rcases ih1 _ e1 v hv with h | h
        · exact Or.inl h
        · exact Or.inr (Or.inl h)
      · exact Or.inr (Or.inr hv)
    · simp at h'
  | int | float | rat | special | var =>
    intro n' h'
    simp only [hom, Option.some.injEq] at h'
    subst h'
    exact fun v hv => Or.inr hv
  | _ =>
    rename_i n ih
    intro n' h'
    simp only [hom, Option.bind_eq_bind, Option.bind_eq_some_iff, Option.some.injEq] at h'
    obtain ⟨b', e1, rfl⟩ := h'
    intro v hv
    simpa only [Node.vars] using ih _ e1 v (by simpa only [Node.vars] using hv)

end B2
