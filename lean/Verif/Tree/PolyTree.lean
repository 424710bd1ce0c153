import Verif.Tree.HomStable
import Verif.Tree.SpecDegree
import Verif.Tree.DegreeProof

/-!
# Polynomials as trees

A syntactic class of expressions: sums and products of numbers, variables, and negations and
non-negative integer powers of monomials, divided at most by constants. Everything the degree and
homogenization code assumes holds for them.
-/

namespace B2

mutual
/-- A product of numbers, variables and non-negative integer powers, divided by constants only. -/
def MonoTree : Node → Prop
  | .int _ | .float _ _ | .rat _ _ | .special _ | .var _ => True
  | .mult ops => MonoOps ops
  | .neg n => MonoTree n
  | .ipow n k => 0 ≤ k ∧ MonoTree n
  | _ => False
/-- The factors. -/
def MonoOps : Ops → Prop
  | .nil => True
  | .cons m n r => MonoTree n ∧ (m = false → n.vars = []) ∧ MonoOps r
end

mutual
/-- Sums and products of monomials and of such sums and products. -/
def PolyTree : Node → Prop
  | .int _ | .float _ _ | .rat _ _ | .special _ | .var _ => True
  | .sum ops => PolySum ops
  | .mult ops => PolyMult ops
  | .fn n => PolyTree n
  | .neg n => MonoTree n
  | .ipow n k => 0 ≤ k ∧ MonoTree n
  | _ => False
/-- The terms of a sum. -/
def PolySum : Ops → Prop
  | .nil => True
  | .cons _ n r => PolyTree n ∧ PolySum r
/-- The factors of a product; what is divided by is constant. -/
def PolyMult : Ops → Prop
  | .nil => True
  | .cons m n r => PolyTree n ∧ (m = false → MonoTree n ∧ n.vars = []) ∧ PolyMult r
end

variable {cur : Env}

theorem mono_sumFree (n : Node) : MonoTree n → SumFree cur n := by
  induction n using Node.rec (motive_2 := fun ops => MonoOps ops → SumFreeOps cur ops) with
  | nil _ => trivial
  | cons s n r ih1 ih2 h => exact ⟨ih1 h.1, ih2 h.2.2⟩
  | mult ops ih => exact ih
  | neg n ih => exact ih
  | ipow n k ih => exact fun h => ih h.2
  | _ => intro h; first | trivial | exact h.elim

theorem mono_absent {v : Var} {n : Node} (hn : MonoTree n) (hv : v ∉ n.vars) : degV cur v n = 0 :=
  degV_absent n (mono_sumFree n hn) hv

theorem mono_nonneg {v : Var} (n : Node) : MonoTree n → 0 ≤ degV cur v n := by
  induction n using Node.rec (motive_2 := fun ops => MonoOps ops → 0 ≤ degVMult cur v ops) with
  | nil _ => simp [degVMult]
  | cons s n r ih1 ih2 h =>
    rw [degVMult_cons_nonneg]
    exact ⟨ih1 h.1, ih2 h.2.2, fun hs => mono_absent h.1 (by simp [h.2.1 hs])⟩
  | mult ops ih => simpa only [MonoTree, degV] using ih
  | neg n ih => simpa only [MonoTree, degV] using ih
  | ipow n k ih =>
    intro h
    have := ih h.2
    simp only [degV]
    rw [if_neg (by omega)]
    exact mul_nonneg h.1 this
  | var w => intro _; simp only [degV]; split_ifs <;> simp
  | _ => intro h; first | exact h.elim | simp [degV]

/-- The group degree of a monomial is the sum of its degrees in the variables of the group. -/
theorem mono_degG {u : List Var} (hu : u.Nodup) (n : Node) : MonoTree n →
    degG cur u n = (u.map fun v => degV cur v n).sum := by
  induction n using Node.rec (motive_2 := fun ops => MonoOps ops →
    degGMult cur u ops = (u.map fun v => degVMult cur v ops).sum) with
  | nil _ => simp [degGMult, degVMult]
  | cons s n r ih1 ih2 h =>
    have e1 := ih1 h.1
    have e2 := ih2 h.2.2
    have n1 : 0 ≤ degG cur u n := by
      rw [e1]
      exact List.sum_nonneg (by simpa using fun v _ => mono_nonneg (cur := cur) (v := v) n h.1)
    have hm : MonoTree (.mult r) := h.2.2
    have n2 : 0 ≤ degGMult cur u r := by
      rw [e2]
      refine List.sum_nonneg ?_
      intro x hx
      obtain ⟨v, _, rfl⟩ := List.mem_map.1 hx
      have := mono_nonneg (cur := cur) (v := v) (.mult r) hm
      simpa only [degV] using this
    have n3 : s = false → degG cur u n = 0 := by
      intro hs
      rw [e1]
      have : (u.map fun v => degV cur v n) = u.map fun _ => 0 :=
        List.map_congr_left fun v _ => mono_absent h.1 (by simp [h.2.1 hs])
      rw [this]; simp
    have e3 : degGMult cur u (.cons s n r) = degG cur u n + degGMult cur u r := by
      simp only [degGMult]
      rw [if_neg (by omega), if_neg (by rintro ⟨a, b⟩; exact a (n3 b)), if_neg (by omega)]
    have e4 : (u.map fun v => degVMult cur v (.cons s n r)) =
        u.map fun v => degV cur v n + degVMult cur v r :=
      List.map_congr_left fun v _ => by
        have : MonoTree (.mult (.cons s n r)) := h
        have := mono_nonneg (cur := cur) (v := v) _ this
        simp only [degV] at this
        exact degVMult_cons_eq this
    rw [e3, e4, List.sum_map_add, e1, e2]
  | mult ops ih => simpa only [MonoTree, degG, degV] using ih
  | neg n ih =>
    intro h
    simp only [degG]
    rw [foldUnary_of_nonneg]
    simpa [degV] using fun v _ => mono_nonneg (cur := cur) (v := v) n h
  | ipow n k ih =>
    intro h
    simp only [degG]
    rw [foldUnary_of_nonneg]
    intro x hx
    obtain ⟨v, _, rfl⟩ := List.mem_map.1 hx
    exact mono_nonneg (cur := cur) (v := v) (.ipow n k) h
  | var w =>
    intro _
    simp only [degG, degV]
    clear * - hu
    induction u with
    | nil => simp
    | cons a u ih =>
      rw [List.nodup_cons] at hu
      have := ih hu.2
      by_cases ha : w = a
      · subst ha
        simp only [List.mem_cons, true_or, if_true, List.map_cons, List.sum_cons] at this ⊢
        rw [← this]
        simp [hu.1]
      · simp only [List.mem_cons, ha, false_or, if_false, List.map_cons, List.sum_cons, zero_add]
        exact this
  | _ => intro h; first | exact h.elim | simp [degG, degV]

theorem mono_degG_nonneg {u : List Var} (hu : u.Nodup) {n : Node} (h : MonoTree n) : 0 ≤ degG cur u n := by
  rw [mono_degG hu n h]
  exact List.sum_nonneg (by simpa using fun v _ => mono_nonneg (cur := cur) (v := v) n h)

theorem mono_isHom {u : List Var} (n : Node) : MonoTree n → isHom cur u n := by
  induction n using Node.rec (motive_2 := fun ops => MonoOps ops → isHomOps cur u ops) with
  | nil _ => trivial
  | cons s n r ih1 ih2 h => exact ⟨ih1 h.1, ih2 h.2.2⟩
  | mult ops ih => exact ih
  | neg n ih => exact ih
  | ipow n k ih => exact fun h => ih h.2
  | _ => intro h; first | trivial | exact h.elim

theorem mono_exact {u : List Var} (hu : u.Nodup) (n : Node) : MonoTree n → ExactUnary cur u n := by
  induction n using Node.rec (motive_2 := fun ops => MonoOps ops → ExactUnaryOps cur u ops) with
  | nil _ => trivial
  | cons s n r ih1 ih2 h => exact ⟨ih1 h.1, ih2 h.2.2⟩
  | mult ops ih => exact ih
  | neg n ih => exact fun h => ⟨ih h, mono_degG hu n h⟩
  | ipow n k ih => exact fun h => ⟨ih h.2, mono_degG hu n h.2⟩
  | _ => intro h; first | trivial | exact h.elim

theorem mono_frozen {env : Env} (n : Node) : MonoTree n → FrozenExponents cur env n := by
  induction n using Node.rec (motive_2 := fun ops => MonoOps ops → FrozenExponentsOps cur env ops) with
  | nil _ => trivial
  | cons s n r ih1 ih2 h => exact ⟨ih1 h.1, ih2 h.2.2⟩
  | mult ops ih => exact ih
  | neg n ih => exact ih
  | ipow n k ih => exact fun h => ih h.2
  | _ => intro h; first | trivial | exact h.elim

/-! ### Polynomials -/

theorem poly_expanded (n : Node) : PolyTree n → Expanded cur n := by
  induction n using Node.rec (motive_2 := fun ops => PolySum ops ∨ PolyMult ops → ExpandedOps cur ops) with
  | nil _ => trivial
  | cons s n r ih1 ih2 h =>
    rcases h with h | h
    · exact ⟨ih1 h.1, ih2 (Or.inl h.2)⟩
    · exact ⟨ih1 h.1, ih2 (Or.inr h.2.2)⟩
  | sum ops ih => exact fun h => ih (Or.inl h)
  | mult ops ih => exact fun h => ih (Or.inr h)
  | neg n _ => exact fun h => mono_sumFree n h
  | ipow n k _ => exact fun h => mono_sumFree n h.2
  | fn n ih => exact ih
  | _ => intro h; first | trivial | exact h.elim

theorem poly_frozen {env : Env} (n : Node) : PolyTree n → FrozenExponents cur env n := by
  induction n using Node.rec (motive_2 := fun ops => PolySum ops ∨ PolyMult ops →
    FrozenExponentsOps cur env ops) with
  | nil _ => trivial
  | cons s n r ih1 ih2 h =>
    rcases h with h | h
    · exact ⟨ih1 h.1, ih2 (Or.inl h.2)⟩
    · exact ⟨ih1 h.1, ih2 (Or.inr h.2.2)⟩
  | sum ops ih => exact fun h => ih (Or.inl h)
  | mult ops ih => exact fun h => ih (Or.inr h)
  | neg n _ => exact fun h => mono_frozen n h
  | ipow n k _ => exact fun h => mono_frozen n h.2
  | fn n ih => exact ih
  | _ => intro h; first | trivial | exact h.elim

theorem poly_exact {u : List Var} (hu : u.Nodup) (n : Node) : PolyTree n → ExactUnary cur u n := by
  induction n using Node.rec (motive_2 := fun ops => PolySum ops ∨ PolyMult ops →
    ExactUnaryOps cur u ops) with
  | nil _ => trivial
  | cons s n r ih1 ih2 h =>
    rcases h with h | h
    · exact ⟨ih1 h.1, ih2 (Or.inl h.2)⟩
    · exact ⟨ih1 h.1, ih2 (Or.inr h.2.2)⟩
  | sum ops ih => exact fun h => ih (Or.inl h)
  | mult ops ih => exact fun h => ih (Or.inr h)
  | neg n _ => exact fun h => ⟨mono_exact hu n h, mono_degG hu n h⟩
  | ipow n k _ => exact fun h => ⟨mono_exact hu n h.2, mono_degG hu n h.2⟩
  | fn n ih => exact ih
  | _ => intro h; first | trivial | exact h.elim

/-- All degrees of a polynomial are non-negative. -/
theorem poly_nonneg {u : List Var} (hu : u.Nodup) (n : Node) : PolyTree n → 0 ≤ degG cur u n := by
  induction n using Node.rec (motive_2 := fun ops =>
    (PolySum ops → 0 ≤ degGSum cur u ops ∧ allNonneg cur u ops) ∧
    (PolyMult ops → 0 ≤ degGMult cur u ops)) with
  | nil => simp [degGSum, degGMult, allNonneg]
  | cons s n r ih1 ih2 =>
    constructor
    · intro h
      have a := ih1 h.1
      have b := ih2.1 h.2
      refine ⟨?_, a, b.2⟩
      simp only [degGSum]
      rw [if_neg (by omega), if_neg (by omega)]
      omega
    · intro h
      have a := ih1 h.1
      have b := ih2.2 h.2.2
      simp only [degGMult]
      rw [if_neg (by omega), if_neg, if_neg (by omega)]
      · omega
      · rintro ⟨h1, h2⟩
        apply h1
        rw [mono_degG hu n (h.2.1 h2).1]
        have : (u.map fun v => degV cur v n) = u.map fun _ => 0 :=
          List.map_congr_left fun v _ => mono_absent (h.2.1 h2).1 (by simp [(h.2.1 h2).2])
        rw [this]; simp
  | sum ops ih => exact fun h => (ih.1 h).1
  | mult ops ih => exact ih.2
  | neg n _ => exact fun h => mono_degG_nonneg (n := .neg n) hu h
  | ipow n k _ => exact fun h => mono_degG_nonneg (n := .ipow n k) hu h
  | var w => intro _; simp only [degG]; split_ifs <;> simp
  | fn n ih => exact ih
  | _ => intro h; first | exact h.elim | simp [degG]

theorem polySum_nonneg {u : List Var} (hu : u.Nodup) : ∀ ops : Ops, PolySum ops → allNonneg cur u ops
  | .nil, _ => trivial
  | .cons _ n r, h => ⟨poly_nonneg hu n h.1, polySum_nonneg hu r h.2⟩

theorem poly_degV {v : Var} {n : Node} (hn : PolyTree n) : 0 ≤ degV cur v n := by
  rw [← degG_singleton]
  exact poly_nonneg (by simp) n hn

theorem poly_padTerm {h : Var} {d : ℤ} {n : Node} (hn : PolyTree n) : PolyTree (padTerm h d n) := by
  unfold padTerm
  split_ifs with h1 h2
  · simp [PolyTree, PolyMult, hn]
  · simp only [PolyTree, PolyMult, MonoTree, hn]
    exact ⟨⟨by omega, trivial⟩, by simp⟩
  · exact hn

/-- Polynomials can be homogenized, and stay polynomials. -/
theorem poly_hom {g : List Var} {h : Var} (hg : g.Nodup) (n : Node) : PolyTree n →
    ∃ n', hom cur g h n = some n' ∧ PolyTree n' := by
  induction n using Node.rec (motive_2 := fun ops =>
    (PolySum ops → ∃ ops', homOps cur g h ops = some ops' ∧ PolySum ops') ∧
    (PolyMult ops → ∃ ops', homOps cur g h ops = some ops' ∧ PolyMult ops')) with
  | nil => exact ⟨fun _ => ⟨_, rfl, trivial⟩, fun _ => ⟨_, rfl, trivial⟩⟩
  | cons s n r ih1 ih2 =>
    constructor
    · intro hp
      obtain ⟨n', e1, p1⟩ := ih1 hp.1
      obtain ⟨r', e2, p2⟩ := ih2.1 hp.2
      exact ⟨.cons s n' r', by simp [homOps, e1, e2], p1, p2⟩
    · intro hp
      obtain ⟨n', e1, p1⟩ := ih1 hp.1
      obtain ⟨r', e2, p2⟩ := ih2.2 hp.2.2
      refine ⟨.cons s n' r', by simp [homOps, e1, e2], p1, fun hs => ?_, p2⟩
      have := hp.2.1 hs
      rw [hom_sumFree n n' (mono_sumFree n this.1) e1]
      exact this
  | sum ops ih =>
    intro hp
    obtain ⟨ops', e, p⟩ := ih.1 hp
    have hpad : ∀ (D : ℤ) (ops : Ops), PolySum ops → PolySum (padOps cur g h D ops) := by
      intro D ops
      induction ops using Ops.rec (motive_1 := fun _ => True) with
      | nil => exact fun _ => trivial
      | cons s n r _ ih => exact fun hp => ⟨poly_padTerm hp.1, ih hp.2⟩
      | _ => trivial
    refine ⟨.sum (padOps cur g h (maxDeg cur g ops') ops'), ?_, hpad _ _ p⟩
    simp only [hom, e, Option.bind_eq_bind, Option.bind_some]
    rw [if_pos (polySum_nonneg hg _ p)]
  | mult ops ih =>
    intro hp
    obtain ⟨ops', e, p⟩ := ih.2 hp
    exact ⟨.mult ops', by simp [hom, e], p⟩
  | fn n ih =>
    intro hp
    obtain ⟨n', e, p⟩ := ih hp
    exact ⟨.fn n', by simp [hom, e], p⟩
  | neg n ih =>
    intro hp
    have hs : ∀ m : Node, MonoTree m → hom cur g h m = some m := by
      intro m
      induction m using Node.rec (motive_2 := fun ops => MonoOps ops → homOps cur g h ops = some ops) with
      | nil _ => rfl
      | cons s n r ih1 ih2 hm => simp [homOps, ih1 hm.1, ih2 hm.2.2]
      | mult ops ih => intro hm; simp [hom, ih hm]
      | neg n ih => intro hm; simp [hom, ih hm]
      | ipow n k ih => intro hm; simp [hom, ih hm.2]
      | _ => intro hm; first | exact hm.elim | simp [hom]
    exact ⟨.neg n, by simp [hom, hs n hp], hp⟩
  | ipow n k ih =>
    intro hp
    have hs : ∀ m : Node, MonoTree m → hom cur g h m = some m := by
      intro m
      induction m using Node.rec (motive_2 := fun ops => MonoOps ops → homOps cur g h ops = some ops) with
      | nil _ => rfl
      | cons s n r ih1 ih2 hm => simp [homOps, ih1 hm.1, ih2 hm.2.2]
      | mult ops ih => intro hm; simp [hom, ih hm]
      | neg n ih => intro hm; simp [hom, ih hm]
      | ipow n k ih => intro hm; simp [hom, ih hm.2]
      | _ => intro hm; first | exact hm.elim | simp [hom]
    exact ⟨.ipow n k, by simp [hom, hs n hp.2], hp⟩
  | _ => intro hp; first | exact hp.elim | exact ⟨_, rfl, trivial⟩

/-- A polynomial that `Homogenize` would leave alone is recognised as homogeneous. -/
theorem poly_isHom {u : List Var} (n : Node) : PolyTree n → Unpadded cur u n → isHom cur u n := by
  induction n using Node.rec (motive_2 := fun ops =>
    (PolySum ops → UnpaddedOps cur u ops → isHomOps cur u ops) ∧
    (PolyMult ops → UnpaddedOps cur u ops → isHomOps cur u ops)) with
  | nil => exact ⟨fun _ _ => trivial, fun _ _ => trivial⟩
  | cons s n r ih1 ih2 =>
    exact ⟨fun h hu => ⟨ih1 h.1 hu.1, ih2.1 h.2 hu.2⟩, fun h hu => ⟨ih1 h.1 hu.1, ih2.2 h.2.2 hu.2⟩⟩
  | sum ops ih =>
    intro h hu
    refine ⟨ih.1 h hu.1, ?_⟩
    have a := hu.2.1
    have b := hu.2.2
    generalize maxDeg cur u ops = D at b
    cases ops with
    | nil => trivial
    | cons s n r => exact ⟨a.1, by rw [b.1]; exact b.2⟩
  | mult ops ih => exact ih.2
  | fn n ih => exact ih
  | neg n _ => exact fun h _ => mono_isHom n h
  | ipow n k _ => exact fun h _ => mono_isHom n h.2
  | _ => intro h _; first | exact h.elim | trivial

end B2
