import Verif.Tree.HomProof2

/-!
# Homogenizing again

Helper lemmas for the second call of `System::Homogenize` and for homogenization with respect to
several groups.
-/

set_option linter.unnecessarySimpa false
set_option linter.unusedSimpArgs false

namespace B2

open Classical

variable {cur : Env} {vars : List Var} {h : Var}

mutual
/-- No sum anywhere in the tree, and no general power whose exponent has, at the current values,
a negative real part. -/
def SumFree (cur : Env) : Node → Prop
  | .sum _ => False
  | .mult ops => SumFreeOps cur ops
  | .pow b e => SumFree cur b ∧ SumFree cur e ∧ 0 ≤ (eval cur e).re
  | .neg n | .ipow n _ | .sqrt n | .exp n | .log n | .sin n | .cos n | .tan n
  | .asin n | .acos n | .atan n | .fn n => SumFree cur n
  | _ => True
/-- The same for all operands. -/
def SumFreeOps (cur : Env) : Ops → Prop
  | .nil => True
  | .cons _ n r => SumFree cur n ∧ SumFreeOps cur r
end

mutual
/-- Negations, powers and elementary functions are applied to sum-free trees only. -/
def Expanded (cur : Env) : Node → Prop
  | .sum ops | .mult ops => ExpandedOps cur ops
  | .fn n => Expanded cur n
  | .pow b e => SumFree cur b ∧ SumFree cur e ∧ 0 ≤ (eval cur e).re
  | .neg n | .ipow n _ | .sqrt n | .exp n | .log n | .sin n | .cos n | .tan n
  | .asin n | .acos n | .atan n => SumFree cur n
  | _ => True
/-- The same for all operands. -/
def ExpandedOps (cur : Env) : Ops → Prop
  | .nil => True
  | .cons _ n r => Expanded cur n ∧ ExpandedOps cur r
end

mutual
/-- The tree is left as it is by `Homogenize(vars, ·)`. -/
def Unpadded (cur : Env) (vars : List Var) : Node → Prop
  | .int _ | .float _ _ | .rat _ _ | .special _ | .var _ => True
  | .sum ops => UnpaddedOps cur vars ops ∧ allNonneg cur vars ops ∧
      allDegreesEq cur vars (maxDeg cur vars ops) ops
  | .mult ops => UnpaddedOps cur vars ops
  | .pow b e => degG cur vars e = 0 ∧ Unpadded cur vars b
  | .neg n | .ipow n _ | .sqrt n | .exp n | .log n | .sin n | .cos n | .tan n
  | .asin n | .acos n | .atan n | .fn n => Unpadded cur vars n
/-- The same for all operands. -/
def UnpaddedOps (cur : Env) (vars : List Var) : Ops → Prop
  | .nil => True
  | .cons _ n r => Unpadded cur vars n ∧ UnpaddedOps cur vars r
end

theorem padOps_of_eq {D : ℤ} (ops : Ops) (hd : allDegreesEq cur vars D ops) :
    padOps cur vars h D ops = ops := by
  induction ops using Ops.rec (motive_1 := fun _ => True) with
  | nil => rfl
  | cons s n r _ ih => simp [padOps, hd.1, padTerm, ih hd.2]
  | _ => trivial

theorem hom_of_stable (n : Node) : Unpadded cur vars n → hom cur vars h n = some n := by
  induction n using Node.rec (motive_2 := fun ops => UnpaddedOps cur vars ops →
    homOps cur vars h ops = some ops) with
  | nil => rfl
  | cons s n r ih1 ih2 hs => simp [homOps, ih1 hs.1, ih2 hs.2]
  | sum ops ih =>
    rintro ⟨h1, h2, h3⟩
    simp only [hom, ih h1, Option.bind_eq_bind, Option.bind_some, if_pos h2, padOps_of_eq _ h3]
  | mult ops ih => intro hs; simp [hom, ih hs]
  | pow b e ihb _ => rintro ⟨h1, h2⟩; simp [hom, h1, ihb h2]
  | int | float | rat | special | var => intro _; rfl
  | ipow n k ih => intro hs; simp [hom, ih hs]
  | _ n ih => intro hs; simp [hom, ih hs]

theorem hom_sumFree (n : Node) : ∀ n', SumFree cur n → hom cur vars h n = some n' → n' = n := by
  induction n using Node.rec (motive_2 := fun ops => ∀ ops', SumFreeOps cur ops →
    homOps cur vars h ops = some ops' → ops' = ops) with
  | nil ops' _ ho => simpa [homOps] using ho.symm
  | cons s n r ih1 ih2 ops' hs ho =>
    simp only [homOps, Option.bind_eq_bind, Option.bind_eq_some_iff, Option.some.injEq] at ho
    obtain ⟨n', hn, r', hr, rfl⟩ := ho
    rw [ih1 n' hs.1 hn, ih2 r' hs.2 hr]
  | sum ops ih => intro n' hs; exact absurd hs id
  | mult ops ih =>
    intro n' hs ho
    simp only [hom, Option.bind_eq_bind, Option.bind_eq_some_iff, Option.some.injEq] at ho
    obtain ⟨ops', ho1, rfl⟩ := ho
    rw [ih ops' hs ho1]
  | pow b e ihb _ =>
    intro n' hs ho
    simp only [hom] at ho
    split_ifs at ho
    simp only [Option.bind_eq_bind, Option.bind_eq_some_iff, Option.some.injEq] at ho
    obtain ⟨b', hb, rfl⟩ := ho
    rw [ihb b' hs.1 hb]
  | int | float | rat | special | var =>
    intro n' _ ho
    simpa [hom] using ho.symm
  | ipow n k ih =>
    intro n' hs ho
    simp only [hom, Option.bind_eq_bind, Option.bind_eq_some_iff, Option.some.injEq] at ho
    obtain ⟨m, hm, rfl⟩ := ho
    rw [ih m hs hm]
  | _ n ih =>
    intro n' hs ho
    simp only [hom, Option.bind_eq_bind, Option.bind_eq_some_iff, Option.some.injEq] at ho
    obtain ⟨m, hm, rfl⟩ := ho
    rw [ih m hs hm]

theorem powDeg_zero {z : ℂ} (hz : 0 ≤ z.re) : powDeg 0 0 z = 0 := by
  unfold powDeg
  split_ifs <;> first | rfl | linarith | simp_all

/-- A variable not occurring in a sum-free tree has degree zero in it. -/
theorem degV_absent (n : Node) : SumFree cur n → h ∉ n.vars → degV cur h n = 0 := by
  induction n using Node.rec (motive_2 := fun ops => SumFreeOps cur ops → h ∉ ops.vars →
    degVMult cur h ops = 0) with
  | nil => simp [degVMult]
  | cons s n r ih1 ih2 hs hv =>
    simp only [Ops.vars, List.mem_append, not_or] at hv
    simp [degVMult, ih1 hs.1 hv.1, ih2 hs.2 hv.2]
  | sum ops ih => intro hs; exact absurd hs id
  | mult ops ih => intro hs hv; exact ih hs hv
  | pow b e ihb ihe =>
    intro hs hv
    simp only [Node.vars, List.mem_append, not_or] at hv
    simp only [degV, ihb hs.1 hv.1, ihe hs.2.1 hv.2, powDeg_zero hs.2.2]
  | int | float | rat | special => intro _ _; rfl
  | var w =>
    intro _ hv
    simp only [Node.vars, List.mem_singleton] at hv
    simp [degV, Ne.symm hv]
  | neg n ih => intro hs hv; exact ih hs hv
  | fn n ih => intro hs hv; exact ih hs hv
  | ipow n k ih => intro hs hv; simp [degV, ih hs hv]
  | _ n ih => intro hs hv; simp [degV, ih hs hv, transDeg]

theorem foldUnary_zero_cons (l : List ℤ) : foldUnary (0 :: l) = foldUnary l := by
  simp [foldUnary]

theorem foldPow_zero_cons (l : List ℤ) : foldPow (0 :: l) = foldPow l := by
  simp [foldPow]

/-- Group degrees are not changed by adding an absent variable to the group. -/
theorem degG_absent (n : Node) : SumFree cur n → h ∉ n.vars →
    degG cur (h :: vars) n = degG cur vars n := by
  induction n using Node.rec (motive_2 := fun ops => SumFreeOps cur ops → h ∉ ops.vars →
    degGMult cur (h :: vars) ops = degGMult cur vars ops) with
  | nil => simp [degGMult]
  | cons s n r ih1 ih2 hs hv =>
    simp only [Ops.vars, List.mem_append, not_or] at hv
    simp only [degGMult, ih1 hs.1 hv.1, ih2 hs.2 hv.2]
  | sum ops ih => intro hs; exact absurd hs id
  | mult ops ih => intro hs hv; exact ih hs hv
  | pow b e _ _ =>
    intro hs hv
    simp only [degG, List.map_cons, degV_absent (.pow b e) hs hv, foldPow_zero_cons]
  | int | float | rat | special => intro _ _; rfl
  | var w =>
    intro _ hv
    simp only [Node.vars, List.mem_singleton] at hv
    simp [degG, Ne.symm hv]
  | fn n ih => intro hs hv; exact ih hs hv
  | neg n _ => intro hs hv; simp only [degG, List.map_cons, degV_absent (.neg n) hs hv, foldUnary_zero_cons]
  | ipow n k _ =>
    intro hs hv
    simp only [degG, List.map_cons, degV_absent (.ipow n k) hs hv, foldUnary_zero_cons]
  | sqrt n _ => intro hs hv; simp only [degG, List.map_cons, degV_absent (.sqrt n) hs hv, foldUnary_zero_cons]
  | exp n _ => intro hs hv; simp only [degG, List.map_cons, degV_absent (.exp n) hs hv, foldUnary_zero_cons]
  | log n _ => intro hs hv; simp only [degG, List.map_cons, degV_absent (.log n) hs hv, foldUnary_zero_cons]
  | sin n _ => intro hs hv; simp only [degG, List.map_cons, degV_absent (.sin n) hs hv, foldUnary_zero_cons]
  | cos n _ => intro hs hv; simp only [degG, List.map_cons, degV_absent (.cos n) hs hv, foldUnary_zero_cons]
  | tan n _ => intro hs hv; simp only [degG, List.map_cons, degV_absent (.tan n) hs hv, foldUnary_zero_cons]
  | asin n _ => intro hs hv; simp only [degG, List.map_cons, degV_absent (.asin n) hs hv, foldUnary_zero_cons]
  | acos n _ => intro hs hv; simp only [degG, List.map_cons, degV_absent (.acos n) hs hv, foldUnary_zero_cons]
  | atan n _ => intro hs hv; simp only [degG, List.map_cons, degV_absent (.atan n) hs hv, foldUnary_zero_cons]

theorem sumFree_stable (n : Node) : ∀ n', SumFree cur n → h ∉ n.vars →
    hom cur vars h n = some n' → Unpadded cur (h :: vars) n := by
  induction n using Node.rec (motive_2 := fun ops => ∀ ops', SumFreeOps cur ops → h ∉ ops.vars →
    homOps cur vars h ops = some ops' → UnpaddedOps cur (h :: vars) ops) with
  | nil => trivial
  | cons s n r ih1 ih2 ops' hs hv ho =>
    simp only [homOps, Option.bind_eq_bind, Option.bind_eq_some_iff, Option.some.injEq] at ho
    obtain ⟨n', hn, r', hr, rfl⟩ := ho
    simp only [Ops.vars, List.mem_append, not_or] at hv
    exact ⟨ih1 n' hs.1 hv.1 hn, ih2 r' hs.2 hv.2 hr⟩
  | sum ops ih => intro n' hs; exact absurd hs id
  | mult ops ih =>
    intro n' hs hv ho
    simp only [hom, Option.bind_eq_bind, Option.bind_eq_some_iff, Option.some.injEq] at ho
    obtain ⟨ops', ho1, rfl⟩ := ho
    exact ih ops' hs hv ho1
  | pow b e ihb _ =>
    intro n' hs hv ho
    simp only [hom] at ho
    split_ifs at ho with he
    simp only [Option.bind_eq_bind, Option.bind_eq_some_iff, Option.some.injEq] at ho
    obtain ⟨b', hb, rfl⟩ := ho
    simp only [Node.vars, List.mem_append, not_or] at hv
    exact ⟨by rw [degG_absent e hs.2.1 hv.2, he], ihb b' hs.1 hv.1 hb⟩
  | int | float | rat | special | var => intro _ _ _ _; trivial
  | ipow n k ih =>
    intro n' hs hv ho
    simp only [hom, Option.bind_eq_bind, Option.bind_eq_some_iff, Option.some.injEq] at ho
    obtain ⟨m, hm, rfl⟩ := ho
    exact ih m hs hv hm
  | _ n ih =>
    intro n' hs hv ho
    simp only [hom, Option.bind_eq_bind, Option.bind_eq_some_iff, Option.some.injEq] at ho
    obtain ⟨m, hm, rfl⟩ := ho
    exact ih m hs hv hm

/-! ### After homogenizing with respect to a group -/

theorem stable_padTerm {u : List Var} {d : ℤ} {n : Node} (hs : Unpadded cur u n) :
    Unpadded cur u (padTerm h d n) := by
  unfold padTerm
  split_ifs <;> simp [Unpadded, UnpaddedOps, hs]

theorem degG_padTerm_cons {d D : ℤ} {n : Node} (hh : h ∉ vars) (h0 : 0 ≤ degG cur (h :: vars) n)
    (hd : degG cur (h :: vars) n = D - d) (hd0 : 0 ≤ d) :
    degG cur (h :: vars) (padTerm h d n) = D := by
  have hip : degG cur (h :: vars) (.ipow (.var h) d) = d := by
    simp only [degG, degV]
    rw [foldUnary_of_nonneg]
    · simp only [List.map_cons, List.sum_cons]
      rw [sum_map_zero (fun v hv => by
        have : h ≠ v := fun e => hh (e ▸ hv)
        simp [this])]
      simp
    · intro x hx
      obtain ⟨v, _, rfl⟩ := List.mem_map.1 hx
      by_cases e : h = v <;> simp [e, hd0]
  unfold padTerm
  split_ifs with h1 h2
  · simp only [degG, degGMult, List.mem_cons_self, if_true]
    simp only [hd, Bool.true_eq_false, and_false, if_false]
    rw [hd] at h0
    split_ifs <;> omega
  · have hk : degG cur (h :: vars) (.ipow (.var h) d) = d := hip
    show degGMult cur (h :: vars) _ = D
    simp only [degGMult, hk]
    simp only [hd, Bool.true_eq_false, and_false, if_false]
    rw [hd] at h0
    split_ifs <;> omega
  · omega

theorem degGSum_allEq_eq {u : List Var} {D : ℤ} (hD : 0 ≤ D) : ∀ (ops : Ops), ops ≠ .nil →
    allDegreesEq cur u D ops → degGSum cur u ops = D ∧ maxDeg cur u ops = D ∧ allNonneg cur u ops := by
  intro ops
  induction ops using Ops.rec (motive_1 := fun _ => True) with
  | nil => intro hn; exact absurd rfl hn
  | cons s n r _ ih =>
    rintro _ ⟨h1, h2⟩
    cases r with
    | nil => simp [degGSum, maxDeg, allNonneg, h1, hD]
    | cons s' n' r' =>
      obtain ⟨h3, h4, h5⟩ := ih (by simp) h2
      refine ⟨?_, ?_, ?_⟩
      · rw [degGSum, h3, h1]; simp [hD]
      · rw [maxDeg, h4, h1]; simp
      · exact ⟨h1 ▸ hD, h5⟩
  | _ => trivial

mutual
/-- All operands of the list have the same degree in the two groups. -/
def SameDeg (cur : Env) (u u' : List Var) : Ops → Prop
  | .nil => True
  | .cons _ n r => degG cur u n = degG cur u' n ∧ SameDeg cur u u' r
end

theorem padOps_allEq {D : ℤ} (hh : h ∉ vars) : ∀ (ops : Ops), SameDeg cur (h :: vars) vars ops →
    allNonneg cur vars ops → maxDeg cur vars ops ≤ D →
    allDegreesEq cur (h :: vars) D (padOps cur vars h D ops) := by
  intro ops
  induction ops using Ops.rec (motive_1 := fun _ => True) with
  | nil => intros; trivial
  | cons s n r _ ih =>
    rintro ⟨h1, h2⟩ ⟨h3, h4⟩ h5
    simp only [maxDeg] at h5
    refine ⟨degG_padTerm_cons hh (h1 ▸ h3) ?_ ?_, ih h2 h4 ?_⟩ <;> omega
  | _ => trivial

theorem padOps_stable {u : List Var} {D : ℤ} : ∀ (ops : Ops), UnpaddedOps cur u ops →
    UnpaddedOps cur u (padOps cur vars h D ops) := by
  intro ops
  induction ops using Ops.rec (motive_1 := fun _ => True) with
  | nil => intros; trivial
  | cons s n r _ ih => intro hs; exact ⟨stable_padTerm hs.1, ih hs.2⟩
  | _ => trivial

theorem padOps_ne_nil {D : ℤ} {ops : Ops} (hn : ops ≠ .nil) : padOps cur vars h D ops ≠ .nil := by
  cases ops <;> simp_all [padOps]

/-- After homogenizing, nothing is left to do for the group with the homogenizing variable, and
degrees are as before. -/
theorem hom_stable (hh : h ∉ vars) (n : Node) : ∀ n', Expanded cur n → h ∉ n.vars →
    hom cur vars h n = some n' →
    Unpadded cur (h :: vars) n' ∧ degG cur (h :: vars) n' = degG cur vars n' := by
  induction n using Node.rec (motive_2 := fun ops => ∀ ops', ExpandedOps cur ops → h ∉ ops.vars →
    homOps cur vars h ops = some ops' →
    UnpaddedOps cur (h :: vars) ops' ∧ SameDeg cur (h :: vars) vars ops' ∧
      degGMult cur (h :: vars) ops' = degGMult cur vars ops') with
  | nil ops' _ _ ho =>
    simp only [homOps, Option.some.injEq] at ho
    subst ho
    exact ⟨trivial, trivial, rfl⟩
  | cons s n r ih1 ih2 ops' hs hv ho =>
    simp only [homOps, Option.bind_eq_bind, Option.bind_eq_some_iff, Option.some.injEq] at ho
    obtain ⟨n', hn, r', hr, rfl⟩ := ho
    simp only [Ops.vars, List.mem_append, not_or] at hv
    obtain ⟨a1, a2⟩ := ih1 n' hs.1 hv.1 hn
    obtain ⟨b1, b2, b3⟩ := ih2 r' hs.2 hv.2 hr
    exact ⟨⟨a1, b1⟩, ⟨a2, b2⟩, by simp only [degGMult, a2, b3]⟩
  | sum ops ih =>
    intro n' hs hv ho
    simp only [hom, Option.bind_eq_bind, Option.bind_eq_some_iff] at ho
    obtain ⟨ops', ho1, ho2⟩ := ho
    split_ifs at ho2 with hnn
    simp only [Option.some.injEq] at ho2
    subst ho2
    obtain ⟨a1, a2, _⟩ := ih ops' hs hv ho1
    obtain ⟨m1, m2⟩ := maxDeg_eq_degGSum ops' hnn
    have key := padOps_allEq hh ops' a2 hnn (le_refl (maxDeg cur vars ops'))
    have e1 : degGSum cur vars (padOps cur vars h (maxDeg cur vars ops') ops') =
        maxDeg cur vars ops' := by rw [(padOps_degrees hh _ ops').2, m1]
    by_cases hne : ops' = .nil
    · subst hne
      exact ⟨⟨trivial, trivial, trivial⟩, rfl⟩
    · obtain ⟨k1, k2, k3⟩ := degGSum_allEq_eq m2 _ (padOps_ne_nil hne) key
      refine ⟨⟨padOps_stable _ a1, k3, by rw [k2]; exact key⟩, ?_⟩
      simp only [degG]
      rw [k1, e1]
  | mult ops ih =>
    intro n' hs hv ho
    simp only [hom, Option.bind_eq_bind, Option.bind_eq_some_iff, Option.some.injEq] at ho
    obtain ⟨ops', ho1, rfl⟩ := ho
    obtain ⟨a1, _, a3⟩ := ih ops' hs hv ho1
    exact ⟨a1, a3⟩
  | fn n ih =>
    intro n' hs hv ho
    simp only [hom, Option.bind_eq_bind, Option.bind_eq_some_iff, Option.some.injEq] at ho
    obtain ⟨m, hm, rfl⟩ := ho
    exact ih m hs hv hm
  | _ =>
    intro n' hs hv ho
    have hsf := hs
    have e := hom_sumFree _ n' (by simpa only [Expanded, SumFree] using hsf) ho
    subst e
    exact ⟨sumFree_stable _ _ (by simpa only [Expanded, SumFree] using hsf) hv ho,
      degG_absent _ (by simpa only [Expanded, SumFree] using hsf) hv⟩

/-! ### Effect on other groups -/

/-- Operand lists that look the same to a group: same degrees one by one. -/
def SameDegs (cur : Env) (u : List Var) : Ops → Ops → Prop
  | .nil, .nil => True
  | .cons s n r, .cons s' n' r' => s = s' ∧ degG cur u n = degG cur u n' ∧ SameDegs cur u r r'
  | _, _ => False

theorem SameDegs.trans {u : List Var} : ∀ {a b c : Ops}, SameDegs cur u a b → SameDegs cur u b c →
    SameDegs cur u a c := by
  intro a
  induction a using Ops.rec (motive_1 := fun _ => True) with
  | nil => intro b c h1 h2; cases b <;> cases c <;> simp_all [SameDegs]
  | cons s n r _ ih =>
    intro b c h1 h2
    cases b with
    | nil => exact absurd h1 id
    | cons s' n' r' =>
      cases c with
      | nil => exact absurd h2 id
      | cons s'' n'' r'' =>
        exact ⟨h1.1.trans h2.1, h1.2.1.trans h2.2.1, ih h1.2.2 h2.2.2⟩
  | _ => trivial

theorem sameDegs_spec {u : List Var} : ∀ {a b : Ops}, SameDegs cur u a b →
    degGSum cur u b = degGSum cur u a ∧ degGMult cur u b = degGMult cur u a ∧
    maxDeg cur u b = maxDeg cur u a ∧ (allNonneg cur u a → allNonneg cur u b) ∧
    (∀ D, allDegreesEq cur u D a → allDegreesEq cur u D b) ∧
    (sumDegreesAgree cur u a → sumDegreesAgree cur u b) := by
  intro a
  induction a using Ops.rec (motive_1 := fun _ => True) with
  | nil => intro b hb; cases b <;> simp_all [SameDegs]
  | cons s n r _ ih =>
    intro b hb
    cases b with
    | nil => exact absurd hb id
    | cons s' n' r' =>
      obtain ⟨rfl, h1, h2⟩ := hb
      obtain ⟨i1, i2, i3, i4, i5, i6⟩ := ih h2
      refine ⟨?_, ?_, ?_, ?_, ?_, ?_⟩
      · simp only [degGSum, h1, i1]
      · simp only [degGMult, h1, i2]
      · simp only [maxDeg, h1, i3]
      · rintro ⟨a, b⟩; exact ⟨h1 ▸ a, i4 b⟩
      · rintro D ⟨a, b⟩; exact ⟨h1 ▸ a, i5 D b⟩
      · rintro ⟨a, b⟩; exact ⟨h1 ▸ a, h1 ▸ i5 _ b⟩
  | _ => trivial

theorem expanded_padTerm {d : ℤ} {n : Node} (he : Expanded cur n) : Expanded cur (padTerm h d n) := by
  unfold padTerm
  split_ifs <;> simp [Expanded, ExpandedOps, SumFree, he]

theorem isHom_padTerm {u : List Var} {d : ℤ} {n : Node} (he : isHom cur u n) :
    isHom cur u (padTerm h d n) := by
  unfold padTerm
  split_ifs <;> simp [isHom, isHomOps, he]

theorem vars_padTerm {d : ℤ} {n : Node} {v : Var} (hv : v ∈ (padTerm h d n).vars) :
    v = h ∨ v ∈ n.vars := by
  unfold padTerm at hv
  split_ifs at hv <;> simp_all [Node.vars, Ops.vars]

theorem padOps_other {u : List Var} {D : ℤ} (hu : h ∉ u) : ∀ (ops : Ops),
    SameDegs cur u ops (padOps cur vars h D ops) ∧
    (UnpaddedOps cur u ops → UnpaddedOps cur u (padOps cur vars h D ops)) ∧
    (isHomOps cur u ops → isHomOps cur u (padOps cur vars h D ops)) ∧
    (ExpandedOps cur ops → ExpandedOps cur (padOps cur vars h D ops)) ∧
    ∀ v ∈ (padOps cur vars h D ops).vars, v = h ∨ v ∈ ops.vars := by
  intro ops
  induction ops using Ops.rec (motive_1 := fun _ => True) with
  | nil => exact ⟨trivial, fun _ => trivial, fun _ => trivial, fun _ => trivial, by simp [padOps, Ops.vars]⟩
  | cons s n r _ ih =>
    obtain ⟨i1, i2, i3, i4, i5⟩ := ih
    refine ⟨⟨rfl, (degG_padTerm hu _ _).symm, i1⟩, fun a => ⟨stable_padTerm a.1, i2 a.2⟩,
      fun a => ⟨isHom_padTerm a.1, i3 a.2⟩, fun a => ⟨expanded_padTerm a.1, i4 a.2⟩, ?_⟩
    intro v hv
    simp only [padOps, Ops.vars, List.mem_append] at hv ⊢
    rcases hv with hv | hv
    · rcases vars_padTerm hv with h1 | h1
      · exact Or.inl h1
      · exact Or.inr (Or.inl h1)
    · rcases i5 v hv with h1 | h1
      · exact Or.inl h1
      · exact Or.inr (Or.inr h1)
  | _ => trivial

/-- What homogenizing an expanded tree with respect to one group does to any group `u` without the
homogenizing variable: degrees and homogeneity are kept. -/
theorem hom_other {u : List Var} (hu : h ∉ u) (n : Node) : ∀ n', Expanded cur n →
    hom cur vars h n = some n' →
    degG cur u n' = degG cur u n ∧ (Unpadded cur u n → Unpadded cur u n') ∧
    (isHom cur u n → isHom cur u n') ∧ Expanded cur n' ∧ ∀ v ∈ n'.vars, v = h ∨ v ∈ n.vars := by
  induction n using Node.rec (motive_2 := fun ops => ∀ ops', ExpandedOps cur ops →
    homOps cur vars h ops = some ops' →
    SameDegs cur u ops ops' ∧ (UnpaddedOps cur u ops → UnpaddedOps cur u ops') ∧
    (isHomOps cur u ops → isHomOps cur u ops') ∧ ExpandedOps cur ops' ∧
    ∀ v ∈ ops'.vars, v = h ∨ v ∈ ops.vars) with
  | nil ops' _ ho =>
    simp only [homOps, Option.some.injEq] at ho
    subst ho
    exact ⟨trivial, fun _ => trivial, fun _ => trivial, trivial, by simp [Ops.vars]⟩
  | cons s n r ih1 ih2 ops' hs ho =>
    simp only [homOps, Option.bind_eq_bind, Option.bind_eq_some_iff, Option.some.injEq] at ho
    obtain ⟨n', hn, r', hr, rfl⟩ := ho
    obtain ⟨a1, a2, a3, a4, a5⟩ := ih1 n' hs.1 hn
    obtain ⟨b1, b2, b3, b4, b5⟩ := ih2 r' hs.2 hr
    refine ⟨⟨rfl, a1.symm, b1⟩, fun a => ⟨a2 a.1, b2 a.2⟩, fun a => ⟨a3 a.1, b3 a.2⟩, ⟨a4, b4⟩, ?_⟩
    intro v hv
    simp only [Ops.vars, List.mem_append] at hv ⊢
    rcases hv with hv | hv
    · rcases a5 v hv with h1 | h1
      · exact Or.inl h1
      · exact Or.inr (Or.inl h1)
    · rcases b5 v hv with h1 | h1
      · exact Or.inl h1
      · exact Or.inr (Or.inr h1)
  | sum ops ih =>
    intro n' hs ho
    simp only [hom, Option.bind_eq_bind, Option.bind_eq_some_iff] at ho
    obtain ⟨ops', ho1, ho2⟩ := ho
    split_ifs at ho2 with hnn
    simp only [Option.some.injEq] at ho2
    subst ho2
    obtain ⟨a1, a2, a3, a4, a5⟩ := ih ops' hs ho1
    obtain ⟨b1, b2, b3, b4, b5⟩ := padOps_other (cur := cur) (vars := vars)
      (D := maxDeg cur vars ops') hu ops'
    obtain ⟨c1, _, c3, c4, c5, c6⟩ := sameDegs_spec (a1.trans b1)
    refine ⟨?_, ?_, ?_, b4 a4, ?_⟩
    · simpa only [degG] using c1
    · rintro ⟨d1, d2, d3⟩
      exact ⟨b2 (a2 d1), c4 d2, by rw [c3]; exact c5 _ d3⟩
    · rintro ⟨d1, d2⟩
      exact ⟨b3 (a3 d1), c6 d2⟩
    · intro v hv
      rcases b5 v hv with h1 | h1
      · exact Or.inl h1
      · exact a5 v h1
  | mult ops ih =>
    intro n' hs ho
    simp only [hom, Option.bind_eq_bind, Option.bind_eq_some_iff, Option.some.injEq] at ho
    obtain ⟨ops', ho1, rfl⟩ := ho
    obtain ⟨a1, a2, a3, a4, a5⟩ := ih ops' hs ho1
    obtain ⟨_, c2, _⟩ := sameDegs_spec a1
    exact ⟨by simpa only [degG] using c2, a2, a3, a4, a5⟩
  | fn n ih =>
    intro n' hs ho
    simp only [hom, Option.bind_eq_bind, Option.bind_eq_some_iff, Option.some.injEq] at ho
    obtain ⟨m, hm, rfl⟩ := ho
    exact ih m hs hm
  | _ =>
    intro n' hs ho
    have hsf := hs
    have e := hom_sumFree _ n' (by simpa only [Expanded, SumFree] using hsf) ho
    subst e
    exact ⟨rfl, id, id, hs, fun v hv => Or.inr hv⟩

end B2
