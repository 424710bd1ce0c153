import Verif.Tree.DegreeProof

/-!
# Homogenization: helper lemmas
-/

namespace B2

variable {cur env : Env} {vars : List Var} {h : Var}

/-! ### Degrees: zero and non-negative -/

theorem degVSum_eq_zero_cons {v : Var} {s : Bool} {n : Node} {r : Ops}
    (hz : degVSum cur v (.cons s n r) = 0) : degV cur v n = 0 ∧ degVSum cur v r = 0 := by
  have h1 := degVSum_cons_nonneg.mp hz.ge
  have h2 := degVSum_cons_eq hz.ge
  omega

theorem degVMult_eq_zero_cons {v : Var} {s : Bool} {n : Node} {r : Ops}
    (hz : degVMult cur v (.cons s n r) = 0) : degV cur v n = 0 ∧ degVMult cur v r = 0 := by
  have h1 := degVMult_cons_nonneg.mp hz.ge
  have h2 := degVMult_cons_eq hz.ge
  omega

theorem sum_map_zero {f : Var → ℤ} (hz : ∀ v ∈ vars, f v = 0) : (vars.map f).sum = 0 := by
  apply List.sum_eq_zero
  intro x hx
  obtain ⟨v, hv, rfl⟩ := List.mem_map.mp hx
  exact hz v hv

theorem sum_map_nonneg {f : Var → ℤ} (hz : ∀ v ∈ vars, 0 ≤ f v) : 0 ≤ (vars.map f).sum := by
  apply List.sum_nonneg
  intro x hx
  obtain ⟨v, hv, rfl⟩ := List.mem_map.mp hx
  exact hz v hv

theorem degG_zero (n : Node) :
    (∀ v ∈ vars, degV cur v n = 0) → degG cur vars n = 0 := by
  induction n using Node.rec (motive_2 := fun ops =>
    ((∀ v ∈ vars, degVSum cur v ops = 0) → degGSum cur vars ops = 0) ∧
    ((∀ v ∈ vars, degVMult cur v ops = 0) → degGMult cur vars ops = 0)) with
  | nil => simp [degGSum, degGMult]
  | cons f n r ih1 ih2 =>
    constructor
    · intro hz
      have h1 := ih1 fun v hv => (degVSum_eq_zero_cons (hz v hv)).1
      have h2 := ih2.1 fun v hv => (degVSum_eq_zero_cons (hz v hv)).2
      simp [degGSum, h1, h2]
    · intro hz
      have h1 := ih1 fun v hv => (degVMult_eq_zero_cons (hz v hv)).1
      have h2 := ih2.2 fun v hv => (degVMult_eq_zero_cons (hz v hv)).2
      simp [degGMult, h1, h2]
  | var w =>
    intro hz
    simp only [degG]
    split_ifs with hw
    · have := hz w hw
      simp [degV] at this
    · rfl
  | sum ops ih => intro hz; simp only [degV] at hz; simpa only [degG] using ih.1 hz
  | mult ops ih => intro hz; simp only [degV] at hz; simpa only [degG] using ih.2 hz
  | fn n ih => intro hz; simp only [degV] at hz; simpa only [degG] using ih hz
  | pow b e _ _ =>
    intro hz
    rw [degG, degG_pow_sum fun v hv => (hz v hv).ge]
    exact sum_map_zero hz
  | int | float | rat | special => intro _; simp [degG]
  | _ n _ =>
    intro hz
    rw [degG, degG_unary_sum fun v hv => (hz v hv).ge]
    exact sum_map_zero hz

theorem degG_nonneg (n : Node) :
    (∀ v ∈ vars, 0 ≤ degV cur v n) → 0 ≤ degG cur vars n := by
  induction n using Node.rec (motive_2 := fun ops =>
    ((∀ v ∈ vars, 0 ≤ degVSum cur v ops) → 0 ≤ degGSum cur vars ops) ∧
    ((∀ v ∈ vars, 0 ≤ degVMult cur v ops) → 0 ≤ degGMult cur vars ops)) with
  | nil => simp [degGSum, degGMult]
  | cons f n r ih1 ih2 =>
    constructor
    · intro hz
      have h1 := ih1 fun v hv => (degVSum_cons_nonneg.mp (hz v hv)).1
      have h2 := ih2.1 fun v hv => (degVSum_cons_nonneg.mp (hz v hv)).2
      exact degGSum_nonneg_cons.mpr ⟨h1, h2⟩
    · intro hz
      have h1 := ih1 fun v hv => (degVMult_cons_nonneg.mp (hz v hv)).1
      have h2 := ih2.2 fun v hv => (degVMult_cons_nonneg.mp (hz v hv)).2.1
      have h3 : f = false → degG cur vars n = 0 := fun hf =>
        degG_zero n fun v hv => (degVMult_cons_nonneg.mp (hz v hv)).2.2 hf
      simp only [degGMult]
      rw [if_neg (by omega), if_neg (by rintro ⟨h4, h5⟩; exact h4 (h3 h5)), if_neg (by omega)]
      omega
  | var w => intro _; simp only [degG]; split_ifs <;> simp
  | sum ops ih => intro hz; simp only [degV] at hz; simpa only [degG] using ih.1 hz
  | mult ops ih => intro hz; simp only [degV] at hz; simpa only [degG] using ih.2 hz
  | fn n ih => intro hz; simp only [degV] at hz; simpa only [degG] using ih hz
  | pow b e _ _ =>
    intro hz
    rw [degG, degG_pow_sum fun v hv => hz v hv]
    exact sum_map_nonneg hz
  | int | float | rat | special => intro _; simp [degG]
  | _ n _ =>
    intro hz
    rw [degG, degG_unary_sum fun v hv => hz v hv]
    exact sum_map_nonneg hz

/-- Product of factors with non-negative degrees and degree-0 denominators. -/
theorem degGMult_cons_eq {f : Bool} {n : Node} {r : Ops}
    (hz : ∀ v ∈ vars, 0 ≤ degVMult cur v (.cons f n r)) :
    degGMult cur vars (.cons f n r) = degG cur vars n + degGMult cur vars r ∧
      (f = false → degG cur vars n = 0) := by
  have h1 := degG_nonneg n fun v hv => (degVMult_cons_nonneg.mp (hz v hv)).1
  have h2 : 0 ≤ degG cur vars (.mult r) := degG_nonneg (.mult r) fun v hv => by
    simp only [degV]; exact (degVMult_cons_nonneg.mp (hz v hv)).2.1
  simp only [degG] at h2
  have h3 : f = false → degG cur vars n = 0 := fun hf =>
    degG_zero n fun v hv => (degVMult_cons_nonneg.mp (hz v hv)).2.2 hf
  refine ⟨?_, h3⟩
  simp only [degGMult]
  rw [if_neg (by omega), if_neg (by rintro ⟨h4, h5⟩; exact h4 (h3 h5)), if_neg (by omega)]

/-! ### Evaluation at `h = 1` -/

theorem eval_padTerm (hh : env h = 1) (d : ℤ) (n : Node) :
    eval env (padTerm h d n) = eval env n := by
  unfold padTerm
  split_ifs <;> simp [eval, evalMult, hh]

theorem evalSum_padOps (hh : env h = 1) (D : ℤ) (ops : Ops) :
    evalSum env (padOps cur vars h D ops) = evalSum env ops := by
  induction ops using Ops.rec (motive_1 := fun _ => True) with
  | nil => simp [padOps]
  | cons f n r _ ih => simp [padOps, evalSum, eval_padTerm hh, ih]
  | _ => trivial

theorem eval_hom (hh : env h = 1) (n : Node) :
    ∀ n', hom cur vars h n = some n' → eval env n' = eval env n := by
  induction n using Node.rec (motive_2 := fun ops => ∀ ops', homOps cur vars h ops = some ops' →
    evalSum env ops' = evalSum env ops ∧ evalMult env ops' = evalMult env ops) with
  | nil ops' ho => simp only [homOps, Option.some.injEq] at ho; subst ho; simp
  | cons f n r ih1 ih2 ops' ho =>
    simp only [homOps, Option.bind_eq_bind, Option.bind_eq_some_iff, Option.some.injEq] at ho
    obtain ⟨n', hn, r', hr, rfl⟩ := ho
    simp [evalSum, evalMult, ih1 n' hn, ih2 r' hr]
  | sum ops ih =>
    intro n' ho
    simp only [hom, Option.bind_eq_bind, Option.bind_eq_some_iff] at ho
    obtain ⟨ops', ho1, ho2⟩ := ho
    split_ifs at ho2
    simp only [Option.some.injEq] at ho2
    subst ho2
    simp [eval, evalSum_padOps hh, (ih ops' ho1).1]
  | mult ops ih =>
    intro n' ho
    simp only [hom, Option.bind_eq_bind, Option.bind_eq_some_iff, Option.some.injEq] at ho
    obtain ⟨ops', ho1, rfl⟩ := ho
    simp [eval, (ih ops' ho1).2]
  | pow b e ihb _ =>
    intro n' ho
    simp only [hom] at ho
    split_ifs at ho
    simp only [Option.bind_eq_bind, Option.bind_eq_some_iff, Option.some.injEq] at ho
    obtain ⟨b', hb, rfl⟩ := ho
    simp [eval, ihb b' hb]
  | int | float | rat | special | var =>
    intro n' ho
    simp only [hom, Option.some.injEq] at ho
    subst ho
    rfl
  | ipow n k ih =>
    intro n' ho
    simp only [hom, Option.bind_eq_bind, Option.bind_eq_some_iff, Option.some.injEq] at ho
    obtain ⟨m, hm, rfl⟩ := ho
    simp [eval, ih m hm]
  | _ n ih =>
    intro n' ho
    simp only [hom, Option.bind_eq_bind, Option.bind_eq_some_iff, Option.some.injEq] at ho
    obtain ⟨m, hm, rfl⟩ := ho
    simp [eval, ih m hm]

/-! ### Homogenization does not change degrees in the group -/

theorem degV_padTerm {v : Var} (hv : v ≠ h) (d : ℤ) (n : Node) :
    degV cur v (padTerm h d n) = degV cur v n := by
  have : ¬ h = v := fun e => hv e.symm
  unfold padTerm
  split_ifs
  all_goals simp [degV, degVMult, this]

theorem foldUnary_replicate_zero : ∀ l : List Var, foldUnary (l.map fun _ => 0) = 0 := by
  intro l
  rw [foldUnary_of_nonneg _ (by simp)]
  simp

theorem degG_padTerm (hv : h ∉ vars) (d : ℤ) (n : Node) :
    degG cur vars (padTerm h d n) = degG cur vars n := by
  unfold padTerm
  split_ifs with h1 h2
  · simp only [degG, degGMult, hv, if_false]
    simp
  · have h3 : degG cur vars (.ipow (.var h) d) = 0 := degG_zero _ fun v hv' => by
      have : ¬ h = v := fun e => hv (e ▸ hv')
      simp [degV, this]
    simp only [degG] at h3
    simp only [degG, degGMult, h3]
    simp
  · rfl

theorem padOps_degrees (hv : h ∉ vars) (D : ℤ) (ops : Ops) :
    (∀ v ∈ vars, degVSum cur v (padOps cur vars h D ops) = degVSum cur v ops) ∧
    degGSum cur vars (padOps cur vars h D ops) = degGSum cur vars ops := by
  induction ops using Ops.rec (motive_1 := fun _ => True) with
  | nil => simp [padOps]
  | cons f n r _ ih =>
    constructor
    · intro v hv'
      have hne : v ≠ h := fun e => hv (e ▸ hv')
      simp only [padOps, degVSum, degV_padTerm hne, ih.1 v hv']
    · simp only [padOps, degGSum, degG_padTerm hv, ih.2]
  | _ => trivial

theorem hom_degrees (hv : h ∉ vars) (n : Node) :
    ∀ n', hom cur vars h n = some n' →
      (∀ v ∈ vars, degV cur v n' = degV cur v n) ∧ degG cur vars n' = degG cur vars n := by
  induction n using Node.rec (motive_2 := fun ops => ∀ ops', homOps cur vars h ops = some ops' →
    (∀ v ∈ vars, degVSum cur v ops' = degVSum cur v ops ∧
      degVMult cur v ops' = degVMult cur v ops) ∧
    degGSum cur vars ops' = degGSum cur vars ops ∧
    degGMult cur vars ops' = degGMult cur vars ops) with
  | nil ops' ho => simp only [homOps, Option.some.injEq] at ho; subst ho; simp
  | cons f n r ih1 ih2 ops' ho =>
    simp only [homOps, Option.bind_eq_bind, Option.bind_eq_some_iff, Option.some.injEq] at ho
    obtain ⟨n', hn, r', hr, rfl⟩ := ho
    have h1 := ih1 n' hn
    have h2 := ih2 r' hr
    refine ⟨fun v hv' => ⟨?_, ?_⟩, ?_, ?_⟩
    · simp only [degVSum, h1.1 v hv', (h2.1 v hv').1]
    · simp only [degVMult, h1.1 v hv', (h2.1 v hv').2]
    · simp only [degGSum, h1.2, h2.2.1]
    · simp only [degGMult, h1.2, h2.2.2]
  | sum ops ih =>
    intro n' ho
    simp only [hom, Option.bind_eq_bind, Option.bind_eq_some_iff] at ho
    obtain ⟨ops', ho1, ho2⟩ := ho
    split_ifs at ho2
    simp only [Option.some.injEq] at ho2
    subst ho2
    have h1 := ih ops' ho1
    have h2 := padOps_degrees (cur := cur) hv (maxDeg cur vars ops') ops'
    refine ⟨fun v hv' => ?_, ?_⟩
    · simp only [degV]; rw [h2.1 v hv', (h1.1 v hv').1]
    · simp only [degG]; rw [h2.2, h1.2.1]
  | mult ops ih =>
    intro n' ho
    simp only [hom, Option.bind_eq_bind, Option.bind_eq_some_iff, Option.some.injEq] at ho
    obtain ⟨ops', ho1, rfl⟩ := ho
    have h1 := ih ops' ho1
    refine ⟨fun v hv' => ?_, ?_⟩
    · simp only [degV]; rw [(h1.1 v hv').2]
    · simp only [degG]; rw [h1.2.2]
  | pow b e ihb _ =>
    intro n' ho
    simp only [hom] at ho
    split_ifs at ho
    simp only [Option.bind_eq_bind, Option.bind_eq_some_iff, Option.some.injEq] at ho
    obtain ⟨b', hb, rfl⟩ := ho
    have h1 := ihb b' hb
    have h2 : ∀ v ∈ vars, degV cur v (.pow b' e) = degV cur v (.pow b e) := fun v hv' => by
      simp only [degV, h1.1 v hv']
    exact ⟨h2, by rw [degG, degG, List.map_congr_left h2]⟩
  | fn n ih =>
    intro n' ho
    simp only [hom, Option.bind_eq_bind, Option.bind_eq_some_iff, Option.some.injEq] at ho
    obtain ⟨m, hm, rfl⟩ := ho
    simpa only [degV, degG] using ih m hm
  | int | float | rat | special | var =>
    intro n' ho
    simp only [hom, Option.some.injEq] at ho
    subst ho
    exact ⟨fun _ _ => rfl, rfl⟩
  | ipow n k ih =>
    intro n' ho
    simp only [hom, Option.bind_eq_bind, Option.bind_eq_some_iff, Option.some.injEq] at ho
    obtain ⟨m, hm, rfl⟩ := ho
    have h1 := (ih m hm).1
    refine ⟨fun v hv' => ?_, ?_⟩
    · simp only [degV, h1 v hv']
    · simp only [degG]
      congr 1
      apply List.map_congr_left
      intro v hv'
      simp only [degV, h1 v hv']
  | _ n ih =>
    intro n' ho
    simp only [hom, Option.bind_eq_bind, Option.bind_eq_some_iff, Option.some.injEq] at ho
    obtain ⟨m, hm, rfl⟩ := ho
    have h1 := (ih m hm).1
    refine ⟨fun v hv' => ?_, ?_⟩
    · simp only [degV, h1 v hv']
    · simp only [degG]
      congr 1
      apply List.map_congr_left
      intro v hv'
      simp only [degV, h1 v hv']

end B2
