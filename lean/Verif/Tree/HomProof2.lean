import Verif.Tree.HomProof

/-!
# Homogenization gives homogeneous functions: helper lemmas
-/

namespace B2

variable {cur env : Env} {vars : List Var} {h : Var} {c : ℂ}

theorem agreeOff_scale : AgreeOff vars env (scale c vars env) := by
  intro w hw
  simp [scale, hw]

theorem eval_scale_cons (n : Node) (hn : h ∉ n.vars) :
    eval (scale c (h :: vars) env) n = eval (scale c vars env) n := by
  apply eval_congr
  intro w hw
  have : w ≠ h := fun e => hn (e ▸ hw)
  simp [scale, this]

theorem eval_padTerm_scale (hc : c ≠ 0) {D d : ℤ} {n : Node} (hd : d ≤ D)
    (hn : eval (scale c (h :: vars) env) n = c ^ d * eval env n) :
    eval (scale c (h :: vars) env) (padTerm h (D - d) n) =
      c ^ D * eval env (padTerm h (D - d) n) := by
  have hs : scale c (h :: vars) env h = c * env h := by simp [scale]
  unfold padTerm
  split_ifs with h1 h2
  · simp only [eval, evalMult, if_true, hn, hs, mul_one]
    have : D = d + 1 := by omega
    rw [this, zpow_add_one₀ hc]; ring
  · simp only [eval, evalMult, if_true, hn, hs, mul_one]
    have : D = (D - d) + d := by ring
    conv_rhs => rw [this, zpow_add₀ hc]
    rw [mul_zpow]
    have h3 : D - d + d - d = D - d := by ring
    rw [h3]
    ring
  · rw [hn]
    have : d = D := by omega
    rw [this]

theorem maxDeg_eq_degGSum (ops : Ops) : allNonneg cur vars ops →
    degGSum cur vars ops = maxDeg cur vars ops ∧ 0 ≤ maxDeg cur vars ops := by
  induction ops using Ops.rec (motive_1 := fun _ => True) with
  | nil => simp [degGSum, maxDeg]
  | cons f n r _ ih =>
    rintro ⟨h2, h3⟩
    obtain ⟨h4, h5⟩ := ih h3
    simp only [degGSum, maxDeg, h4]
    rw [if_neg (by omega), if_neg (by omega)]
    exact ⟨rfl, le_max_of_le_right h5⟩
  | _ => trivial

theorem zpow_hom {d k : ℤ} {x y : ℂ} (hx : x = c ^ d * y) :
    x ^ k = c ^ (k * d) * y ^ k := by
  rw [hx, mul_zpow, ← zpow_mul, mul_comm d k]

theorem hom_homogeneous (hv : h ∉ vars) (hc : c ≠ 0) (n : Node) :
    ∀ n', hom cur vars h n = some n' → h ∉ n.vars → FrozenExponents cur env n →
      ExactUnary cur vars n → (∀ v ∈ vars, 0 ≤ degV cur v n) →
      eval (scale c (h :: vars) env) n' = c ^ degG cur vars n * eval env n' := by
  induction n using Node.rec (motive_2 := fun ops => ∀ ops', homOps cur vars h ops = some ops' →
    h ∉ ops.vars → FrozenExponentsOps cur env ops → ExactUnaryOps cur vars ops →
    ((∀ v ∈ vars, 0 ≤ degVSum cur v ops) → ∀ D, maxDeg cur vars ops' ≤ D →
      evalSum (scale c (h :: vars) env) (padOps cur vars h D ops') =
        c ^ D * evalSum env (padOps cur vars h D ops')) ∧
    ((∀ v ∈ vars, 0 ≤ degVMult cur v ops) →
      evalMult (scale c (h :: vars) env) ops' =
        c ^ degGMult cur vars ops * evalMult env ops')) with
  | nil ops' ho hh hf he =>
    simp only [homOps, Option.some.injEq] at ho
    subst ho
    simp [padOps, evalSum, evalMult, degGMult]
  | cons f n r ih1 ih2 ops' ho hh hf he =>
    simp only [homOps, Option.bind_eq_bind, Option.bind_eq_some_iff, Option.some.injEq] at ho
    obtain ⟨n', hn, r', hr, rfl⟩ := ho
    simp only [Ops.vars, List.mem_append, not_or] at hh
    obtain ⟨hf1, hf2⟩ := hf
    obtain ⟨he1, he2⟩ := he
    have h2 := ih2 r' hr hh.2 hf2 he2
    have h1 := ih1 n' hn hh.1 hf1 he1
    have hdeg := (hom_degrees hv n n' hn).2
    constructor
    · intro h0 D hD
      simp only [maxDeg, max_le_iff] at hD
      have h3 := h2.1 (fun v hv' => (degVSum_cons_nonneg.mp (h0 v hv')).2) D hD.2
      have h4 := h1 fun v hv' => (degVSum_cons_nonneg.mp (h0 v hv')).1
      rw [← hdeg] at h4
      have h5 := eval_padTerm_scale hc hD.1 h4
      simp only [padOps, evalSum, h3, h5]
      split_ifs <;> ring
    · intro h0
      have h3 := h2.2 fun v hv' => (degVMult_cons_nonneg.mp (h0 v hv')).2.1
      have h4 := h1 fun v hv' => (degVMult_cons_nonneg.mp (h0 v hv')).1
      obtain ⟨h5, h6⟩ := degGMult_cons_eq h0
      rw [h5, zpow_add₀ hc]
      simp only [evalMult, h3, h4]
      cases f with
      | true => simp; ring
      | false => rw [h6 rfl]; simp; ring
  | sum ops ih =>
    intro n' ho hh hf he h0
    have hdeg := (hom_degrees hv _ n' ho).2
    simp only [hom, Option.bind_eq_bind, Option.bind_eq_some_iff] at ho
    obtain ⟨ops', ho1, ho2⟩ := ho
    split_ifs at ho2 with hnn
    simp only [Option.some.injEq] at ho2
    subst ho2
    simp only [degV] at h0
    have h1 := (ih ops' ho1 hh hf he).1 h0 _ le_rfl
    rw [← hdeg]
    simp only [eval, degG]
    rw [h1, (padOps_degrees hv _ _).2, (maxDeg_eq_degGSum ops' hnn).1]
  | mult ops ih =>
    intro n' ho hh hf he h0
    simp only [hom, Option.bind_eq_bind, Option.bind_eq_some_iff, Option.some.injEq] at ho
    obtain ⟨ops', ho1, rfl⟩ := ho
    simp only [degV] at h0
    simpa only [eval, degG] using (ih ops' ho1 hh hf he).2 h0
  | fn n ih =>
    intro n' ho hh hf he h0
    simp only [hom, Option.bind_eq_bind, Option.bind_eq_some_iff, Option.some.injEq] at ho
    obtain ⟨m, hm, rfl⟩ := ho
    simp only [degV] at h0
    simpa only [eval, degG] using ih m hm hh hf he h0
  | int | float | rat =>
    intro n' ho _ _ _ _
    simp only [hom, Option.some.injEq] at ho
    subst ho
    simp [eval, degG]
  | special s =>
    intro n' ho _ _ _ _
    simp only [hom, Option.some.injEq] at ho
    subst ho
    cases s <;> simp [eval, degG]
  | var w =>
    intro n' ho hh _ _ _
    simp only [hom, Option.some.injEq] at ho
    subst ho
    have hne : ¬ w = h := fun e => hh (by simp [Node.vars, e])
    simp only [eval, degG, scale, List.mem_cons, hne, false_or]
    split_ifs <;> simp
  | neg n ih =>
    intro n' ho hh hf he h0
    simp only [hom, Option.bind_eq_bind, Option.bind_eq_some_iff, Option.some.injEq] at ho
    obtain ⟨m, hm, rfl⟩ := ho
    rw [degG, degG_unary_sum h0]
    simp only [degV] at h0 ⊢
    have h1 := ih m hm hh hf he.1 h0
    rw [he.2] at h1
    simp [eval, h1]
  | ipow n k ih =>
    intro n' ho hh hf he h0
    simp only [hom, Option.bind_eq_bind, Option.bind_eq_some_iff, Option.some.injEq] at ho
    obtain ⟨m, hm, rfl⟩ := ho
    rw [degG, degG_unary_sum h0]
    have hb0 : ∀ v ∈ vars, 0 ≤ degV cur v n := fun v hv' => by
      have := h0 v hv'
      simp only [degV] at this
      split_ifs at this <;> omega
    have h1 := ih m hm hh hf he.1 hb0
    rw [he.2] at h1
    have h2 : (vars.map fun v => degV cur v (.ipow n k)).sum =
        k * (vars.map fun v => degV cur v n).sum := by
      rw [← List.sum_map_mul_left]
      congr 1
      apply List.map_congr_left
      intro v hv'
      have := hb0 v hv'
      simp only [degV]
      rw [if_neg (by omega)]
    rw [h2]
    simp only [eval]
    exact zpow_hom h1
  | pow b e ihb _ =>
    intro n' ho hh hf he h0
    simp only [hom] at ho
    split_ifs at ho
    simp only [Option.bind_eq_bind, Option.bind_eq_some_iff, Option.some.injEq] at ho
    obtain ⟨b', hb, rfl⟩ := ho
    simp only [Node.vars, List.mem_append, not_or] at hh
    obtain ⟨hf1, hf2, hf3, hf4⟩ := hf
    have hed : ∀ v ∈ vars, degV cur v e = 0 := fun v hv' => by
      have := h0 v hv'
      simp only [degV] at this
      exact powDeg_nonneg this
    have hec : eval (scale c (h :: vars) env) e = eval cur e := by
      rw [eval_scale_cons e hh.2, ← hf3]
      exact (joint_poly cur env vars e hf2 fun v hv' => (hed v hv').ge).isConst
        (fun v hv' => (hed v hv').le) _ agreeOff_scale
    have hdeg : ∀ v ∈ vars, degV cur v (.pow b e) = powDeg (degV cur v b) 0 (eval cur e) :=
      fun v hv' => by simp only [degV, hed v hv']
    rw [degG, degG_pow_sum h0]
    by_cases hbz : ∀ v ∈ vars, degV cur v b = 0
    · have h1 := ihb b' hb hh.1 hf1 he.1 fun v hv' => (hbz v hv').ge
      rw [degG_zero b hbz, zpow_zero, one_mul] at h1
      have h2 : ∀ v ∈ vars, degV cur v (.pow b e) = 0 := fun v hv' => by
        have h3 := h0 v hv'
        rw [hdeg v hv', hbz v hv'] at h3 ⊢
        unfold powDeg at h3 ⊢
        split_ifs at h3 ⊢ <;> simp_all
      rw [sum_map_zero h2]
      simp [eval, h1, hec, hf3]
    · push Not at hbz
      obtain ⟨v, hv', hvb⟩ := hbz
      have h3 := h0 v hv'
      rw [hdeg v hv'] at h3
      have hni : NearInt (eval cur e) := by
        by_contra hni
        unfold powDeg at h3
        rw [if_pos rfl, if_neg hni, if_neg hvb] at h3
        omega
      obtain ⟨k, hk⟩ := hf4 hni
      rcases lt_trichotomy k 0 with hk0 | hk0 | hk0
      · rw [powDeg_neg_int hk hk0 hni] at h3
        omega
      · have h4 : ∀ v ∈ vars, degV cur v (.pow b e) = 0 := fun v hv' => by
          rw [hdeg v hv', hk, hk0]
          unfold powDeg
          have h5 := nearInt_int 0
          have h6 : ‖((0 : ℤ) : ℂ) - 0‖ < tol := by simpa using tol_pos
          rw [if_pos rfl, if_pos h5, if_pos h6]
        rw [sum_map_zero h4]
        simp only [eval, hec, hf3, hk, hk0]
        simp
      · have hb0 : ∀ v ∈ vars, 0 ≤ degV cur v b := fun v hv' =>
          (powDeg_int_nonneg hk hk0 hni (by have := h0 v hv'; rwa [hdeg v hv'] at this)).1
        have h1 := ihb b' hb hh.1 hf1 he.1 hb0
        rw [he.2] at h1
        have h2 : (vars.map fun v => degV cur v (.pow b e)).sum =
            k * (vars.map fun v => degV cur v b).sum := by
          rw [← List.sum_map_mul_left]
          congr 1
          apply List.map_congr_left
          intro v hv'
          rw [hdeg v hv', hk, powDeg_int hk0 (hb0 v hv'), mul_comm]
        rw [h2]
        simp only [eval, hec, hf3, hk, Complex.cpow_intCast]
        exact zpow_hom h1
  | _ n ih =>
    intro n' ho hh hf he h0
    simp only [hom, Option.bind_eq_bind, Option.bind_eq_some_iff, Option.some.injEq] at ho
    obtain ⟨m, hm, rfl⟩ := ho
    have hz : ∀ v ∈ vars, degV cur v n = 0 := fun v hv' => by
      have := h0 v hv'
      simp only [degV] at this
      exact transDeg_nonneg.mp this
    have h1 := ih m hm hh hf he fun v hv' => (hz v hv').ge
    rw [degG_zero n hz, zpow_zero, one_mul] at h1
    rw [degG, degG_unary_sum h0, sum_map_zero (f := fun v => degV cur v _) fun v hv' => by
      simp only [degV]; rw [hz v hv']; rfl]
    simp [eval, h1]

/-! ### `IsHomogeneous` -/

theorem degGSum_allEq (d : ℤ) (hd : 0 ≤ d) (ops : Ops) : allDegreesEq cur vars d ops →
    0 ≤ degGSum cur vars ops ∧ degGSum cur vars ops ≤ d := by
  induction ops using Ops.rec (motive_1 := fun _ => True) with
  | nil => simp [degGSum, hd]
  | cons f n r _ ih =>
    rintro ⟨h2, h3⟩
    have h4 := ih h3
    simp only [degGSum]
    split_ifs <;> omega
  | _ => trivial

theorem eval_scale_const (n : Node) (hf : FrozenExponents cur env n)
    (hz : ∀ v ∈ vars, degV cur v n = 0) : eval (scale c vars env) n = eval env n :=
  (joint_poly cur env vars n hf fun v hv => (hz v hv).ge).isConst (fun v hv => (hz v hv).le) _
    agreeOff_scale

theorem sum_eq_zero_of_nonneg {f : Var → ℤ} (hn : ∀ v ∈ vars, 0 ≤ f v)
    (hs : (vars.map f).sum = 0) : ∀ v ∈ vars, f v = 0 := by
  intro v hv
  have h1 := List.single_le_sum (l := vars.map f) (by
    intro x hx
    obtain ⟨w, hw, rfl⟩ := List.mem_map.mp hx
    exact hn w hw) (f v) (List.mem_map_of_mem hv)
  have := hn v hv
  omega

theorem isHom_homogeneous (hc : c ≠ 0) (n : Node) :
    isHom cur vars n → FrozenExponents cur env n →
      ExactUnary cur vars n → (∀ v ∈ vars, 0 ≤ degV cur v n) →
      eval (scale c vars env) n = c ^ degG cur vars n * eval env n := by
  induction n using Node.rec (motive_2 := fun ops => isHomOps cur vars ops →
    FrozenExponentsOps cur env ops → ExactUnaryOps cur vars ops →
    ((∀ v ∈ vars, 0 ≤ degVSum cur v ops) → ∀ d, allDegreesEq cur vars d ops →
      evalSum (scale c vars env) ops = c ^ d * evalSum env ops) ∧
    ((∀ v ∈ vars, 0 ≤ degVMult cur v ops) →
      evalMult (scale c vars env) ops = c ^ degGMult cur vars ops * evalMult env ops)) with
  | nil hi hf he => simp [evalSum, evalMult, degGMult]
  | cons f n r ih1 ih2 hi hf he =>
    obtain ⟨hf1, hf2⟩ := hf
    obtain ⟨he1, he2⟩ := he
    obtain ⟨hi1, hi2⟩ := hi
    have h2 := ih2 hi2 hf2 he2
    have h1 := ih1 hi1 hf1 he1
    constructor
    · rintro h0 d ⟨hd, hr⟩
      have h3 := h2.1 (fun v hv' => (degVSum_cons_nonneg.mp (h0 v hv')).2) d hr
      have h4 := h1 fun v hv' => (degVSum_cons_nonneg.mp (h0 v hv')).1
      rw [hd] at h4
      simp only [evalSum, h3, h4]
      split_ifs <;> ring
    · intro h0
      have h3 := h2.2 fun v hv' => (degVMult_cons_nonneg.mp (h0 v hv')).2.1
      have h4 := h1 fun v hv' => (degVMult_cons_nonneg.mp (h0 v hv')).1
      obtain ⟨h5, h6⟩ := degGMult_cons_eq h0
      rw [h5, zpow_add₀ hc]
      simp only [evalMult, h3, h4]
      cases f with
      | true => simp; ring
      | false => rw [h6 rfl]; simp; ring
  | sum ops ih =>
    intro hi hf he h0
    obtain ⟨hi1, hi2⟩ := hi
    simp only [degV] at h0
    have h1 := (ih hi1 hf he).1 h0
    simp only [eval, degG]
    cases ops with
    | nil => simp [evalSum]
    | cons f n r =>
      obtain ⟨hn, hr⟩ := hi2
      rw [h1 (degG cur vars n) ⟨rfl, hr⟩]
      have h2 := degGSum_allEq _ hn r hr
      have h3 : degGSum cur vars (.cons f n r) = degG cur vars n := by
        simp only [degGSum]
        rw [if_neg (by omega), if_neg (by omega)]
        omega
      rw [h3]
  | mult ops ih =>
    intro hi hf he h0
    simp only [degV] at h0
    simpa only [eval, degG] using (ih hi hf he).2 h0
  | fn n ih =>
    intro hi hf he h0
    simp only [degV] at h0
    simpa only [eval, degG] using ih hi hf he h0
  | int | float | rat => intro _ _ _ _; simp [eval, degG]
  | special s => intro _ _ _ _; cases s <;> simp [eval, degG]
  | var w =>
    intro _ _ _ _
    simp only [eval, degG, scale]
    split_ifs <;> simp
  | ipow n k ih =>
    intro hi hf he h0
    rw [degG, degG_unary_sum h0]
    have hb0 : ∀ v ∈ vars, 0 ≤ degV cur v n := fun v hv' => by
      have := h0 v hv'
      simp only [degV] at this
      split_ifs at this <;> omega
    have h1 := ih hi hf he.1 hb0
    rw [he.2] at h1
    have h2 : (vars.map fun v => degV cur v (.ipow n k)).sum =
        k * (vars.map fun v => degV cur v n).sum := by
      rw [← List.sum_map_mul_left]
      congr 1
      apply List.map_congr_left
      intro v hv'
      have := hb0 v hv'
      simp only [degV]
      rw [if_neg (by omega)]
    rw [h2]
    simp only [eval]
    exact zpow_hom h1
  | pow b e ihb _ =>
    intro hi hf he h0
    obtain ⟨-, hni, hre, hib⟩ := hi
    obtain ⟨hf1, hf2, hf3, hf4⟩ := hf
    have hed : ∀ v ∈ vars, degV cur v e = 0 := fun v hv' => by
      have := h0 v hv'
      simp only [degV] at this
      exact powDeg_nonneg this
    have hec : eval (scale c vars env) e = eval cur e := by
      rw [← hf3]; exact eval_scale_const e hf2 hed
    have hdeg : ∀ v ∈ vars, degV cur v (.pow b e) = powDeg (degV cur v b) 0 (eval cur e) :=
      fun v hv' => by simp only [degV, hed v hv']
    rw [degG, degG_pow_sum h0]
    obtain ⟨k, hk⟩ := hf4 hni
    have hk1 : 0 ≤ k := by
      rw [hk] at hre
      simpa using hre
    rcases hk1.eq_or_lt with hk0 | hk0
    · have h4 : ∀ v ∈ vars, degV cur v (.pow b e) = 0 := fun v hv' => by
        rw [hdeg v hv', hk, ← hk0]
        unfold powDeg
        have h5 := nearInt_int 0
        have h6 : ‖((0 : ℤ) : ℂ) - 0‖ < tol := by simpa using tol_pos
        rw [if_pos rfl, if_pos h5, if_pos h6]
      rw [sum_map_zero h4]
      simp only [eval, hec, hf3, hk, ← hk0]
      simp
    · have hb0 : ∀ v ∈ vars, 0 ≤ degV cur v b := fun v hv' =>
        (powDeg_int_nonneg hk hk0 hni (by have := h0 v hv'; rwa [hdeg v hv'] at this)).1
      have h1 := ihb hib hf1 he.1 hb0
      rw [he.2] at h1
      have h2 : (vars.map fun v => degV cur v (.pow b e)).sum =
          k * (vars.map fun v => degV cur v b).sum := by
        rw [← List.sum_map_mul_left]
        congr 1
        apply List.map_congr_left
        intro v hv'
        rw [hdeg v hv', hk, powDeg_int hk0 (hb0 v hv'), mul_comm]
      rw [h2]
      simp only [eval, hec, hf3, hk, Complex.cpow_intCast]
      exact zpow_hom h1
  | neg n ih =>
    intro hi hf he h0
    rw [degG, degG_unary_sum h0]
    simp only [degV] at h0 ⊢
    have h1 := ih hi hf he.1 h0
    rw [he.2] at h1
    simp only [eval, h1]
    ring
  | _ n ih =>
    intro hi hf he h0
    simp only [isHom] at hi
    have hs := hi
    rw [degG, degG_unary_sum h0] at hs
    rw [hi, zpow_zero, one_mul]
    exact eval_scale_const _ hf (sum_eq_zero_of_nonneg h0 hs)

end B2
