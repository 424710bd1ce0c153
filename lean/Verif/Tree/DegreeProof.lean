import Verif.Tree.DegreeLemmas
import Verif.Tree.SpecDegree

/-!
# Degrees certify polynomials
-/

namespace B2

theorem tol_pos : 0 < tol := by unfold tol; positivity

theorem tol_lt_half : tol < 1 / 2 := by unfold tol; norm_num

theorem int_of_norm_lt_tol {k : ℤ} (h : ‖(k : ℂ) - 0‖ < tol) : k = 0 := by
  have h1 : ‖(k : ℂ)‖ < 1 := by
    have := tol_lt_half
    rw [sub_zero] at h
    linarith
  rw [Complex.norm_intCast] at h1
  have h2 : |k| < 1 := by exact_mod_cast h1
  rwa [Int.abs_lt_one_iff] at h2

theorem powDeg_int_nonneg {bd : ℤ} {z : ℂ} {k : ℤ} (hz : z = k) (hk : 0 < k) (hn : NearInt z)
    (h : 0 ≤ powDeg bd 0 z) : 0 ≤ bd ∧ powDeg bd 0 z = bd * k := by
  have hne : ¬ ‖z - 0‖ < tol := by
    intro hlt
    rw [hz] at hlt
    exact absurd (int_of_norm_lt_tol hlt) (by omega)
  have hre : z.re = k := by rw [hz]; simp
  have hpos : ¬ z.re < 0 := by
    rw [hre]
    have : (0 : ℝ) < k := by exact_mod_cast hk
    linarith
  have hr : round z.re = k := by rw [hre]; simp
  unfold powDeg at h ⊢
  simp only [if_true, if_pos hn, if_neg hne, if_neg hpos] at h ⊢
  by_cases hb : bd < 0
  · simp [hb] at h
  · rw [if_neg hb, hr]; exact ⟨by omega, rfl⟩

theorem nearInt_int (k : ℤ) : NearInt (k : ℂ) := by
  have := tol_pos
  constructor
  · simpa using this
  · simpa using this

theorem powDeg_int {bd k : ℤ} (hk : 0 < k) (hb : 0 ≤ bd) : powDeg bd 0 (k : ℂ) = bd * k := by
  have hne : ¬ ‖(k : ℂ) - 0‖ < tol := fun hlt => absurd (int_of_norm_lt_tol hlt) (by omega)
  have hpos : ¬ (k : ℂ).re < 0 := by
    have : (0 : ℝ) < k := by exact_mod_cast hk
    simpa using this.le
  unfold powDeg
  rw [if_pos rfl, if_pos (nearInt_int k), if_neg hne, if_neg hpos, if_neg (by omega)]
  simp

theorem powDeg_neg_int {bd : ℤ} {z : ℂ} {k : ℤ} (hz : z = k) (hk : k < 0) (hn : NearInt z) :
    powDeg bd 0 z = -1 := by
  have hne : ¬ ‖z - 0‖ < tol := by
    intro hlt
    rw [hz] at hlt
    exact absurd (int_of_norm_lt_tol hlt) (by omega)
  have hneg : z.re < 0 := by
    rw [hz]; simpa using hk
  unfold powDeg
  rw [if_pos rfl, if_pos hn, if_neg hne, if_pos hneg]

theorem degG_unary_sum {vars : List Var} {dv : Var → ℤ} (h : ∀ v ∈ vars, 0 ≤ dv v) :
    foldUnary (vars.map dv) = (vars.map dv).sum :=
  foldUnary_of_nonneg _ (by simpa using h)

theorem degG_pow_sum {vars : List Var} {dv : Var → ℤ} (h : ∀ v ∈ vars, 0 ≤ dv v) :
    foldPow (vars.map dv) = (vars.map dv).sum :=
  foldPow_of_nonneg _ (by simpa using h)

/-- Transcendental functions of constants. -/
theorem good_trans {vars : List Var} {env : Env} {f : Env → ℂ} {dv : Var → ℤ} {dg dg' : ℤ}
    (F : ℂ → ℂ) (h : Good vars env f dv dg)
    (h0 : ∀ v ∈ vars, 0 ≤ transDeg (dv v)) :
    Good vars env (fun e => F (f e)) (fun v => transDeg (dv v)) dg' := by
  have hc := h.isConst fun v hv => (transDeg_nonneg.mp (h0 v hv)).le
  exact Good.const (F (f env)) (fun env' he => by rw [hc env' he]) h0

theorem good_nil {env : Env} {f : Env → ℂ} {dv : Var → ℤ} {dg : ℤ} : Good [] env f dv dg :=
  Good.const (f env) (fun env' he => by
    have : env' = env := funext fun w => he w (by simp)
    rw [this]) (by simp)

theorem good_pow {vars : List Var} {env : Env} {f g : Env → ℂ} {dv dv' : Var → ℤ}
    {dg dg' : ℤ} {z : ℂ}
    (hb : (∀ v ∈ vars, 0 ≤ dv v) → Good vars env f dv dg)
    (he : (∀ v ∈ vars, 0 ≤ dv' v) → Good vars env g dv' dg')
    (hz : g env = z) (hint : NearInt z → ∃ k : ℤ, z = k)
    (h0 : ∀ v ∈ vars, 0 ≤ powDeg (dv v) (dv' v) z) :
    Good vars env (fun e => f e ^ g e) (fun v => powDeg (dv v) (dv' v) z)
      (vars.map fun v => powDeg (dv v) (dv' v) z).sum := by
  rcases vars.eq_nil_or_concat with rfl | hne
  · exact good_nil
  have hex : ∃ v, v ∈ vars := by
    obtain ⟨l, a, rfl⟩ := hne
    exact ⟨a, by simp⟩
  have hed : ∀ v ∈ vars, dv' v = 0 := fun v hv => powDeg_nonneg (h0 v hv)
  have hc := (he fun v hv => (hed v hv).ge).isConst fun v hv => (hed v hv).le
  have hg : ∀ env', AgreeOff vars env env' → g env' = z := fun env' h => by rw [hc env' h, hz]
  have h0' : ∀ v ∈ vars, 0 ≤ powDeg (dv v) 0 z := fun v hv => by
    have := h0 v hv; rwa [hed v hv] at this
  by_cases hn : NearInt z
  · obtain ⟨k, hk⟩ := hint hn
    rcases lt_trichotomy k 0 with hk0 | hk0 | hk0
    · obtain ⟨v, hv⟩ := hex
      have := h0' v hv
      rw [powDeg_neg_int hk hk0 hn] at this
      omega
    · refine Good.const 1 (fun env' h => ?_) h0
      rw [hg env' h, hk, hk0]
      simp
    · have hb0 : ∀ v ∈ vars, 0 ≤ dv v := fun v hv => (powDeg_int_nonneg hk hk0 hn (h0' v hv)).1
      have hgood := ((hb hb0).pow k.toNat).toSum
      have hk1 : ((k.toNat : ℕ) : ℤ) = k := Int.toNat_of_nonneg hk0.le
      have hdeg : ∀ v ∈ vars, powDeg (dv v) (dv' v) z = k.toNat * dv v := fun v hv => by
        rw [hed v hv, (powDeg_int_nonneg hk hk0 hn (h0' v hv)).2, hk1]; ring
      have hsum : (vars.map fun v => powDeg (dv v) (dv' v) z).sum =
          (vars.map fun v => (k.toNat : ℤ) * dv v).sum := by
        congr 1
        exact List.map_congr_left hdeg
      rw [hsum]
      obtain ⟨p, hp, hd, ht, hf⟩ := hgood
      refine ⟨p, hp, fun v hv => ?_, ht, fun env' h => ?_⟩
      · exact (hd v hv).trans (hdeg v hv).ge
      · rw [← hf env' h]
        dsimp only
        rw [hg env' h, hk, Complex.cpow_intCast, ← zpow_natCast, hk1]
  · have hb0 : ∀ v ∈ vars, dv v = 0 := fun v hv => by
      have := h0' v hv
      unfold powDeg at this
      rw [if_pos rfl, if_neg hn] at this
      by_contra hne
      rw [if_neg hne] at this
      omega
    have hbc := (hb fun v hv => (hb0 v hv).ge).isConst fun v hv => (hb0 v hv).le
    refine Good.const (f env ^ z) (fun env' h => ?_) h0
    rw [hg env' h, hbc env' h]

theorem good_ipow {vars : List Var} {env : Env} {f : Env → ℂ} {dv : Var → ℤ} {dg : ℤ} {k : ℤ}
    (hb : (∀ v ∈ vars, 0 ≤ dv v) → Good vars env f dv dg)
    (h0 : ∀ v ∈ vars, 0 ≤ if dv v < 0 then dv v else k * dv v) :
    Good vars env (fun e => f e ^ k) (fun v => if dv v < 0 then dv v else k * dv v)
      (vars.map fun v => if dv v < 0 then dv v else k * dv v).sum := by
  have hb0 : ∀ v ∈ vars, 0 ≤ dv v := fun v hv => by
    have := h0 v hv
    split_ifs at this <;> omega
  have hdeg : ∀ v ∈ vars, (if dv v < 0 then dv v else k * dv v) = k * dv v := fun v hv => by
    rw [if_neg (by have := hb0 v hv; omega)]
  rcases le_or_gt 0 k with hk | hk
  · obtain ⟨m, rfl⟩ := Int.eq_ofNat_of_zero_le hk
    have hgood := ((hb hb0).pow m).toSum
    rw [List.map_congr_left hdeg]
    obtain ⟨p, hp, hd, ht, hf⟩ := hgood
    refine ⟨p, hp, fun v hv => ?_, ht, fun env' h => ?_⟩
    · exact (hd v hv).trans (hdeg v hv).ge
    · rw [← hf env' h]; exact zpow_natCast _ _
  · have hz : ∀ v ∈ vars, dv v ≤ 0 := fun v hv => by
      have h1 := h0 v hv
      rw [hdeg v hv] at h1
      have h2 := hb0 v hv
      by_contra hlt
      have : k * dv v < 0 := mul_neg_of_neg_of_pos hk (by omega)
      omega
    have hc := (hb hb0).isConst hz
    exact Good.const (f env ^ k) (fun env' h => by rw [hc env' h]) h0

/-- Joint polynomiality: a tree all of whose per-variable degrees are non-negative is a
polynomial in the group with the reported per-variable degrees, and of total degree at most the
reported group degree. -/
theorem joint_poly (cur env : Env) (vars : List Var) (n : Node) :
    FrozenExponents cur env n → (∀ v ∈ vars, 0 ≤ degV cur v n) →
    Good vars env (fun e => eval e n) (fun v => degV cur v n) (degG cur vars n) := by
  induction n using Node.rec (motive_2 := fun ops => FrozenExponentsOps cur env ops →
    ((∀ v ∈ vars, 0 ≤ degVSum cur v ops) →
      Good vars env (fun e => evalSum e ops) (fun v => degVSum cur v ops)
        (degGSum cur vars ops)) ∧
    ((∀ v ∈ vars, 0 ≤ degVMult cur v ops) →
      Good vars env (fun e => evalMult e ops) (fun v => degVMult cur v ops)
        (degGMult cur vars ops))) with
  | nil =>
    exact ⟨fun h => Good.const 0 (fun _ _ => by simp [evalSum]) h,
      fun h => Good.const 1 (fun _ _ => by simp [evalMult]) h⟩
  | cons f n r ih1 ih2 hfr =>
    obtain ⟨hf1, hf2⟩ := hfr
    obtain ⟨ihs, ihm⟩ := ih2 hf2
    refine ⟨fun h => ?_, fun h => ?_⟩
    · have g1 := ih1 hf1 fun v hv => (degVSum_cons_nonneg.mp (h v hv)).1
      have g2 := ihs fun v hv => (degVSum_cons_nonneg.mp (h v hv)).2
      have key : ∀ F : Env → ℂ, Good vars env F (fun v => degV cur v n) (degG cur vars n) →
          Good vars env (fun e => F e + evalSum e r) (fun v => degVSum cur v (.cons f n r))
            (degGSum cur vars (.cons f n r)) := by
        intro F hF
        refine (hF.add g2).mono (fun v hv => ?_) (fun h0 => ?_)
        · rw [degVSum_cons_eq (h v hv)]
        · simp only [degGSum] at h0 ⊢
          exact ⟨h0, le_refl _⟩
      cases f with
      | true => simpa [evalSum] using key _ g1
      | false => simpa [evalSum] using key _ g1.neg
    · have g1 := ih1 hf1 fun v hv => (degVMult_cons_nonneg.mp (h v hv)).1
      have g2 := ihm fun v hv => (degVMult_cons_nonneg.mp (h v hv)).2.1
      cases f with
      | true =>
        have := (g1.mul g2).mono (dv' := fun v => degVMult cur v (.cons true n r))
          (dg' := degGMult cur vars (.cons true n r)) (fun v hv => by
            rw [degVMult_cons_eq (h v hv)]) (fun h0 => by
            simp only [degGMult] at h0 ⊢
            simpa using h0)
        simpa [evalMult] using this
      | false =>
        have hz : ∀ v ∈ vars, degV cur v n = 0 := fun v hv =>
          (degVMult_cons_nonneg.mp (h v hv)).2.2 rfl
        have hc := g1.isConst fun v hv => (hz v hv).le
        have g3 : Good vars env (fun e => (eval e n)⁻¹) (fun _ => 0) 0 :=
          Good.const (eval env n)⁻¹ (fun env' he => by rw [hc env' he]) (fun _ _ => le_rfl)
        have := (g3.mul g2).mono (dv' := fun v => degVMult cur v (.cons false n r))
          (dg' := degGMult cur vars (.cons false n r)) (fun v hv => by
            rw [degVMult_cons_eq (h v hv), hz v hv]) (fun h0 => by
            simp only [degGMult] at h0 ⊢
            by_cases h1 : degG cur vars n < 0
            · simp [h1] at h0; omega
            · by_cases h2 : degG cur vars n = 0
              · simp [h2] at h0 ⊢; exact h0
              · simp [h1, h2] at h0)
        simpa [evalMult] using this
  | int z => intro _ h; exact Good.const (z : ℂ) (fun _ _ => by simp [eval]) h
  | float a b => intro _ h; exact Good.const ((a : ℂ) + b * Complex.I) (fun _ _ => by simp [eval]) h
  | rat a b => intro _ h; exact Good.const ((a : ℂ) + b * Complex.I) (fun _ _ => by simp [eval]) h
  | special s =>
    intro _ h
    exact Good.const (eval env (.special s)) (fun _ _ => by cases s <;> simp [eval]) h
  | var w =>
    intro _ h
    by_cases hw : w ∈ vars
    · refine ⟨MvPolynomial.X w, by simpa using hw, fun v hv => ?_, fun _ => ?_, fun env' _ => ?_⟩
      · simp only [degV, MvPolynomial.degreeOf_X]
        by_cases hvw : w = v
        · simp [hvw]
        · rw [if_neg hvw, if_neg (fun h => hvw h.symm)]; simp
      · simp [degG, hw]
      · simp [eval]
    · exact Good.const (env w) (fun env' he => by simp [eval, he w hw]) h
  | sum ops ih =>
    intro hf h
    simpa only [eval, degV, degG] using (ih hf).1 (by simpa only [degV] using h)
  | mult ops ih =>
    intro hf h
    simpa only [eval, degV, degG] using (ih hf).2 (by simpa only [degV] using h)
  | neg n ih =>
    intro hf h
    rw [degG, degG_unary_sum h]
    simpa only [eval, degV] using (ih hf (by simpa only [degV] using h)).neg.toSum
  | fn n ih =>
    intro hf h
    simpa only [eval, degV, degG] using ih hf (by simpa only [degV] using h)
  | pow b e ihb ihe =>
    intro hf h
    obtain ⟨hf1, hf2, hf3, hf4⟩ := hf
    rw [degG, degG_pow_sum h]
    simp only [eval, degV] at h ⊢
    exact good_pow (ihb hf1) (ihe hf2) hf3 hf4 h
  | ipow n k ih =>
    intro hf h
    rw [degG, degG_unary_sum h]
    simp only [eval, degV] at h ⊢
    exact good_ipow (ih hf) h
  | _ n ih =>
    intro hf h
    rw [degG, degG_unary_sum h]
    simp only [eval, degV] at h ⊢
    have h1 := ih hf fun v hv => (transDeg_nonneg.mp (h v hv)).ge
    first
      | exact good_trans (fun z => z ^ (1 / 2 : ℂ)) h1 h
      | exact good_trans Complex.exp h1 h
      | exact good_trans Complex.log h1 h
      | exact good_trans Complex.sin h1 h
      | exact good_trans Complex.cos h1 h
      | exact good_trans Complex.tan h1 h
      | exact good_trans carcsin h1 h
      | exact good_trans carccos h1 h
      | exact good_trans Complex.arctan h1 h

theorem powDeg_neg_eq {bd ed : ℤ} {z : ℂ} (h : powDeg bd ed z < 0) : powDeg bd ed z = -1 := by
  unfold powDeg at h ⊢
  split_ifs at h ⊢ with h1 h2 h3 h4 h5 h6
  all_goals first
    | rfl
    | (exfalso; omega)
    | skip
  exfalso
  have : (0 : ℤ) ≤ round z.re := by
    rw [round_eq]
    apply Int.floor_nonneg.mpr
    have := not_lt.mp h4
    linarith
  have h6 : 0 ≤ bd * round z.re := mul_nonneg (by omega) this
  omega

theorem foldUnary_singleton (a : ℤ) : foldUnary [a] = a := by
  simp [foldUnary]

/-- For a group of one variable the two degree computations agree. -/
theorem degG_singleton (cur : Env) (v : Var) (n : Node) : degG cur [v] n = degV cur v n := by
  induction n using Node.rec (motive_2 := fun ops =>
    degGSum cur [v] ops = degVSum cur v ops ∧ degGMult cur [v] ops = degVMult cur v ops) with
  | nil => simp [degGSum, degVSum, degGMult, degVMult]
  | cons f n r ih1 ih2 =>
    constructor
    · simp only [degGSum, degVSum, ih1, ih2.1]
    · simp only [degGMult, degVMult, ih1, ih2.2]
  | int => rfl
  | float => rfl
  | rat => rfl
  | special => rfl
  | var w => simp [degG, degV]
  | sum ops ih => simpa only [degG, degV] using ih.1
  | mult ops ih => simpa only [degG, degV] using ih.2
  | fn n ih => simpa only [degG, degV] using ih
  | pow b e =>
    simp only [degG, foldPow, List.map_cons, List.map_nil, List.foldl_cons, List.foldl_nil]
    split_ifs with h
    · simp only [degV] at h ⊢; rw [powDeg_neg_eq h]
    · simp
  | _ => simp only [degG, List.map_cons, List.map_nil, foldUnary_singleton]

theorem degGSum_nonneg_cons {cur : Env} {vars : List Var} {s : Bool} {n : Node} {r : Ops} :
    0 ≤ degGSum cur vars (.cons s n r) ↔ 0 ≤ degG cur vars n ∧ 0 ≤ degGSum cur vars r := by
  simp only [degGSum]
  split_ifs <;> omega

/-- Evaluation only depends on the variables that occur. -/
theorem eval_congr {env env' : Env} (n : Node) :
    (∀ w ∈ n.vars, env' w = env w) → eval env' n = eval env n := by
  induction n using Node.rec (motive_2 := fun ops => (∀ w ∈ ops.vars, env' w = env w) →
      evalSum env' ops = evalSum env ops ∧ evalMult env' ops = evalMult env ops) with
  | nil => simp [evalSum, evalMult]
  | cons f n r ih1 ih2 h =>
    simp only [Ops.vars, List.mem_append] at h
    have h1 := ih1 fun w hw => h w (Or.inl hw)
    have h2 := ih2 fun w hw => h w (Or.inr hw)
    simp [evalSum, evalMult, h1, h2]
  | int => simp [eval]
  | float => simp [eval]
  | rat => simp [eval]
  | special s => cases s <;> simp [eval]
  | var w => intro h; simpa [eval] using h w (by simp [Node.vars])
  | sum ops ih => intro h; simp only [Node.vars] at h; simp [eval, (ih h).1]
  | mult ops ih => intro h; simp only [Node.vars] at h; simp [eval, (ih h).2]
  | pow b e ih1 ih2 =>
    intro h
    simp only [Node.vars, List.mem_append] at h
    simp [eval, ih1 fun w hw => h w (Or.inl hw), ih2 fun w hw => h w (Or.inr hw)]
  | _ => intro h; simp_all [eval, Node.vars]

theorem multiDeg_eq (cur : Env) (vars : List Var) (n : Node) :
    (∀ v ∈ vars, 0 ≤ degV cur v n) → multiDeg cur vars n = vars.map fun v => degV cur v n := by
  have hzip : ∀ (F : ℤ → ℤ → ℤ) (f g : Var → ℤ) (l : List Var),
      List.zipWith F (l.map f) (l.map g) = l.map fun v => F (f v) (g v) := by
    intro F f g l
    induction l with
    | nil => simp
    | cons a l ih => simp [ih]
  induction n using Node.rec (motive_2 := fun ops =>
    ((∀ v ∈ vars, 0 ≤ degVSum cur v ops) →
      multiDegSum cur vars ops = vars.map fun v => degVSum cur v ops) ∧
    ((∀ v ∈ vars, 0 ≤ degVMult cur v ops) →
      multiDegMult cur vars ops = vars.map fun v => degVMult cur v ops)) with
  | nil => simp [multiDegSum, multiDegMult, degVSum, degVMult]
  | cons f n r ih1 ih2 =>
    constructor
    · intro h
      rw [multiDegSum, ih1 fun v hv => (degVSum_cons_nonneg.mp (h v hv)).1,
        ih2.1 fun v hv => (degVSum_cons_nonneg.mp (h v hv)).2, hzip]
      exact List.map_congr_left fun v hv => by rw [degVSum_cons_eq (h v hv), max_comm]
    · intro h
      rw [multiDegMult, ih1 fun v hv => (degVMult_cons_nonneg.mp (h v hv)).1,
        ih2.2 fun v hv => (degVMult_cons_nonneg.mp (h v hv)).2.1, hzip]
      exact List.map_congr_left fun v hv => by rw [degVMult_cons_eq (h v hv), add_comm]
  | sum ops ih => intro h; simpa only [multiDeg, degV] using ih.1 (by simpa only [degV] using h)
  | mult ops ih => intro h; simpa only [multiDeg, degV] using ih.2 (by simpa only [degV] using h)
  | _ => intro _; simp [multiDeg, degV]

end B2
