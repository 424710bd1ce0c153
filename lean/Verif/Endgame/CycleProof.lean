/-
Lemmas about the search for the cycle number and the transformation to the s-plane.
-/
import Verif.Endgame.Cycle
import Verif.Endgame.CycleSpec
import Verif.Endgame.PropsHermite
import Mathlib.Analysis.Complex.Polynomial.Basic

namespace B2.Endgame
open Polynomial

variable {ι : Type} [Fintype ι]

/-! ### the search -/

/-- Invariant of the loop: the state is minimal over the candidates seen. -/
theorem searchLoop_spec (res : ℕ → Option ℝ) (cs : List ℕ) (st st' : ℝ × ℕ)
    (h : searchLoop res cs st = some st') :
    (∀ c ∈ cs, ∃ r, res c = some r ∧ st'.1 ≤ r) ∧ st'.1 ≤ st.1 ∧
      (st' = st ∨ ∃ l c l', cs = l ++ c :: l' ∧ res c = some st'.1 ∧ st'.2 = c ∧ st'.1 < st.1 ∧
        ∀ b ∈ l, ∃ r, res b = some r ∧ st'.1 < r) := by
  induction cs generalizing st with
  | nil =>
    rw [searchLoop] at h
    obtain rfl := Option.some.inj h
    exact ⟨by simp, le_rfl, Or.inl rfl⟩
  | cons c cs ih =>
    rw [searchLoop] at h
    cases hr : res c with
    | none => rw [hr] at h; cases h
    | some r =>
      rw [hr] at h
      obtain ⟨h1, h2, h3⟩ := ih _ h
      by_cases hlt : r < st.1
      · rw [if_pos hlt] at h2 h3
        dsimp only at h2 h3
        refine ⟨fun b hb => ?_, h2.trans hlt.le, Or.inr ?_⟩
        · rcases List.mem_cons.mp hb with rfl | hb
          · exact ⟨r, hr, h2⟩
          · exact h1 b hb
        · rcases h3 with rfl | ⟨l, d, l', e, hd, hd2, hd3, hl⟩
          · exact ⟨[], c, cs, rfl, hr, rfl, hlt, by simp⟩
          · refine ⟨c :: l, d, l', by rw [e]; rfl, hd, hd2, hd3.trans hlt, fun b hb => ?_⟩
            rcases List.mem_cons.mp hb with rfl | hb
            · exact ⟨r, hr, hd3⟩
            · exact hl b hb
      · rw [if_neg hlt] at h2 h3
        have hge : st.1 ≤ r := not_lt.mp hlt
        refine ⟨fun b hb => ?_, h2, ?_⟩
        · rcases List.mem_cons.mp hb with rfl | hb
          · exact ⟨r, hr, h2.trans hge⟩
          · exact h1 b hb
        · rcases h3 with rfl | ⟨l, d, l', e, hd, hd2, hd3, hl⟩
          · exact Or.inl rfl
          · refine Or.inr ⟨c :: l, d, l', by rw [e]; rfl, hd, hd2, hd3, fun b hb => ?_⟩
            rcases List.mem_cons.mp hb with rfl | hb
            · exact ⟨r, hr, hd3.trans_le hge⟩
            · exact hl b hb

theorem searchLoop_some (res : ℕ → Option ℝ) (cs : List ℕ) (st : ℝ × ℕ) (h : ∀ c ∈ cs, ∃ r, res c = some r) :
    ∃ st', searchLoop res cs st = some st' := by
  induction cs generalizing st with
  | nil => exact ⟨st, rfl⟩
  | cons c cs ih =>
    obtain ⟨r, hr⟩ := h c (by simp)
    rw [searchLoop, hr]
    exact ih _ fun b hb => h b (by simp [hb])

theorem mem_cands {ub c : ℕ} : c ∈ (List.range ub).map (· + 1) ↔ 1 ≤ c ∧ c ≤ ub := by
  simp only [List.mem_map, List.mem_range]
  constructor
  · rintro ⟨a, ha, rfl⟩; omega
  · rintro ⟨h1, h2⟩; exact ⟨c - 1, by omega, by omega⟩

/-- In the list of candidates everything smaller stands before. -/
theorem cands_split {ub : ℕ} {l l' : List ℕ} {c : ℕ} (h : (List.range ub).map (· + 1) = l ++ c :: l') (b : ℕ)
    (hb : 1 ≤ b) (hbc : b < c) : b ∈ l := by
  have hs : ((List.range ub).map (· + 1)).Pairwise (· < ·) := by
    rw [List.pairwise_map]
    exact List.pairwise_lt_range.imp (by omega)
  have hc : c ∈ (List.range ub).map (· + 1) := by rw [h]; simp
  have hm : b ∈ (List.range ub).map (· + 1) := mem_cands.mpr ⟨hb, by have := (mem_cands.mp hc).2; omega⟩
  rw [h] at hm hs
  rcases List.mem_append.mp hm with hm | hm
  · exact hm
  · rcases List.mem_cons.mp hm with rfl | hm
    · omega
    · have := (List.pairwise_cons.mp (List.pairwise_append.mp hs).2.1).1 b hm
      omega

/-! ### the transformation -/

/-- `((t - t0) / w)^(1/c)` on the ray. -/
theorem ray_root (t0 w : ℂ) (hw : w ≠ 0) (r : ℝ) (hr : 0 < r) (c : ℕ) :
    ((t0 + r * w - t0) / w) ^ (1 / (c : ℂ)) = ((r ^ (1 / (c : ℝ)) : ℝ) : ℂ) := by
  rw [add_sub_cancel_left, mul_div_assoc, div_self hw, mul_one, Complex.ofReal_cpow hr.le]
  push_cast
  rfl

theorem root_pow {r : ℝ} (hr : 0 < r) {c : ℕ} (hc : 0 < c) : (r ^ (1 / (c : ℝ))) ^ c = r := by
  rw [← Real.rpow_natCast, ← Real.rpow_mul hr.le, one_div, inv_mul_cancel₀ (by positivity), Real.rpow_one]

theorem root_inj {r r' : ℝ} (hr : 0 < r) (hr' : 0 < r') {c : ℕ} (hc : 0 < c)
    (h : r ^ (1 / (c : ℝ)) = r' ^ (1 / (c : ℝ))) : r = r' := by
  rw [← root_pow hr hc, h, root_pow hr' hc]

/-- The scaled polynomial of the transformed data. -/
noncomputable def scaled (σ : ℂ) (q : ι → ℂ[X]) : ι → ℂ[X] := fun j => (q j).comp (C σ * X)

theorem scaled_eval (σ : ℂ) (q : ι → ℂ[X]) (j : ι) (s : ℂ) : (scaled σ q j).eval s = (q j).eval (σ * s) := by
  simp [scaled]

theorem scaled_deriv (σ : ℂ) (q : ι → ℂ[X]) (j : ι) (s : ℂ) :
    (derivative (scaled σ q j)).eval s = (derivative (q j)).eval (σ * s) * σ := by
  simp [scaled, derivative_comp]
  ring

theorem scaled_natDegree (σ : ℂ) (q : ι → ℂ[X]) (j : ι) : (scaled σ q j).natDegree ≤ (q j).natDegree := by
  unfold scaled
  refine natDegree_comp_le.trans ?_
  have : (C σ * X : ℂ[X]).natDegree ≤ 1 := (natDegree_C_mul_le _ _).trans natDegree_X_le
  exact (Nat.mul_le_mul_left _ this).trans (by omega)

/-- The value of the derivative of the branch. -/
theorem branch_deriv (q : ℂ[X]) (c : ℕ) (t0 w : ℂ) (hw : w ≠ 0) (r : ℝ) (hr : 0 < r) (d : ℂ)
    (h : HasDerivAt (fun t => q.eval (((t - t0) / w) ^ (1 / (c : ℂ)))) d (t0 + r * w)) :
    d = (derivative q).eval ((r ^ (1 / (c : ℝ)) : ℝ) : ℂ) *
      (1 / (c : ℂ) * (((r ^ (1 / (c : ℝ)) : ℝ) : ℂ) / r) / w) := by
  have h0 : (t0 + r * w - t0) / w = (r : ℂ) := by
    rw [add_sub_cancel_left, mul_div_assoc, div_self hw, mul_one]
  have hin : HasDerivAt (fun t : ℂ => (t - t0) / w) (1 / w) (t0 + r * w) :=
    ((hasDerivAt_id _).sub_const t0).div_const w
  have hp := hin.cpow_const (c := 1 / (c : ℂ)) (by rw [h0]; exact Or.inl (by simpa using hr))
  have hq := (q.hasDerivAt (((t0 + r * w - t0) / w) ^ (1 / (c : ℂ)))).comp (t0 + r * w) hp
  have hu := h.unique hq
  have hr' : (r : ℂ) ≠ 0 := by exact_mod_cast hr.ne'
  rw [ray_root t0 w hw r hr c, h0, Complex.cpow_sub _ _ hr', Complex.cpow_one] at hu
  rw [hu]
  have : (r : ℂ) ^ (1 / (c : ℂ)) = ((r ^ (1 / (c : ℝ)) : ℝ) : ℂ) := by
    rw [Complex.ofReal_cpow hr.le]; push_cast; rfl
  rw [this]
  ring

/-- The transformed derivative. -/
theorem transformed (q' : ℂ) (c : ℕ) (hc : 0 < c) (w : ℂ) (hw : w ≠ 0) (a b : ℝ) (ha : 0 < a) (hb : 0 < b) :
    q' * (1 / (c : ℂ) * ((a : ℂ) / ((a ^ c : ℝ) : ℂ)) / w) * (c * ((a : ℂ) / b) ^ (c - 1)) * (((b ^ c : ℝ) : ℂ) * w) =
      q' * b := by
  obtain ⟨m, rfl⟩ : ∃ m, c = m + 1 := ⟨c - 1, by omega⟩
  have ha' : (a : ℂ) ≠ 0 := by exact_mod_cast ha.ne'
  have hb' : (b : ℂ) ≠ 0 := by exact_mod_cast hb.ne'
  have hc' : ((m + 1 : ℕ) : ℂ) ≠ 0 := by exact_mod_cast hc.ne'
  push_cast at hc' ⊢
  simp only [Nat.add_sub_cancel, div_pow]
  field_simp
  ring

/-! ### containers -/

/-- `hermite` on values and derivatives of polynomials of degree at most two, whatever else the containers hold. -/
theorem hermite_low (P : ι → ℂ[X]) (T : ℂ) (n : ℕ) (ts : List ℂ) (xs ds : List (ι → ℂ)) (front : Bool) (hn : 0 < n)
    (ht : n = ts.length) (hd : n = ds.length) (off : ℕ) (hoff : off = if front then 0 else xs.length - n)
    (hxl : n ≤ xs.length)
    (hy : ∀ i < n, ∀ j < n, ts.getD i 0 = ts.getD j 0 → i = j)
    (hx : ∀ k < n, ∀ j, xs.getD (off + k) 0 j = (P j).eval (ts.getD k 0))
    (hdv : ∀ k < n, ∀ j, ds.getD k 0 j = (derivative (P j)).eval (ts.getD k 0))
    (hdeg : ∀ j, (P j).natDegree < 2 * n) (hdeg2 : ∀ j, (P j).natDegree ≤ 2) :
    hermite T n ts xs ds front = some fun j => (P j).eval T := by
  unfold hermite
  rw [if_pos ⟨hn, ht.le, hxl, hd.le⟩]
  have e1 : (if front then n - 1 else ts.length - 1) = n - 1 := by rw [← ht]; simp
  have e2 : (if front then n - 1 else ds.length - 1) = n - 1 := by rw [← hd]; simp
  have e3 : (if front then n - 1 else xs.length - 1) = off + (n - 1) := by
    rw [hoff]; cases front <;> simp <;> omega
  simp only [e1, e2, e3]
  congr 1
  funext j
  have := hermiteCore_map (LinearMap.proj (R := ℂ) (φ := fun _ : ι => ℂ) j) T n
    (fun i => ts.getD (n - 1 - i) 0) (fun i => xs.getD (off + (n - 1) - i) 0) (fun i => ds.getD (n - 1 - i) 0)
  simp only [LinearMap.proj_apply] at this
  rw [this]
  refine hermiteCore_low (P j) _ _ _ n hn ?_ ?_ ?_ (hdeg j) (hdeg2 j) T
  · intro i hi k hk h
    have := hy (n - 1 - i) (by omega) (n - 1 - k) (by omega) h
    omega
  · intro i hi
    have e : off + (n - 1) - i = off + (n - 1 - i) := by omega
    rw [e]
    exact hx (n - 1 - i) (by omega) j
  · intro i hi
    exact hdv (n - 1 - i) (by omega) j

/-- The transformed data are values and derivatives of the scaled polynomial. -/
theorem OnBranch.hermite {q : ι → ℂ[X]} {c : ℕ} {t0 w : ℂ} {rs : List ℝ} {times : List ℂ}
    {samples derivs : List (ι → ℂ)} (h : OnBranch q c t0 w rs times samples derivs) (num off : ℕ) (hn : 0 < num)
    (hlen : off + num ≤ times.length) (front : Bool) (hoff : off = if front then 0 else times.length - num)
    (hdeg : ∀ j, (q j).natDegree < 2 * num) (hdeg2 : ∀ j, (q j).natDegree ≤ 2) :
    ∃ p, toSPlane c t0 num off times derivs = some p ∧ ∀ T, hermite T num p.1 samples p.2 front =
      some fun j => (q j).eval (((rs.getD off 1) ^ (1 / (c : ℝ)) : ℝ) * T) := by
  obtain ⟨hc, hw, hpos, hnd, ht, hs, hdl, hd⟩ := h
  have hl : times.length = rs.length := by rw [ht]; simp
  -- the real numbers
  have hR : ∀ k < num, ∃ r, rs[off + k]? = some r ∧ 0 < r ∧ times[off + k]? = some (t0 + r * w) := by
    intro k hk
    have hlt : off + k < rs.length := by omega
    exact ⟨rs[off + k], List.getElem?_eq_getElem hlt, hpos _ (List.getElem_mem hlt), by
      rw [ht, List.getElem?_map, List.getElem?_eq_getElem hlt]; rfl⟩
  obtain ⟨ρ, hρ, hρ0, htρ⟩ := hR 0 hn
  rw [Nat.add_zero] at hρ htρ
  have hshift : times.getD off 0 - t0 = ρ * w := by
    rw [List.getD_eq_getElem?_getD, htρ]; simp
  have hρd : rs.getD off 1 = ρ := by rw [List.getD_eq_getElem?_getD, hρ]; rfl
  unfold toSPlane
  rw [if_neg hc.ne']
  refine ⟨_, rfl, fun T => ?_⟩
  rw [hρd]
  dsimp only
  rw [hshift]
  set σ : ℝ := ρ ^ (1 / (c : ℝ)) with hσ
  have hσ0 : 0 < σ := Real.rpow_pos_of_pos hρ0 _
  have hσ' : (σ : ℂ) ≠ 0 := by exact_mod_cast hσ0.ne'
  set ss := ((times.drop off).take num).map fun t => ((t - t0) / (ρ * w)) ^ (1 / (c : ℂ)) with hss
  have hssl : ss.length = num := by simp [hss]; omega
  -- values of the transformed times
  have hsv : ∀ k < num, ∀ r, rs[off + k]? = some r → ss[k]? = some (((r ^ (1 / (c : ℝ)) : ℝ) : ℂ) / σ) := by
    intro k hk r hr
    obtain ⟨r', hr', hr0, htr⟩ := hR k hk
    obtain rfl : r = r' := by rw [hr] at hr'; exact Option.some.inj hr'
    rw [hss, List.getElem?_map, List.getElem?_take_of_lt hk, List.getElem?_drop, htr]
    have e : (t0 + r * w - t0) / (ρ * w) = ((r / ρ : ℝ) : ℂ) := by
      have : (ρ : ℂ) ≠ 0 := by exact_mod_cast hρ0.ne'
      push_cast
      field_simp
      ring
    simp only [Option.map_some]
    rw [e, show (1 / (c : ℂ)) = ((1 / (c : ℝ) : ℝ) : ℂ) by push_cast; rfl, ← Complex.ofReal_cpow (by positivity),
      Real.div_rpow hr0.le hρ0.le]
    push_cast
    rfl
  set ds := List.zipWith (fun (d : ι → ℂ) s => fun i => d i * (c * s ^ (c - 1)) * (ρ * w))
    ((derivs.drop off).take num) ss with hds
  have hdsl : ds.length = num := by simp [hds, hssl]; omega
  have key := hermite_low (scaled σ q) T num ss samples ds front hn hssl.symm hdsl.symm off
    (by rw [hoff, hs]; simp) (by rw [hs]; simp; omega) ?_ ?_ ?_
    (fun j => (scaled_natDegree _ q j).trans_lt (hdeg j)) (fun j => (scaled_natDegree _ q j).trans (hdeg2 j))
  · rw [key]
    simp only [scaled_eval]
  · intro i hi k hk heq
    obtain ⟨r, hr, hr0, -⟩ := hR i hi
    obtain ⟨r', hr', hr0', -⟩ := hR k hk
    rw [List.getD_eq_getElem?_getD, List.getD_eq_getElem?_getD, hsv i hi r hr, hsv k hk r' hr'] at heq
    simp only [Option.getD_some] at heq
    have h1 := (div_left_inj' hσ').mp heq
    have h2 := root_inj hr0 hr0' hc (by exact_mod_cast h1)
    subst h2
    have h3 : rs[off + i]? = rs[off + k]? := by rw [hr, hr']
    have h4 : off + i < rs.length := by omega
    have := (List.getElem?_inj h4 hnd).1 h3
    omega
  · intro k hk j
    obtain ⟨r, hr, hr0, htr⟩ := hR k hk
    rw [List.getD_eq_getElem?_getD, List.getD_eq_getElem?_getD, hsv k hk r hr, hs, List.getElem?_map, htr, scaled_eval]
    simp only [Option.map_some, Option.getD_some, branch]
    rw [ray_root t0 w hw r hr0 c, mul_div_cancel₀ _ hσ']
  · intro k hk j
    obtain ⟨r, hr, hr0, htr⟩ := hR k hk
    have hdk : ∃ d, derivs[off + k]? = some d := ⟨derivs[off + k]'(by omega), List.getElem?_eq_getElem (by omega)⟩
    obtain ⟨d, hdk⟩ := hdk
    have hdj := branch_deriv (q j) c t0 w hw r hr0 (d j) (hd _ _ _ htr hdk j)
    rw [List.getD_eq_getElem?_getD, List.getD_eq_getElem?_getD, hsv k hk r hr, hds, List.getElem?_zipWith,
      List.getElem?_take_of_lt hk, List.getElem?_drop, hdk, hsv k hk r hr, scaled_deriv]
    simp only [Option.getD_some]
    rw [mul_div_cancel₀ _ hσ', hdj]
    have ha := transformed ((derivative (q j)).eval ((r ^ (1 / (c : ℝ)) : ℝ) : ℂ)) c hc w hw (r ^ (1 / (c : ℝ))) σ
      (Real.rpow_pos_of_pos hr0 _) hσ0
    rw [root_pow hr0 hc, hσ, root_pow hρ0 hc] at ha
    exact ha

end B2.Endgame
