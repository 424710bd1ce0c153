import Verif.Alg.PropsSetup
import Verif.Start.PropsMHomSystem

/-!
# Property C145: a solve with the multihomogeneous start system

`SystemSetup` with `StartSystemT = MHomogeneous`. The functions of that start system (products of linears)
are not expressions of the model's trees, so the start system of the homotopy is any object: the
statements quantify over it.
-/

namespace B2.Alg.Htp

open B2.Sys B2.Start

/-- **C145, full statement.** For every system of polynomials that `PrepareTarget` accepts and every start
point the multihomogeneous start system generates from the prepared target, the homotopy can be evaluated
at the start point: with some start functions, at some time. -/
def C145_full : Prop :=
  ∀ (simp : Node → Node) (w w2 : World) (i : ℕ) (hist : List (Op Var)) (fresh : ℕ → Var)
    (coef : ℕ → ℕ → ℂ), PolySystem w i hist fresh → prepareTarget fresh coef w i = some w2 →
    mhomAccepts w2 (w2.objs i) → ∀ (ps : List (List ℤ)), mhomPartitions w2 (w2.objs i) ps →
    ∀ (coeff : ℕ → ℕ → ℕ → ℕ → ℂ) (solve : List (List ℂ) → List ℂ → List ℂ),
    (∀ A b, (solve A b).length = A.length) → ∀ (index : ℕ) (x : List ℂ),
    mhomStartPoint coeff solve w2 (w2.objs i) ps index = some x →
    ∃ (w3 w' : World) (γ : ℚ × ℚ) (t : Var) (k a b c h : ℕ), w3.objs i = w2.objs i ∧
      Setup w3 i k a b c h ∧ formHomotopy simp γ t i k a b c h w3 = some w' ∧
      ∃ junk s out, evalAtTime simp w' h junk x s = some out

/-- **C145 (what happens).** For every target with an affine group, whatever the linear solver returns,
whatever the start functions, the time and `γ`: the homotopy cannot be evaluated at a start point of the
multihomogeneous start system; `Eval` throws, as the point has too few coordinates. -/
theorem C145_never (simp : Node → Node) (w w2 w3 w' : World) (i : ℕ) (fresh : ℕ → Var)
    (coef : ℕ → ℕ → ℂ) (hg : (w.objs i).vs.groups ≠ []) (hp : prepareTarget fresh coef w i = some w2)
    (ps : List (List ℤ)) (coeff : ℕ → ℕ → ℕ → ℕ → ℂ) (solve : List (List ℂ) → List ℂ → List ℂ)
    (hsolve : ∀ A b, (solve A b).length = A.length) (index : ℕ) (x : List ℂ)
    (hx : mhomStartPoint coeff solve w2 (w2.objs i) ps index = some x)
    (γ : ℚ × ℚ) (t : Var) (k a b c h : ℕ) (hi : w3.objs i = w2.objs i) (hs : Setup w3 i k a b c h)
    (hf : formHomotopy simp γ t i k a b c h w3 = some w') (junk : List ℂ) (s : ℂ) :
    evalAtTime simp w' h junk x s = none := by
  have hne : (w2.objs i).vs.homVars ≠ [] := by
    simp only [prepareTarget, Option.bind_eq_some_iff] at hp
    obtain ⟨w1, h1, h2⟩ := hp
    obtain ⟨vs, heap, e1, e2, _, _, rfl⟩ := homogenize_some h1
    have hvs : (w2.objs i).vs = vs := by
      unfold autoPatch at h2
      split at h2
      · simp at h2
      · obtain ⟨sz, _, rfl⟩ := Option.map_eq_some_iff.1 h2
        simp [World.set]
    rw [hvs]
    simp only [Vars.homogenize] at e2
    split at e2
    · simp at e2
    · simp only [Option.some.injEq] at e2
      subst e2
      by_cases h0 : (w.objs i).vs.homVars = []
      · simpa [Vars.numHomVars, h0] using hg
      · simp [Vars.numHomVars, h0]
  have hlt := C72_short w2 (w2.objs i) hne ps coeff solve index hsolve x hx
  obtain ⟨-, g2, -⟩ := formHomotopy_spec hs hf
  have hvs : (w'.objs h).vs.ordering = (w2.objs i).vs.ordering := by
    rw [g2, hi]
    split <;> rfl
  unfold evalAtTime
  cases hv : (w'.objs h).vars with
  | none => rfl
  | some vars =>
    have hl : vars.length = (w2.objs i).vs.numVariables := vars_length (by rw [← hvs]; exact hv)
    rw [Option.bind_eq_bind, Option.bind_some, if_pos (Or.inl (by omega))]

/-- **C145 refuted**: the target `x^2, y^3` in one group. -/
theorem C145_refuted : ¬ C145_full := by
  intro hall
  have ho : wX.objs 0 = oX := by simp [wX, World.set]
  have hs := squareTarget_X
  obtain ⟨w1, w2, h1, h2, hpre, hacc, hroots, hfns, hpath, hptd, hpat, hvs, hord, htd⟩ :=
    prepared_of (fun _ _ => 1) hs (by rw [ho]; simp [oX, wX, World.set])
  have hg : varGroups (w2.objs 0) = [[0, 1]] := by
    simp [varGroups, hvs, ho, oX, Vars.addGroup, Vars.empty]
  obtain ⟨w1', sizes, h1', hval, _, _, ho1, hsz, h2', _, hf⟩ := prepareTarget_spec (fun _ _ => 1) hs.system
  rw [h1, Option.some.injEq] at h1'
  subst h1'
  have hroot2 : w2.roots (w2.objs 0) = [.ipow (.var 0) 2, .ipow (.var 1) 3] := by
    have e0 := (hf 0 (by rw [ho]; simp [oX])).2.1
    have e1 := (hf 1 (by rw [ho]; simp [oX])).2.1
    rw [ho] at e0 e1
    simp [homArgs, oX, Vars.addGroup, Vars.empty, Vars.numHomVars, homFold, wX, World.set, hom] at e0 e1
    rw [hroots, ho1, ho]
    simp [World.roots, oX, e0, e1]
  have hl : (w2.objs 0).fns.length = 2 := by rw [hfns, ho]; rfl
  have hd : ∀ r < 2, degMat w2 (w2.objs 0) r 0 = r + 2 := by
    intro r hr'
    unfold degMat
    rw [hroot2, hg]
    obtain rfl | rfl : r = 0 ∨ r = 1 := by omega
    all_goals simp [degG, degV, foldUnary]
  have hgl : (varGroups (w2.objs 0)).length = 1 := by rw [hg]; rfl
  have hmacc : mhomAccepts w2 (w2.objs 0) := by
    obtain ⟨_, a2, a3, _, a5, a6⟩ := hacc
    refine ⟨a2, a3, a5, a6, ?_, ?_, ?_, ?_⟩
    · intro hc; rw [hc] at hl; simp at hl
    · rw [hg]; simp
    · intro c hc
      rw [hgl] at hc
      obtain rfl : c = 0 := by omega
      exact ⟨0, by omega, by rw [hd 0 (by omega)]; simp⟩
    · intro r hr
      exact ⟨0, by omega, by rw [hd r (by omega)]; omega⟩
  have hsz2 : (w2.objs 0).vs.groupSizes = some [3] := by
    rw [hvs, ho]
    simp [oX, Vars.groupSizes, Vars.numHomVars, Vars.addGroup, Vars.empty, Vars.sizesLoop]
  obtain ⟨ps, g1, g2, g3⟩ := C34_atMost (degMat w2 (w2.objs 0)) (w2.objs 0).fns.length
    (varGroups (w2.objs 0)).length (fun j => (([3] : List ℕ).getD j 0 : ℕ)) (by omega) (fun j => by simp)
  have hps : mhomPartitions w2 (w2.objs 0) ps := ⟨[3], hsz2, by rw [hgl]; simp, (g1 ps).2 rfl⟩
  have hm : ([0, 0] : List ℤ) ∈ ps := by
    rw [g3]
    refine ⟨⟨by rw [hl]; rfl, ?_⟩, ?_⟩
    · intro r hr
      simp only [List.length_cons, List.length_nil, zero_add, Nat.reduceAdd] at hr
      refine ⟨0, ?_, by omega, ?_⟩
      · obtain rfl | rfl : r = 0 ∨ r = 1 := by omega
        all_goals rfl
      · rw [hd r (by omega)]; omega
    · intro j
      cases j with
      | zero => simp [uses]
      | succ j =>
        have : List.count ((j : ℤ) + 1) [0, 0] = 0 := by
          rw [List.count_eq_zero]; simp; omega
        simp [uses, this]
  have hne : ∀ p ∈ ps, p ≠ [] := by
    intro p hp hc
    have := ((g3 p).1 hp).1.1
    rw [hc, hl] at this
    simp at this
  obtain ⟨b1, b2, -⟩ := C35_bijection (degMat w2 (w2.objs 0)) ps g2 hne
  have hbox : InBox [0, 0] (dims (degMat w2 (w2.objs 0)) [0, 0]) := by
    have h0 := hd 0 (by omega)
    have h1 := hd 1 (by omega)
    simp [dims, InBox, h0, h1]
  obtain ⟨index, ⟨_, hidx⟩, _⟩ := b2 _ hm _ hbox
  have hN : (w2.objs 0).vs.numNatural - (w2.objs 0).vs.ungrouped.length = 2 := by
    rw [hvs, ho]; simp [oX, Vars.numNatural, Vars.addGroup, Vars.empty]
  obtain ⟨x, hx⟩ : ∃ x, mhomStartPoint (fun _ _ _ _ => 1) (fun A _ => A.map fun _ => 0) w2 (w2.objs 0) ps
      index = some x := by
    unfold mhomStartPoint
    rw [hidx]
    simp [hN, hg]
  obtain ⟨w3, w', γ, t, k, a, b, c, h, e1, e2, e3, junk, s, out, e4⟩ := hall id wX w2 0 _ (· + 2)
    (fun _ _ => 1) hs.system h2 hmacc ps hps _ _ (by simp) index x hx
  rw [C145_never id wX w2 w3 w' 0 (· + 2) (fun _ _ => 1) (by rw [ho]; simp [oX, Vars.addGroup]) h2 ps _ _
    (by simp) index x hx γ t k a b c h e1 e2 e3 junk s] at e4
  simp at e4

end B2.Alg.Htp
