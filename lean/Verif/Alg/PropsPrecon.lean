import Verif.Alg.PropsPerturb
import Verif.Alg.PropsGeneric
import Verif.System.Precon
import Verif.Cont.GO

/-!
# Property C158: the predefined systems are what their comments say
-/

namespace B2.Alg.Htp

open B2.Sys B2.Start B2.Cont B2.Predict B2.Track B2.Endgame Set Filter Topology

/-! ### The state after such a function -/

theorem run_split (simp : Node → Node) : ∀ (a b : List SysOp) (w w' : World), run simp a w = some w' →
    run simp (a ++ b) w = run simp b w' := by
  intro a
  induction a with
  | nil =>
    intro b w w' h
    simp only [run, Option.some.injEq] at h
    simp [h]
  | cons o a ih =>
    intro b w w' h
    simp only [run, List.cons_append] at h ⊢
    obtain ⟨w1, h1, h2⟩ := Option.bind_eq_some_iff.1 h
    rw [h1, Option.bind_some]
    exact ih b w1 w' h2

theorem safe_split (simp : Node → Node) : ∀ (a b : List SysOp) (w w' : World), run simp a w = some w' →
    SafeRun simp a w → SafeRun simp b w' → SafeRun simp (a ++ b) w := by
  intro a
  induction a with
  | nil =>
    intro b w w' h _ hb
    simp only [run, Option.some.injEq] at h
    rw [h]
    exact hb
  | cons o a ih =>
    intro b w w' h ha hb
    simp only [run] at h
    obtain ⟨w1, h1, h2⟩ := Option.bind_eq_some_iff.1 h
    refine ⟨ha.1, fun w2 h3 => ?_⟩
    rw [h1, Option.some.injEq] at h3
    subst h3
    exact ih b w1 w' h2 (ha.2 w1 h1) hb

/-- The state after a new system with one affine group `g` and functions `ns` was made as object `i`. -/
theorem run_precon (simp : Node → Node) (i : ℕ) (g : List Var) (ns : List Node) (w0 : World) :
    ∃ w, run simp (Precon.ops i g ns) w0 = some w ∧ SafeRun simp (Precon.ops i g ns) w0 ∧ w.vals = w0.vals ∧
      w.objs i = { Obj.new .slp with vs := Vars.empty.addGroup g, fns := List.range' w0.next ns.length } ∧
      w.roots (w.objs i) = ns := by
  have key : ∀ (ns : List Node) (w : World) (o : Obj), w.objs i = o → o.diffed = false →
      ∃ w', run simp (ns.map (SysOp.addFunction i)) w = some w' ∧ SafeRun simp (ns.map (SysOp.addFunction i)) w ∧
        w'.vals = w.vals ∧ w'.objs i = { o with fns := o.fns ++ List.range' w.next ns.length } ∧
        (List.range' w.next ns.length).map w'.heap = ns ∧ ∀ f < w.next, w'.heap f = w.heap f := by
    intro ns
    induction ns with
    | nil =>
      intro w o ho hd
      exact ⟨w, rfl, trivial, rfl, by simp [ho], rfl, fun _ _ => rfl⟩
    | cons n ns ih =>
      intro w o ho hd
      obtain ⟨w', h1, h2, h3, h4, h5, h6⟩ := ih ({ w with heap := Function.update w.heap w.next n, next := w.next + 1 }.set i
        { w.objs i with fns := (w.objs i).fns ++ [w.next], diffed := false })
        { o with fns := o.fns ++ [w.next] } (by simp [World.set, ho, hd]) hd
      refine ⟨w', ?_, ⟨trivial, fun w2 hw2 => ?_⟩, h3, ?_, ?_, ?_⟩
      · simp only [List.map_cons, run, step, Option.bind_some]
        exact h1
      · simp only [step, Option.some.injEq] at hw2
        rw [← hw2]
        exact h2
      · rw [h4]
        simp [World.set, List.range'_succ]
      · simp only [World.set] at h5 h6
        simp only [List.length_cons, List.range'_succ, List.map_cons]
        rw [h5, h6 w.next (Nat.lt_succ_self _)]
        simp
      · intro f hf
        have := h6 f (by simp only [World.set]; omega)
        rw [this]
        simp only [World.set]
        rw [Function.update_of_ne (by omega)]
  obtain ⟨w, h1, h2, h3, h4, h5, -⟩ := key ns (({ w0 with objs := Function.update w0.objs i (Obj.new .slp) } : World).set i
    { Obj.new .slp with vs := Vars.empty.addGroup g }) { Obj.new .slp with vs := Vars.empty.addGroup g }
    (by simp [World.set]) rfl
  have hst : ∀ os, run simp (.create i .slp :: .varOp i (·.addGroup g) :: os) w0 = run simp os
      (({ w0 with objs := Function.update w0.objs i (Obj.new .slp) } : World).set i
        { Obj.new .slp with vs := Vars.empty.addGroup g }) := by
    intro os
    simp [run, step, World.set, Obj.new]
  refine ⟨w, ?_, ?_, h3, ?_, ?_⟩
  · rw [Precon.ops, hst]
    exact h1
  · refine ⟨trivial, fun w1 e1 => ⟨trivial, fun w2 e2 => ?_⟩⟩
    simp only [step, Option.some.injEq] at e1 e2
    subst e1 e2
    convert h2 using 1
    simp [World.set, Obj.new]
  · rw [h4]
    simp [World.set, Obj.new]
  · rw [h4]
    simp only [World.roots, Obj.new, List.nil_append]
    exact h5

/-- Evaluating such a system: the values of the functions, in any state reached by evaluation-safe operations. -/
theorem precon_eval (simp : Node → Node) (ops : List SysOp) (w0 w : World) (hsafe : SafeRun simp ops World.init)
    (hrun : run simp ops World.init = some w0) (i : ℕ) (g : List Var) (hg : g ≠ []) (ns : List Node)
    (hcl : ∀ n ∈ ns, ∀ v ∈ n.vars, v ∈ g)
    (hw : run simp (Precon.ops i g ns) w0 = some w) (env : Env) (junk : List ℂ) (hj : junk.length = ns.length) :
    ∃ w', evalAt simp w i junk (g.map env) = some (ns.map fun n => B2.eval env n, w') := by
  obtain ⟨w', h1, h2, h3, h4, h5⟩ := run_precon simp i g ns w0
  rw [hw, Option.some.injEq] at h1
  subst h1
  have he : Evaluable w i g := by
    refine ⟨?_, ?_, ?_⟩
    · rw [h4]
      simp [Obj.vars, Obj.new, Vars.ordering, Vars.addGroup, Vars.empty, Vars.numHomVars, Vars.numVariables,
        Vars.numNatural, Vars.orderingLoop, hg]
    · rw [h5]
      intro n hn v hv
      exact Or.inl (hcl n hn v hv)
    · rw [h4]
      exact List.nodup_range' _
  obtain ⟨out, w', k1, pv, rfl, -, k3⟩ := (C20_partial simp (ops ++ Precon.ops i g ns) w
    (safe_split simp _ _ _ _ hrun hsafe h2) (by rw [run_split simp _ _ _ _ hrun, hw]) i g (g.map env) env junk he rfl
    (by unfold PatchFits; rw [h4]; simp [Obj.new]) (by rw [h4]; simp [Obj.new])
    (by rw [h4]; simp [Obj.total, Obj.new, hj])).1 (by rw [h4]; rfl)
  rw [k3 (by rw [h4]; rfl), h5] at k1
  refine ⟨w', k1.trans ?_⟩
  simp

/-! ### Griewank-Osborn -/

/-- The nodes of the two functions. -/
def goNode1 (x y : Var) : Node :=
  .sum (.cons true (.mult (.cons true (.rat (29 / 16) 0) (.cons true (.ipow (.var x) 3) .nil)))
    (.cons false (.mult (.cons true (.mult (.cons true (.int 2) (.cons true (.var x) .nil)))
      (.cons true (.var y) .nil))) .nil))

def goNode2 (x y : Var) : Node := .sum (.cons true (.var y) (.cons false (.ipow (.var x) 2) .nil))

theorem go_nodes (simp : Node → Node) (same : Node → Node → Bool) (i : ℕ) (x y : Var) (w : World) :
    Precon.griewankOsborn simp same i x y w = run simp (Precon.ops i [x, y] [goNode1 x y, goNode2 x y]) w := by
  simp [Precon.griewankOsborn, Precon.goFirst, Precon.goSecond, UExpr.build, mkSub, mkMul, mkPow, goNode1, goNode2]

/-- **C158 (values).** In any state reached by evaluation-safe operations `Precon::GriewankOsborn` makes a system that
evaluates to `(29/16 x^3 - 2xy, y - x^2)`. -/
theorem C158_values (simp : Node → Node) (same : Node → Node → Bool) (ops : List SysOp) (w0 : World)
    (hsafe : SafeRun simp ops World.init) (hrun : run simp ops World.init = some w0) (i : ℕ) (x y : Var) (hxy : x ≠ y) :
    ∃ w, Precon.griewankOsborn simp same i x y w0 = some w ∧ ComputesFun simp w i 2
      fun a => ![29 / 16 * a 0 ^ 3 - 2 * a 0 * a 1, a 1 - a 0 ^ 2] := by
  obtain ⟨w, h1, -⟩ := run_precon simp i [x, y] [goNode1 x y, goNode2 x y] w0
  refine ⟨w, by rw [go_nodes, h1], fun a junk hj => ?_⟩
  obtain ⟨w', h2⟩ := precon_eval simp ops w0 w hsafe hrun i [x, y] (by simp) [goNode1 x y, goNode2 x y]
    (by simp [goNode1, goNode2, Node.vars, Ops.vars]) h1 (fun v => if v = x then a 0 else a 1) junk (by simpa using hj)
  refine ⟨w', ?_⟩
  have e1 : [x, y].map (fun v => if v = x then a 0 else a 1) = List.ofFn a := by
    simp [hxy.symm]
  rw [e1] at h2
  rw [h2]
  simp [goNode1, goNode2, B2.eval, evalSum, evalMult, hxy.symm]
  refine ⟨?_, ?_⟩ <;> ring

section
variable {simp : Node → Node} {same : Node → Node → Bool} {w0 w : World} {i : ℕ} {x y : Var}

theorem go_roots (hw : Precon.griewankOsborn simp same i x y w0 = some w) :
    w.objs i = { Obj.new .slp with vs := Vars.empty.addGroup [x, y], fns := [w0.next, w0.next + 1] } ∧
      w.roots (w.objs i) = [goNode1 x y, goNode2 x y] := by
  obtain ⟨w', h1, -, -, h4, h5⟩ := run_precon simp i [x, y] [goNode1 x y, goNode2 x y] w0
  rw [go_nodes, h1, Option.some.injEq] at hw
  subst hw
  exact ⟨h4, h5⟩

theorem go_degrees (hxy : x ≠ y) (cur : Env) : degG cur [x, y] (goNode1 x y) = 3 ∧ degG cur [x, y] (goNode2 x y) = 2 := by
  constructor
  · simp [goNode1, degG, degGSum, degGMult, degV, degVMult, foldUnary, hxy, hxy.symm]
  · simp [goNode2, degG, degGSum, degGMult, degV, degVMult, foldUnary, hxy, hxy.symm]

theorem go_degsOf (hw : Precon.griewankOsborn simp same i x y w0 = some w) (hxy : x ≠ y) : degsOf w i [x, y] = [3, 2] := by
  simp [degsOf, (go_roots hw).2, go_degrees hxy]

theorem go_square (hw : Precon.griewankOsborn simp same i x y w0 = some w) (hxy : x ≠ y) {fresh : ℕ → Var}
    (hinj : Function.Injective fresh) (hfr : ∀ k, fresh k ≠ x ∧ fresh k ≠ y) :
    SquareTarget w i [.addGroup [x, y]] fresh [x, y] := by
  obtain ⟨ho, hr⟩ := go_roots hw
  refine ⟨⟨by rw [ho]; rfl, by rw [ho]; rfl, by rw [ho]; rfl, by rw [ho]; simp, ⟨hinj,
    fun k => ⟨?_, ?_, ?_⟩⟩, ?_, ?_, ?_, ?_⟩, by rw [ho]; rfl, by rw [ho]; rfl, by rw [ho]; rfl, by rw [ho]; rfl,
    by rw [ho]; rfl, by rw [ho]; rfl, ?_, ?_⟩
  · rw [ho]; simp [Vars.addGroup, Vars.empty, hfr k]
  · rw [ho]; simp [Vars.addGroup, Vars.empty]
  · rw [hr]; simp [goNode1, goNode2, Node.vars, Ops.vars, hfr k]
  · rw [ho]; simp [Vars.addGroup, Vars.empty, hxy]
  · rw [ho]; simp [Vars.addGroup, Vars.empty]
  · rw [hr]; simp [goNode1, goNode2, PolyTree, PolySum, PolyMult, MonoTree]
  · rw [ho]; simp [Vars.addGroup, Vars.empty]
  · rw [hr]; simp [goNode1, goNode2, Node.vars, Ops.vars]
  · rw [hr]; simp [go_degrees hxy]

theorem go_computes {ops : List SysOp} (hsafe : SafeRun simp ops World.init) (hrun : run simp ops World.init = some w0)
    (hxy : x ≠ y) (hw : Precon.griewankOsborn simp same i x y w0 = some w) : ComputesFun simp w i 2 goFun := by
  obtain ⟨w', h1, h2⟩ := C158_values simp same ops w0 hsafe hrun i x y hxy
  rw [hw, Option.some.injEq] at h1
  subst h1
  exact h2

/-- The multiplicity of the origin can only be 3. -/
theorem go_three {d : Fin 2 → ℕ} {k : ℕ} (h : HasMultiplicity d goFun 0 k) : k = 3 := by
  obtain ⟨ρ, hρ, h⟩ := h
  have h1 := h ρ hρ le_rfl ![1, 0] (by intro j; fin_cases j <;> simp)
  have hp : ∀ ε, perturb goFun ![1, 0] ε = goEps ε := by
    intro ε
    funext b j
    fin_cases j <;> simp [perturb, goFun, goEps]
  obtain ⟨ε, k1, k2, k3⟩ := ((h1.filter_mono nhdsWithin_le_nhds).and
    ((goEps_count hρ).and self_mem_nhdsWithin)).exists
  rw [hp] at k1
  exact (k1 fun b _ hb => goEps_nonsingular k3 hb).2.symm.trans k2

/-- **C158 (almost all random choices are good).** For Griewank-Osborn, nonzero constants of the start system, patches
off finitely many hyperplanes and `γ` off finitely many rays, the setup succeeds and the homotopy is regular. -/
theorem C158_generic (simp : Node → Node) (same : Node → Node → Bool) (ops : List SysOp) (w0 w : World)
    (hsafe : SafeRun simp ops World.init) (hrun : run simp ops World.init = some w0) (x y : Var) (hxy : x ≠ y)
    (r : Choices) (t : Var) (i k a b c h : ℕ) (hw : Precon.griewankOsborn simp same i x y w0 = some w)
    (hd : [i, k, a, b, c, h].Nodup) (ht : t ∉ [r.fresh 0, x, y]) (hinj : Function.Injective r.fresh)
    (hfr : ∀ k, r.fresh k ≠ x ∧ r.fresh k ≠ y) (hconst : ∀ j < 2, ratValue (r.rand j) ≠ 0) :
    ∃ Z' : Set (Fin 3 → ℂ), Z'.Finite ∧ (∀ ζ ∈ Z', ζ ≠ 0) ∧ ∀ coef : ℕ → ℕ → ℂ,
      (∀ ζ ∈ Z', (fun j : Fin 3 => coef 0 j) ⬝ᵥ ζ ≠ 0) →
      ∃ B : Finset ℂ, (∀ β ∈ B, β ≠ 0) ∧ ∀ γ : ℚ × ℚ, gammaVal γ ≠ 0 →
        (∀ β ∈ B, ∀ ρ : ℝ, 0 < ρ → gammaVal γ ≠ ρ * β) →
        ∃ w' H, systemSetup simp { r with coef := coef, γ := γ } t i k a b c h w = some w' ∧
          Computes simp w' h 3 H ∧ RegularSolve simp w w' i k h [x, y] { r with coef := coef } H ∧
          ∀ q, q ≠ 0 → (∀ j : Fin 2, H (q, 0) j.castSucc = 0) → H (q, 0) (Fin.last _) ≠ -1 := by
  obtain ⟨w1, e1, e2, -⟩ := run_precon simp i [x, y] [goNode1 x y, goNode2 x y] w0
  have e3 := hw
  rw [go_nodes, e1, Option.some.injEq] at e3
  subst e3
  obtain ⟨Z', h1, h2, h3⟩ := C156 simp (ops ++ Precon.ops i [x, y] [goNode1 x y, goNode2 x y]) w1
    (safe_split simp _ _ _ _ hrun hsafe e2) (by rw [run_split simp _ _ _ _ hrun, e1]) r t i k a b c h
    [.addGroup [x, y]] [x, y] hd ht (go_square hw hxy hinj hfr) (by simp)
    (by rw [(go_roots hw).2]; simp [go_degrees hxy]) hconst (F := goHom)
    (fun j => by rw [go_degsOf hw hxy]; exact goHom_homogeneous j)
    (by rw [affine_goHom]; exact go_computes hsafe hrun hxy hw) (Z := {![1, 0, 0], ![0, 0, 1]}) (by simp)
    (by
      rintro ζ (rfl | rfl) hc
      · have := congrFun hc 0
        simp at this
      · have := congrFun hc 2
        simp at this)
    (by
      intro q _ hq
      obtain ⟨q1, q0 | q2⟩ := goHom_zero hq
      · refine ⟨![0, 0, 1], by simp, q 2, ?_⟩
        funext j
        fin_cases j
        · simpa using q0
        · simpa using q1
        · simp
      · refine ⟨![1, 0, 0], by simp, q 0, ?_⟩
        funext j
        fin_cases j
        · simp
        · simpa using q1
        · simpa using q2)
  refine ⟨Z', h1, h2, fun coef hc => ?_⟩
  obtain ⟨-, B, hB0, hB⟩ := h3 coef hc
  exact ⟨B, hB0, hB⟩

variable {w' : World} {k h : ℕ} {r : Choices} {H : (Fin 3 → ℂ) × ℂ → Fin 3 → ℂ}

open Classical in
/-- **C158 (paths).** Griewank-Osborn "has multiplicity 3 root at origin, and 3 infinite roots": the origin is the only
solution and has multiplicity 3; of the six paths three end at the origin, and three at one point at infinity. -/
theorem C158_paths {ops : List SysOp} (hsafe : SafeRun simp ops World.init) (hrun : run simp ops World.init = some w0)
    (hxy : x ≠ y) (hw : Precon.griewankOsborn simp same i x y w0 = some w)
    (hreg : RegularSolve simp w w' i k h [x, y] r H)
    (hinf : ∀ q, q ≠ 0 → (∀ j : Fin 2, H (q, 0) j.castSucc = 0) → H (q, 0) (Fin.last _) ≠ -1)
    {z : ℕ → Fin 3 → ℂ} (hz : ∀ j < 6, ∃ Y, OpenPath H Y ∧
      IsStart w w' i k [x, y] r j (Y 1) ∧ Tendsto Y (𝓝[>] 0) (𝓝 (z j))) :
    (∀ a : Fin 2 → ℂ, goFun a = 0 ↔ a = 0) ∧
    HasMultiplicity (fun j : Fin 2 => [3, 2].getD j 0) goFun 0 3 ∧
    (degsOf w i [x, y]).prod = 6 ∧
    ((Finset.range 6).filter fun j => z j = ![1 / r.coef 0 0, 0, 0]).card = 3 ∧
    ((Finset.range 6).filter fun j => z j = ![0, 0, 1 / r.coef 0 2]).card = 3 ∧
    (w'.objs h).vs.dehomogenize [1 / r.coef 0 0, 0, 0] = some [0, 0] ∧ r.coef 0 0 ≠ 0 ∧ r.coef 0 2 ≠ 0 := by
  have hdeg := go_degsOf hw hxy
  have hprod : (degsOf w i [x, y]).prod = 6 := by rw [hdeg]; rfl
  have hf := go_computes hsafe hrun hxy hw
  have hm := C157_paths hreg hinf (z := z) (by rw [hprod]; exact hz) hf 0
  rw [hprod] at hm
  have hcard := go_three hm
  rw [hcard, hdeg] at hm
  obtain ⟨F, G, e, hF, hG, hH, hc⟩ := hreg.form
  obtain rfl : F = goHom := affine_inj (n := 2) (d := fun j => [3, 2].getD j 0)
    (fun j => by have := hF j; rwa [hdeg] at this) goHom_homogeneous (by rw [affine_goHom]; exact hc.unique hf)
  have hH : H = line (n := 2) goHom G (fun j : Fin 3 => r.coef 0 j) e := hH
  have hdot : ∀ q : Fin 3 → ℂ, (fun j : Fin 3 => r.coef 0 j) ⬝ᵥ q = r.coef 0 0 * q 0 + r.coef 0 1 * q 1 + r.coef 0 2 * q 2 := by
    intro q
    simp [dotProduct, Fin.sum_univ_succ]
    ring
  have hpatch : ∀ q : Fin 3 → ℂ, q ≠ 0 → q 1 = 0 → (q 0 = 0 ∨ q 2 = 0) → r.coef 0 0 * q 0 + r.coef 0 2 * q 2 ≠ 0 := by
    intro q hq h1 h02 h0
    refine hinf q hq (fun j => ?_) ?_
    · rw [hH]
      simp only [line, Fin.lastCases_castSucc]
      rw [goHom_eval]
      have : (![29 / 16 * q 1 ^ 3 - 2 * q 1 * q 2 * q 0, q 2 * q 0 - q 1 ^ 2] : Fin 2 → ℂ) j = 0 := by
        have hq20 : q 2 * q 0 = 0 := mul_eq_zero.2 h02.symm
        fin_cases j
        · simp [h1]
        · simp [h1, hq20]
      rw [this]
      ring
    · rw [hH]
      simp only [line, Fin.lastCases_last]
      rw [hdot, h1]
      linear_combination h0
  have hc0 : r.coef 0 0 ≠ 0 := by
    have := hpatch ![1, 0, 0] (fun hc => by have := congrFun hc 0; simp at this) (by simp) (by simp)
    simpa using this
  have hc2 : r.coef 0 2 ≠ 0 := by
    have := hpatch ![0, 0, 1] (fun hc => by have := congrFun hc 2; simp at this) (by simp) (by simp)
    simpa using this
  have hends : ∀ j < 6, z j = ![1 / r.coef 0 0, 0, 0] ∨ z j = ![0, 0, 1 / r.coef 0 2] := by
    intro j hj
    obtain ⟨Y, hY, -, hlim⟩ := hz j hj
    obtain ⟨q, hq, hq'⟩ := hreg.converges hinf hY
    obtain rfl : z j = q := tendsto_nhds_unique hlim hq'
    rw [hH] at hq
    obtain ⟨q1, q2⟩ := line_zero.1 hq
    obtain ⟨z1, z02⟩ := goHom_zero (x := z j) fun l => by simpa using q1 l
    rw [hdot, z1] at q2
    rcases z02 with z0 | z2
    · right
      rw [z0] at q2
      funext l
      fin_cases l
      · exact z0
      · exact z1
      · show z j 2 = 1 / r.coef 0 2
        rw [eq_div_iff hc2]
        linear_combination q2
    · left
      rw [z2] at q2
      funext l
      fin_cases l
      · show z j 0 = 1 / r.coef 0 0
        rw [eq_div_iff hc0]
        linear_combination q2
      · exact z1
      · exact z2
  have hA : ((Finset.range 6).filter fun j => z j = ![1 / r.coef 0 0, 0, 0]).card = 3 := by
    refine Eq.trans ?_ hcard
    congr 1
    refine Finset.filter_congr fun j hj => ?_
    rw [hreg.dehomogenizes]
    constructor
    · intro he
      refine ⟨by rw [he]; simpa using hc0, ?_⟩
      simp [he]
    · rintro ⟨h0, -⟩
      refine (hends j (by simpa using hj)).resolve_right fun he => h0 ?_
      rw [he]
      rfl
  have hne : (![1 / r.coef 0 0, 0, 0] : Fin 3 → ℂ) ≠ ![0, 0, 1 / r.coef 0 2] := by
    intro he
    have := congrFun he 0
    simp at this
    exact hc0 this
  refine ⟨fun a => goFun_zero, hm, hprod, hA, ?_, ?_, hc0, hc2⟩
  · have hsum := Finset.card_filter_add_card_filter_not (s := Finset.range 6) (fun j => z j = ![1 / r.coef 0 0, 0, 0])
    rw [hA, Finset.card_range] at hsum
    have hB : (Finset.range 6).filter (fun j => z j = ![0, 0, 1 / r.coef 0 2]) =
        (Finset.range 6).filter (fun j => ¬ z j = ![1 / r.coef 0 0, 0, 0]) := by
      refine Finset.filter_congr fun j hj => ?_
      constructor
      · intro he
        rw [he]
        exact hne.symm
      · intro hn
        exact (hends j (by simpa using hj)).resolve_left hn
    rw [hB]
    omega
  · have := hreg.dehomogenizes ![1 / r.coef 0 0, 0, 0]
    simpa using this

open Classical in
/-- **C158.** The whole solve of Griewank-Osborn with the Cauchy endgame, under the assumptions of C153: all six paths end
with success, three within `ε` of the homogeneous coordinates of the origin, and three within `ε` of the point at
infinity; each with reported multiplicity 3. -/
theorem C158 {ops : List SysOp} (hsafe : SafeRun simp ops World.init) (hrun : run simp ops World.init = some w0)
    (hxy : x ≠ y) (hw : Precon.griewankOsborn simp same i x y w0 = some w)
    (hreg : RegularSolve simp w w' i k h [x, y] r H)
    (hinf : ∀ q, q ≠ 0 → (∀ j : Fin 2, H (q, 0) j.castSucc = 0) → H (q, 0) (Fin.last _) ≠ -1)
    (T : Table) (tol : ℝ) (ht : 0 < tol) (ecfg : CCfg) (hn : 3 ≤ ecfg.n) (hf0 : 0 < ecfg.factor)
    (hf1 : ecfg.factor < 1) (htt : 0 < ecfg.trackTol) (hfs : 6 ≤ ecfg.failsafe) (htol : 0 < ecfg.finalTol)
    (hcut : 0 < ecfg.cycleCutoff) (hrat : 0 < ecfg.ratioCutoff) :
    ∃ bound > 0, ∀ post ε : ℝ, post ≤ bound → 0 < ε → 2 * √3 * ε < post → ∃ ρ > 0,
      ∀ te : ℝ, 0 < te → te < ρ → ∃ mid > 0, ∀ δ : ℝ, 0 < δ → δ ≤ ecfg.finalTol / 8 → ∃ hm > 0, ∃ η > 0,
      ∀ (E : ZEnv 3) (cfg : ZCfg) (minTrack : ℝ),
      minTrack ≤ te * ecfg.factor ^ (ecfg.n - 1) * (1 - ecfg.factor) ^ ecfg.needed →
      (∀ j < 6, IsStart w w' i k [x, y] r j (E.start j)) →
      FineTracker H T E 6 tol hm η te →
      CauchyEndgame H E { ecfg with minTrack := minTrack } te δ →
      cfg.newtonBefore = tol → cfg.midTol ≤ mid → cfg.postTol = post →
      let s := solve 6 E cfg (ZSt.init 3)
      ∃ A : Finset ℕ, A ⊆ Finset.range 6 ∧ A.card = 3 ∧ ∀ j < 6, ∃ m q, s.md[j]? = some m ∧ s.sols[j]? = some q ∧
        m.post = .success ∧ m.mult = 3 ∧
        ‖q - if j ∈ A then ![1 / r.coef 0 0, 0, 0] else ![0, 0, 1 / r.coef 0 2]‖ ≤ ε := by
  have hprod : (degsOf w i [x, y]).prod = 6 := by rw [go_degsOf hw hxy]; rfl
  obtain ⟨bound, hb, hmain⟩ := C154 hreg hinf T tol ht ecfg hn hf0 hf1 htt (by rw [hprod]; exact hfs) htol hcut hrat
  refine ⟨bound, hb, fun post ε h1 h2 h3 => ?_⟩
  obtain ⟨ρ, hρ, hmain⟩ := hmain post ε h1 h2 (by
    have : (([x, y].length + 1 : ℕ) : ℝ) = 3 := by norm_num
    rwa [this])
  refine ⟨ρ, hρ, fun te h4 h5 => ?_⟩
  obtain ⟨mid, hmid, hmain⟩ := hmain te h4 h5
  refine ⟨mid, hmid, fun δ h6 h7 => ?_⟩
  obtain ⟨hm, hhm, η, hη, hmain⟩ := hmain δ h6 h7
  refine ⟨hm, hhm, η, hη, fun E cfg mt h8 h9 h10 h11 h12 h13 h14 => ?_⟩
  rw [hprod] at hmain
  obtain ⟨z, k1, -, k3⟩ := hmain E cfg mt h8 h9 h10 h11 h12 h13 h14
  obtain ⟨-, -, -, p1, p2, -, p4, p5⟩ := C158_paths hsafe hrun hxy hw hreg hinf (z := z) fun j hj => by
    obtain ⟨-, Y, a, b, c⟩ := k1 j hj
    exact ⟨Y, a, by rw [b]; exact h9 j hj, c⟩
  have hne : (![1 / r.coef 0 0, 0, 0] : Fin 3 → ℂ) ≠ ![0, 0, 1 / r.coef 0 2] := by
    intro he
    have := congrFun he 0
    simp at this
    exact p4 this
  -- six paths, three at each point
  have hsum := Finset.card_filter_add_card_filter_not (s := Finset.range 6) (fun j => z j = ![1 / r.coef 0 0, 0, 0])
  rw [p1, Finset.card_range] at hsum
  have hB : (Finset.range 6).filter (fun j => z j = ![0, 0, 1 / r.coef 0 2]) =
      (Finset.range 6).filter (fun j => ¬ z j = ![1 / r.coef 0 0, 0, 0]) := by
    refine Finset.eq_of_subset_of_card_le (fun j hj => ?_) (by rw [p2]; omega)
    rw [Finset.mem_filter] at hj ⊢
    exact ⟨hj.1, by rw [hj.2]; exact hne.symm⟩
  refine ⟨(Finset.range 6).filter fun j => z j = ![1 / r.coef 0 0, 0, 0], Finset.filter_subset _ _, p1, fun j hj => ?_⟩
  obtain ⟨m, q, f1, f2, -, f4, f5, f6⟩ := k3 j hj
  refine ⟨m, q, f1, f2, f4, ?_, ?_⟩
  · rw [f6]
    by_cases hA : z j = ![1 / r.coef 0 0, 0, 0]
    · rw [hA]
      exact_mod_cast p1
    · have : j ∈ (Finset.range 6).filter (fun j => z j = ![0, 0, 1 / r.coef 0 2]) := by
        rw [hB, Finset.mem_filter]
        exact ⟨Finset.mem_range.2 hj, hA⟩
      rw [(Finset.mem_filter.1 this).2]
      exact_mod_cast p2
  · by_cases hA : z j = ![1 / r.coef 0 0, 0, 0]
    · rw [if_pos (Finset.mem_filter.2 ⟨Finset.mem_range.2 hj, hA⟩), ← hA]
      exact f5
    · rw [if_neg (by rw [Finset.mem_filter]; exact fun hc => hA hc.2)]
      have : j ∈ (Finset.range 6).filter (fun j => z j = ![0, 0, 1 / r.coef 0 2]) := by
        rw [hB, Finset.mem_filter]
        exact ⟨Finset.mem_range.2 hj, hA⟩
      rw [← (Finset.mem_filter.1 this).2]
      exact f5

/-- A patch off finitely many hyperplanes exists. -/
theorem exists_patch {n : ℕ} {Z : Set (Fin n → ℂ)} (hfin : Z.Finite) (h0 : ∀ ζ ∈ Z, ζ ≠ 0) :
    ∃ v : ℕ → ℂ, ∀ ζ ∈ Z, (fun j : Fin n => v j) ⬝ᵥ ζ ≠ 0 := by
  have hp : ∀ ζ ∈ Z, {s : ℂ | (fun j : Fin n => s ^ (j : ℕ)) ⬝ᵥ ζ = 0}.Finite := by
    intro ζ hζ
    set q : Polynomial ℂ := ∑ j : Fin n, Polynomial.C (ζ j) * Polynomial.X ^ (j : ℕ) with hq
    have hq0 : q ≠ 0 := by
      intro hc
      apply h0 ζ hζ
      funext l
      have := congrArg (fun p => p.coeff (l : ℕ)) hc
      simp only [hq, Polynomial.finset_sum_coeff, Polynomial.coeff_C_mul, Polynomial.coeff_X_pow, Polynomial.coeff_zero] at this
      rw [Finset.sum_eq_single l] at this
      · simpa using this
      · intro b _ hb
        rw [if_neg (fun h => hb (Fin.ext h.symm)), mul_zero]
      · intro h
        exact absurd (Finset.mem_univ _) h
    refine (q.roots.toFinset.finite_toSet).subset fun s hs => ?_
    simp only [Finset.mem_coe, Multiset.mem_toFinset, Polynomial.mem_roots hq0, Polynomial.IsRoot]
    have hs : (fun j : Fin n => s ^ (j : ℕ)) ⬝ᵥ ζ = 0 := hs
    rw [hq, Polynomial.eval_finset_sum, ← hs]
    refine Finset.sum_congr rfl fun j _ => ?_
    rw [Polynomial.eval_mul, Polynomial.eval_C, Polynomial.eval_pow, Polynomial.eval_X, mul_comm]
  obtain ⟨s, hs⟩ := (hfin.biUnion hp).infinite_compl.nonempty
  refine ⟨fun j => s ^ j, fun ζ hζ hc => hs ?_⟩
  simp only [mem_iUnion]
  exact ⟨ζ, hζ, hc⟩

/-- A solve of Griewank-Osborn to which C158 applies: from the empty state, with some patch and `γ` (see the case of
C154 for tracker, endgame and settings). -/
example (simp : Node → Node) (same : Node → Node → Bool) : ∃ (w : World) (r : Choices) (w' : World)
    (H : (Fin 3 → ℂ) × ℂ → Fin 3 → ℂ), Precon.griewankOsborn simp same 0 0 1 World.init = some w ∧
    RegularSolve simp w w' 0 1 5 [0, 1] r H ∧
    ∀ q, q ≠ 0 → (∀ j : Fin 2, H (q, 0) j.castSucc = 0) → H (q, 0) (Fin.last _) ≠ -1 := by
  obtain ⟨w, hw, -⟩ := C158_values simp same [] World.init trivial rfl 0 0 1 (by decide)
  obtain ⟨Z, h1, h2, h3⟩ := C158_generic simp same [] World.init w trivial rfl 0 1 (by decide)
    { choices (0, 0) with fresh := (· + 2) } 1000 0 1 2 3 4 5 hw (by simp) (by simp) (fun a b hab => by simpa using hab)
    (fun k => ⟨by simp, by simp⟩) (fun j _ => by
      intro hc
      have := congrArg Complex.re hc
      simp [choices, ratValue] at this)
  obtain ⟨v, hv⟩ := exists_patch h1 h2
  obtain ⟨B, -, hB⟩ := h3 (fun _ => v) hv
  obtain ⟨γ, e1, e2⟩ := exists_gamma B
  obtain ⟨w', H, -, -, e3, e4⟩ := hB γ e1 e2
  exact ⟨w, _, w', H, hw, e3, e4⟩

end

/-! ### Crossed paths -/

/-- **C158 (crossed paths).** `Precon::CrossedPaths` makes a system that evaluates to `(x^3 + 2, y^2 + 1/2)`. On the
straight line to it from `(x^3 - 1, y^2 - 1)` the six paths run apart except at `t = 1/3` and `t = 2/3`: at every other
time there are six different solutions, at `t = 1/3` there are three, at `t = 2/3` two. -/
theorem C158_crossed (simp : Node → Node) (same : Node → Node → Bool) (ops : List SysOp) (w0 : World)
    (hsafe : SafeRun simp ops World.init) (hrun : run simp ops World.init = some w0) (i : ℕ) (x y : Var) (hxy : x ≠ y) :
    ∃ w, Precon.crossedPaths simp same i x y w0 = some w ∧ ∃ f, ComputesFun simp w i 2 f ∧
      (∀ a, f a = ![a 0 ^ 3 + 2, a 1 ^ 2 + 1 / 2]) ∧
      ∀ t : ℂ, {a : Fin 2 → ℂ | (1 - t) • f a + t • ![a 0 ^ 3 - 1, a 1 ^ 2 - 1] = 0}.ncard =
        if t = 1 / 3 then 3 else if t = 2 / 3 then 2 else 6 := by
  have hnodes : Precon.crossedPaths simp same i x y w0 = run simp (Precon.ops i [x, y]
      [.sum (.cons true (.ipow (.var x) 3) (.cons true (.int 2) .nil)),
        .sum (.cons true (.ipow (.var y) 2) (.cons true (.rat (1 / 2) 0) .nil))]) w0 := by
    simp [Precon.crossedPaths, Precon.cpFirst, Precon.cpSecond, UExpr.build, mkAdd, mkPow]
  obtain ⟨w, h1, -⟩ := run_precon simp i [x, y] [.sum (.cons true (.ipow (.var x) 3) (.cons true (.int 2) .nil)),
        .sum (.cons true (.ipow (.var y) 2) (.cons true (.rat (1 / 2) 0) .nil))] w0
  refine ⟨w, by rw [hnodes, h1], fun a => ![a 0 ^ 3 + 2, a 1 ^ 2 + 1 / 2], fun a junk hj => ?_, fun a => rfl, fun t => ?_⟩
  · obtain ⟨w', h2⟩ := precon_eval simp ops w0 w hsafe hrun i [x, y] (by simp) _
      (by simp [Node.vars, Ops.vars]) h1 (fun v => if v = x then a 0 else a 1) junk (by simpa using hj)
    refine ⟨w', ?_⟩
    have e1 : [x, y].map (fun v => if v = x then a 0 else a 1) = List.ofFn a := by
      simp [hxy.symm]
    rw [e1] at h2
    rw [h2]
    simp [B2.eval, evalSum, hxy.symm]
  · have hset : {a : Fin 2 → ℂ | (1 - t) • ![a 0 ^ 3 + 2, a 1 ^ 2 + 1 / 2] + t • ![a 0 ^ 3 - 1, a 1 ^ 2 - 1] = 0} =
        (fun p : ℂ × ℂ => (![p.1, p.2] : Fin 2 → ℂ)) '' ({u | u ^ 3 = 3 * t - 2} ×ˢ {u | u ^ 2 = (3 * t - 1) / 2}) := by
      ext a
      constructor
      · intro h
        have e0 : (1 - t) * (a 0 ^ 3 + 2) + t * (a 0 ^ 3 - 1) = 0 := congrFun h 0
        have e1 : (1 - t) * (a 1 ^ 2 + 1 / 2) + t * (a 1 ^ 2 - 1) = 0 := congrFun h 1
        refine ⟨(a 0, a 1), ⟨?_, ?_⟩, ?_⟩
        · show a 0 ^ 3 = 3 * t - 2
          linear_combination e0
        · show a 1 ^ 2 = (3 * t - 1) / 2
          linear_combination e1
        · funext j
          fin_cases j <;> rfl
      · rintro ⟨⟨u, v⟩, ⟨hu, hv⟩, rfl⟩
        have hu : u ^ 3 = 3 * t - 2 := hu
        have hv : v ^ 2 = (3 * t - 1) / 2 := hv
        funext j
        fin_cases j
        · show (1 - t) * (u ^ 3 + 2) + t * (u ^ 3 - 1) = 0
          linear_combination hu
        · show (1 - t) * (v ^ 2 + 1 / 2) + t * (v ^ 2 - 1) = 0
          linear_combination hv
    rw [hset, Set.ncard_image_of_injective _ (fun p q hpq => Prod.ext (by simpa using congrFun hpq 0)
      (by simpa using congrFun hpq 1)), Set.ncard_prod]
    by_cases t1 : t = 1 / 3
    · rw [if_pos t1, cube_roots (by rw [t1]; norm_num)]
      have : {u : ℂ | u ^ 2 = (3 * t - 1) / 2} = {0} := by
        ext u
        rw [t1]
        simp
      rw [this, Set.ncard_singleton]
    rw [if_neg t1]
    have hs : {u : ℂ | u ^ 2 = (3 * t - 1) / 2}.ncard = 2 := square_roots (by
      intro hc
      apply t1
      linear_combination (2 / 3) * hc)
    rw [hs]
    by_cases t2 : t = 2 / 3
    · rw [if_pos t2]
      have : {u : ℂ | u ^ 3 = 3 * t - 2} = {0} := by
        ext u
        have h0 : (3 * (2 / 3) - 2 : ℂ) = 0 := by norm_num
        rw [t2, h0]
        simp
      rw [this, Set.ncard_singleton]
    · rw [if_neg t2, cube_roots (fun hc => t2 (by linear_combination (1 / 3) * hc))]

/-- **C158 (sphere).** `Precon::Sphere` makes a system in one group of three variables that evaluates to
`x^2 + y^2 + z^2 - 1`. -/
theorem C158_sphere (simp : Node → Node) (same : Node → Node → Bool) (ops : List SysOp) (w0 : World)
    (hsafe : SafeRun simp ops World.init) (hrun : run simp ops World.init = some w0) (i : ℕ) (x y z : Var)
    (hd : [x, y, z].Nodup) : ∃ w, Precon.sphere simp same i x y z w0 = some w ∧
      (w.objs i).vs.groups = [[x, y, z]] ∧ ∀ a b c j : ℂ, ∃ w', evalAt simp w i [j] [a, b, c] =
        some ([a ^ 2 + b ^ 2 + c ^ 2 - 1], w') := by
  set n : Node := .sum (.cons true (.sum (.cons true (.sum (.cons true (.ipow (.var x) 2)
    (.cons true (.ipow (.var y) 2) .nil))) (.cons true (.ipow (.var z) 2) .nil))) (.cons false (.int 1) .nil)) with hn
  have hnodes : Precon.sphere simp same i x y z w0 = run simp (Precon.ops i [x, y, z] [n]) w0 := by
    simp [Precon.sphere, Precon.sphereFirst, UExpr.build, mkAdd, mkSub, mkPow, hn]
  obtain ⟨w, h1, -, -, h4, -⟩ := run_precon simp i [x, y, z] [n] w0
  simp only [List.nodup_cons, List.mem_cons, List.mem_singleton, not_or, List.not_mem_nil, or_false] at hd
  refine ⟨w, by rw [hnodes, h1], by rw [h4]; rfl, fun a b c j => ?_⟩
  obtain ⟨w', h2⟩ := precon_eval simp ops w0 w hsafe hrun i [x, y, z] (by simp) [n]
    (by simp [hn, Node.vars, Ops.vars]) h1 (fun v => if v = x then a else if v = y then b else c) [j] rfl
  refine ⟨w', ?_⟩
  have e1 : [x, y, z].map (fun v => if v = x then a else if v = y then b else c) = [a, b, c] := by
    simp [Ne.symm hd.1.1, Ne.symm hd.1.2, Ne.symm hd.2.1]
  rw [e1] at h2
  rw [h2]
  simp [hn, B2.eval, evalSum, Ne.symm hd.1.1, Ne.symm hd.1.2, Ne.symm hd.2.1]
  ring

/-- All three, from the empty state. -/
example : (∃ w, Precon.griewankOsborn id (fun _ _ => false) 0 0 1 World.init = some w) ∧
    (∃ w, Precon.crossedPaths id (fun _ _ => false) 0 0 1 World.init = some w) ∧
    ∃ w, Precon.sphere id (fun _ _ => false) 0 0 1 2 World.init = some w := by
  obtain ⟨w1, h1, -⟩ := C158_values id (fun _ _ => false) [] World.init trivial rfl 0 0 1 (by decide)
  obtain ⟨w2, h2, -⟩ := C158_crossed id (fun _ _ => false) [] World.init trivial rfl 0 0 1 (by decide)
  obtain ⟨w3, h3, -⟩ := C158_sphere id (fun _ _ => false) [] World.init trivial rfl 0 0 1 2 (by decide)
  exact ⟨⟨w1, h1⟩, ⟨w2, h2⟩, w3, h3⟩

end B2.Alg.Htp
