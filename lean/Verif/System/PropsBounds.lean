import Verif.System.Bounds
import Verif.System.PropsStateNeg
import Verif.System.Torus
import Mathlib.Algebra.MvPolynomial.Funext
import Verif.Tree.PolyTree
import Verif.Tree.PropsDegree

/-!
# C166: the bound of the coefficients; C167: settings of adaptive precision made from a system
-/

namespace B2.Sys

open Classical

/-! ### What the loop computes -/

theorem foldl_max_le (zs : List ℂ) : ∀ m : ℝ, m ≤ zs.foldl (fun m y => max m ‖y‖) m ∧
    (∀ z ∈ zs, ‖z‖ ≤ zs.foldl (fun m y => max m ‖y‖) m) ∧
    (zs.foldl (fun m y => max m ‖y‖) m = m ∨ ∃ z ∈ zs, zs.foldl (fun m y => max m ‖y‖) m = ‖z‖) := by
  induction zs with
  | nil => intro m; exact ⟨le_rfl, by simp, Or.inl rfl⟩
  | cons z zs ih =>
    intro m
    obtain ⟨h1, h2, h3⟩ := ih (max m ‖z‖)
    simp only [List.foldl_cons]
    refine ⟨(le_max_left _ _).trans h1, ?_, ?_⟩
    · intro y hy
      rcases List.mem_cons.1 hy with rfl | hy
      · exact (le_max_right _ _).trans h1
      · exact h2 y hy
    · rcases h3 with h3 | ⟨y, hy, h3⟩
      · rcases max_choice m ‖z‖ with h | h
        · left; rw [h3, h]
        · right; exact ⟨z, by simp, by rw [h3, h]⟩
      · right; exact ⟨y, by simp [hy], h3⟩

theorem maxAbs_some {l : List ℂ} (h : l ≠ []) : ∃ m, maxAbs l = some m ∧ (∀ z ∈ l, ‖z‖ ≤ m) ∧ ∃ z ∈ l, m = ‖z‖ := by
  cases l with
  | nil => exact absurd rfl h
  | cons z zs =>
    obtain ⟨h1, h2, h3⟩ := foldl_max_le zs ‖z‖
    refine ⟨_, rfl, ?_, ?_⟩
    · intro y hy
      rcases List.mem_cons.1 hy with rfl | hy
      · exact h1
      · exact h2 y hy
    · rcases h3 with h3 | ⟨y, hy, h3⟩
      · exact ⟨z, by simp, h3⟩
      · exact ⟨y, by simp [hy], h3⟩

/-- The values of all variables at a draw: the listed variables get the coordinates of the point, the path
variable the time. -/
noncomputable def Draw.env (d : Draw) (vars : List Var) (path : Option Var) : Env :=
  match path with
  | none => bind vars d.x fun _ => 1
  | some p => Function.update (bind vars d.x fun _ => 1) p d.t

/-- A draw that can happen: one unit complex number for each variable, a unit complex number for the time,
and memory of the right shapes. For patched systems the point splits into the blocks of the patch. -/
structure Sampled (w : World) (i : ℕ) (vars : List Var) (d : Draw) : Prop where
  length : d.x.length = vars.length
  units : ∀ z ∈ d.x, ‖z‖ = 1
  time : ‖d.t‖ = 1
  vector : d.fj.length = (w.objs i).total
  shaped : Shaped w i vars d.Jj
  fits : PatchFits w i d.x

/-- A system whose functions and Jacobian can be evaluated: as for C20 and C21, with at least one function
and one variable. -/
structure Usable (w : World) (i : ℕ) (vars : List Var) : Prop extends Evaluable w i vars where
  distinct : vars.Nodup
  path : ∀ p, (w.objs i).path = some p → p ∉ vars
  patchvars : (w.objs i).patched = true → Patch.numVariables (w.objs i).patch = vars.length
  unpatched : (w.objs i).patched = false → (w.objs i).patch = []
  functions : (w.objs i).fns ≠ []
  some_variable : vars ≠ []

theorem Touched.usable {simp : Node → Node} {w w' : World} {i : ℕ} (t : Touched simp w w' i)
    {vars : List Var} (h : Usable w i vars) : Usable w' i vars :=
  { t.evaluable h.toEvaluable with
    distinct := h.distinct
    path := by rw [t.path]; exact h.path
    patchvars := by rw [t.patched, t.patch]; exact h.patchvars
    unpatched := by rw [t.patched, t.patch]; exact h.unpatched
    functions := by rw [t.fns]; exact h.functions
    some_variable := h.some_variable }

theorem Touched.sampled {simp : Node → Node} {w w' : World} {i : ℕ} (t : Touched simp w w' i)
    {vars : List Var} {d : Draw} (h : Sampled w i vars d) : Sampled w' i vars d :=
  ⟨h.length, h.units, h.time, by rw [h.vector]; simp [Obj.total, t.fns, t.patch],
    by unfold Shaped; rw [show (w'.objs i).total = (w.objs i).total by simp [Obj.total, t.fns, t.patch]]; exact h.shaped,
    by unfold PatchFits; rw [t.patched, t.patch]; exact h.fits⟩

theorem Draw.binds {w : World} {i : ℕ} {vars : List Var} (d : Draw) (hd : vars.Nodup)
    (hp : ∀ p, (w.objs i).path = some p → p ∉ vars) (hl : d.x.length = vars.length) :
    Binds vars d.x (d.env vars (w.objs i).path) := by
  have h := binds_bind hd (x := d.x) (e := fun _ => 1) hl
  unfold Draw.env
  cases hc : (w.objs i).path with
  | none => exact h
  | some p =>
    refine Eq.trans (List.map_congr_left fun v hv => ?_) h
    exact Function.update_of_ne (fun hvp : v = p => hp p hc (hvp ▸ hv)) _ _

/-- The matrix of partial derivatives, with the rows of the patch. -/
noncomputable def jacOf (w : World) (i : ℕ) (vars : List Var) (d : Draw) : List (List ℂ) :=
  (w.roots (w.objs i)).map (fun f => vars.map fun v => eval (d.env vars (w.objs i).path) (diff v f)) ++
    (if (w.objs i).patched then Patch.overwrite (w.objs i).patch 0 (d.Jj.drop (w.objs i).fns.length) else [])

theorem coefEval_ok {simp : Node → Node} (hsimp : ∀ e n, eval e (simp n) = eval e n) {w : World}
    (hg : Good simp w) {i : ℕ} {vars : List Var} (hu : Usable w i vars) {d : Draw} (hd : Sampled w i vars d) :
    ∃ out m w', coefEval simp w i d = some (m, w') ∧ Touched simp w w' i ∧
      IsValue w i (d.env vars (w.objs i).path) d.x out ∧
      (∀ z ∈ out, ‖z‖ ≤ m) ∧ (∀ z ∈ (jacOf w i vars d).flatten, ‖z‖ ≤ m) ∧
      ((∃ z ∈ out, m = ‖z‖) ∨ ∃ z ∈ (jacOf w i vars d).flatten, m = ‖z‖) := by
  have hb := d.binds (w := w) (i := i) hu.distinct hu.path hd.length
  have core : ∀ w1, Touched simp w w1 i → (w1.objs i).cur = d.x →
      Ready w1 i vars (d.env vars (w.objs i).path) →
      ∃ out w2, evalStored w1 i d.fj = some out ∧ IsValue w i (d.env vars (w.objs i).path) d.x out ∧
        jacStored simp w1 i d.Jj = some (jacOf w i vars d, w2) ∧ Touched simp w w2 i := by
    intro w1 ht hc hr
    have hu1 := ht.usable hu
    have hd1 := ht.sampled hd
    obtain ⟨out, ho, hv⟩ := evalStored_ready (junk := d.fj) ht.sync ht.diffed hu1.toEvaluable hr hc hd1.fits
      hu1.unpatched hd1.vector
    obtain ⟨w2, h2⟩ := jacStored_ready hsimp ht.sync ht.diffed hu1.toEvaluable hr hu1.patchvars hu1.unpatched hd1.shaped
    refine ⟨out, w2, ho, ht.isValue hv, ?_, ht.trans (jacStored_touched ht.sync h2)⟩
    rw [h2, jacOf, ht.roots, ht.patch, ht.patched, ht.fns]
  have fin : ∀ out, IsValue w i (d.env vars (w.objs i).path) d.x out → ∃ a b, maxAbs out = some a ∧
      maxAbs (jacOf w i vars d).flatten = some b ∧ (∀ z ∈ out, ‖z‖ ≤ max a b) ∧
      (∀ z ∈ (jacOf w i vars d).flatten, ‖z‖ ≤ max a b) ∧
      ((∃ z ∈ out, max a b = ‖z‖) ∨ ∃ z ∈ (jacOf w i vars d).flatten, max a b = ‖z‖) := by
    intro out hv
    obtain ⟨f, fs, hfs⟩ := List.exists_cons_of_ne_nil hu.functions
    obtain ⟨v, vs, hvs⟩ := List.exists_cons_of_ne_nil hu.some_variable
    have ho : out ≠ [] := by
      obtain ⟨pv, h, _⟩ := hv
      rw [h]; simp [World.roots, hfs]
    have hj : (jacOf w i vars d).flatten ≠ [] := by
      simp [jacOf, World.roots, hfs, hvs]
    obtain ⟨a, ha, ha1, za, hza, ha2⟩ := maxAbs_some ho
    obtain ⟨b, hb, hb1, zb, hzb, hb2⟩ := maxAbs_some hj
    refine ⟨a, b, ha, hb, fun z hz => (ha1 z hz).trans (le_max_left _ _),
      fun z hz => (hb1 z hz).trans (le_max_right _ _), ?_⟩
    rcases max_choice a b with h | h
    · left; exact ⟨za, hza, h.trans ha2⟩
    · right; exact ⟨zb, hzb, h.trans hb2⟩
  cases hp : (w.objs i).path with
  | none =>
    obtain ⟨w1, h1, ht, hc, hr⟩ := ready_space (hg.sync i) hu.toEvaluable hb hp
    obtain ⟨out, w2, h2, h3, h4, h5⟩ := core w1 ht hc hr
    obtain ⟨a, b, h6, h7, h8, h9, h10⟩ := fin out h3
    rw [hp] at h3
    refine ⟨out, max a b, w2, ?_, h5, h3, h8, h9, h10⟩
    unfold coefEval
    simp only [hp, Option.isSome_none, Bool.false_eq_true, if_false, evalAt, hu.listed, Option.bind_eq_bind,
      Option.bind_some, hd.length, ne_eq, not_true_eq_false, false_or, h1, h2, Option.map_some, h4, h6, h7]
  | some p =>
    have hpe : d.env vars (w.objs i).path p = d.t := by
      rw [hp]; simp [Draw.env]
    obtain ⟨w0', w1, h0, h1, ht, hc, hr⟩ := ready_time (hg.sync i) hu.toEvaluable hb hp hpe
    obtain ⟨out, w2, h2, h3, h4, h5⟩ := core w1 ht hc hr
    obtain ⟨a, b, h6, h7, h8, h9, h10⟩ := fin out h3
    rw [hp] at h3
    refine ⟨out, max a b, w2, ?_, h5, h3, h8, h9, h10⟩
    unfold coefEval
    simp only [hp, Option.isSome_some, if_true, evalAtTime, hu.listed, Option.bind_eq_bind, Option.isNone_some,
      Option.bind_some, hd.length, ne_eq, not_true_eq_false, false_or, h1, h0, h2, Option.map_some, h4, h6, h7,
      Bool.false_eq_true, if_false]

/-- `z` is one of the numbers seen at a draw: a value of a function, of a patch, or an entry of the
Jacobian. -/
def Seen (w : World) (i : ℕ) (vars : List Var) (d : Draw) (z : ℂ) : Prop :=
  (∃ out, IsValue w i (d.env vars (w.objs i).path) d.x out ∧ z ∈ out) ∨
  ∃ J, IsJacobianOver w i (d.env vars (w.objs i).path) vars d.Jj J ∧ z ∈ J.flatten

theorem coefLoop_ok {simp : Node → Node} (hsimp : ∀ e n, eval e (simp n) = eval e n) {i : ℕ} {vars : List Var} :
    ∀ (ds : List Draw) (b0 : ℝ) (w : World), Good simp w → Usable w i vars → (∀ d ∈ ds, Sampled w i vars d) →
      (∀ d ∈ ds, Differentiable w i (d.env vars (w.objs i).path) vars) →
      ∃ b w', coefLoop simp i ds b0 w = some (b, w') ∧ Good simp w' ∧ b0 ≤ b ∧
        (∀ d ∈ ds, ∀ f ∈ w.roots (w.objs i), ‖eval (d.env vars (w.objs i).path) f‖ ≤ b) ∧
        (∀ d ∈ ds, ∀ f ∈ w.roots (w.objs i), ∀ v ∈ vars, ∀ z,
          IsPartialDeriv f v (d.env vars (w.objs i).path) z → ‖z‖ ≤ b) ∧
        (b = b0 ∨ ∃ d ∈ ds, ∃ z, Seen w i vars d z ∧ b = ‖z‖) := by
  intro ds
  induction ds with
  | nil => intro b0 w hg _ _ _; exact ⟨b0, w, rfl, hg, le_rfl, by simp, by simp, Or.inl rfl⟩
  | cons d ds ih =>
    intro b0 w hg hu hs hdf
    obtain ⟨out, m, w1, h1, ht, hv, h2, h3, h4⟩ := coefEval_ok hsimp hg hu (hs d (by simp))
    have hdf' : ∀ d ∈ ds, Differentiable w1 i (d.env vars (w1.objs i).path) vars := by
      intro d' hd'
      unfold Differentiable
      rw [ht.roots, ht.path]
      exact hdf d' (by simp [hd'])
    obtain ⟨b, w2, g1, g2, g3, g4, g5, g6⟩ := ih (max m b0) w1 (ht.good hg) (ht.usable hu)
      (fun d' hd' => ht.sampled (hs d' (by simp [hd']))) hdf'
    rw [ht.roots, ht.path] at g4 g5
    have hdd := hdf d (by simp)
    have hmb : m ≤ b := (le_max_left _ _).trans g3
    refine ⟨b, w2, ?_, g2, (le_max_right _ _).trans g3, ?_, ?_, ?_⟩
    · simp [coefLoop, h1, g1]
    · intro d' hd' f hf
      rcases List.mem_cons.1 hd' with rfl | hd'
      · obtain ⟨pv, ho, _⟩ := hv
        exact (h2 _ (by rw [ho]; exact List.mem_append_left _ (List.mem_map_of_mem hf))).trans hmb
      · exact g4 d' hd' f hf
    · intro d' hd' f hf v hv' z hz
      rcases List.mem_cons.1 hd' with rfl | hd'
      · have hz2 := diff_correct v _ f (hdd f hf).1 ((hdd f hf).2 v hv')
        have : z = eval (d'.env vars (w.objs i).path) (diff v f) := hz.unique hz2
        rw [this]
        refine (h3 _ ?_).trans hmb
        refine List.mem_flatten.2 ⟨vars.map fun v => eval (d'.env vars (w.objs i).path) (diff v f), ?_,
          List.mem_map_of_mem (f := fun v => eval (d'.env vars (w.objs i).path) (diff v f)) hv'⟩
        exact List.mem_append_left _ (List.mem_map_of_mem
          (f := fun f => vars.map fun v => eval (d'.env vars (w.objs i).path) (diff v f)) hf)
      · exact g5 d' hd' f hf v hv' z hz
    · rcases g6 with g6 | ⟨d', hd', z, hz, hbz⟩
      · rcases max_choice m b0 with h | h
        · right
          refine ⟨d, by simp, ?_⟩
          rcases h4 with ⟨z, hz, hm⟩ | ⟨z, hz, hm⟩
          · exact ⟨z, Or.inl ⟨out, hv, hz⟩, by rw [g6, h, hm]⟩
          · exact ⟨z, Or.inr ⟨_, isJacobianOver_rows hdd, hz⟩, by rw [g6, h, hm]⟩
        · left; rw [g6, h]
      · right
        refine ⟨d', by simp [hd'], z, ?_, hbz⟩
        unfold Seen IsValue IsJacobianOver at hz ⊢
        rwa [ht.roots, ht.path, ht.patch, ht.patched, ht.fns] at hz

/-! ### C166 -/

/-- The functions of the system compute the polynomials `ps` in its variables and its path variable. -/
structure Computes (w : World) (i : ℕ) (vars : List Var) (ps : List (MvPolynomial Var ℂ)) : Prop where
  same : List.Forall₂ (fun f p => ∀ env, eval env f = MvPolynomial.eval env p) (w.roots (w.objs i)) ps
  smooth : ∀ env, Differentiable w i env vars

theorem forall₂_left {β γ : Type} {R : β → γ → Prop} {l : List β} {l' : List γ} (h : List.Forall₂ R l l')
    {y : γ} (hy : y ∈ l') : ∃ x ∈ l, R x y := by
  induction h with
  | nil => simp at hy
  | cons h1 _ ih =>
    rcases List.mem_cons.1 hy with rfl | hy
    · exact ⟨_, by simp, h1⟩
    · obtain ⟨x, hx, hr⟩ := ih hy; exact ⟨x, by simp [hx], hr⟩

theorem forall₂_right {β γ : Type} {R : β → γ → Prop} {l : List β} {l' : List γ} (h : List.Forall₂ R l l')
    {x : β} (hx : x ∈ l) : ∃ y ∈ l', R x y := forall₂_left h.flip hx

theorem bind_units {vars : List Var} : ∀ {x : List ℂ} {e : Env}, (∀ z ∈ x, ‖z‖ = 1) → (∀ v, ‖e v‖ = 1) →
    ∀ v, ‖bind vars x e v‖ = 1 := by
  induction vars with
  | nil => intro x e _ h2 v; simpa [bind] using h2 v
  | cons a vars ih =>
    intro x e h1 h2 v
    cases x with
    | nil => simpa [bind] using h2 v
    | cons z x =>
      have := ih (x := x) (e := Function.update e a z) (fun y hy => h1 y (by simp [hy])) (by
        intro u
        by_cases hu : u = a
        · subst hu; simpa using h1 z (by simp)
        · rw [Function.update_of_ne hu]; exact h2 u) v
      simpa [bind] using this

theorem Sampled.env_units {w : World} {i : ℕ} {vars : List Var} {d : Draw} (h : Sampled w i vars d) (path : Option Var)
    (v : Var) : ‖d.env vars path v‖ = 1 := by
  have hb := bind_units (vars := vars) (e := fun _ => 1) h.units (by simp)
  unfold Draw.env
  cases path with
  | none => exact hb v
  | some p =>
    by_cases hv : v = p
    · subst hv; simpa using h.time
    · simpa [Function.update_of_ne hv] using hb v

theorem partial_of_computes {f : Node} {p : MvPolynomial Var ℂ} (h : ∀ env, eval env f = MvPolynomial.eval env p)
    (v : Var) (env : Env) : IsPartialDeriv f v env (MvPolynomial.eval env (MvPolynomial.pderiv v p)) := by
  unfold IsPartialDeriv
  have : (fun t => eval (Function.update env v t) f) = fun t => MvPolynomial.eval (Function.update env v t) p := by
    funext t; exact h _
  rw [this]
  convert hasDerivAt_eval p env v

/-- **C166, full statement.** The number `CoefficientBound` returns, whatever unit complex numbers are drawn,
is at least the absolute value of every coefficient of every function of a polynomial system. -/
def C166_full : Prop :=
  ∀ (simp : Node → Node), (∀ e n, eval e (simp n) = eval e n) →
  ∀ (ops : List SysOp) (w : World), SafeRun simp ops World.init → run simp ops World.init = some w →
    ∀ i vars ps ds, Usable w i vars → (w.objs i).patched = false → Computes w i vars ps →
      ds ≠ [] → (∀ d ∈ ds, Sampled w i vars d) →
      ∃ b w', coefficientBound simp w i ds = some (b, w') ∧ ∀ p ∈ ps, ∀ m, ‖p.coeff m‖ ≤ b

/-- **C166 (partial).** For every system that can be evaluated and differentiated, patched or not, the call
succeeds; the result is at least the absolute value of every function and of every partial derivative at each
drawn point, and it is zero or one of the numbers seen there. Missing: that it bounds the coefficients, see
`C166_refuted`. -/
theorem C166_partial (simp : Node → Node) (hsimp : ∀ e n, eval e (simp n) = eval e n)
    (ops : List SysOp) (w : World) (hsafe : SafeRun simp ops World.init) (hrun : run simp ops World.init = some w)
    (i : ℕ) (vars : List Var) (ds : List Draw) (hu : Usable w i vars) (hs : ∀ d ∈ ds, Sampled w i vars d)
    (hdf : ∀ d ∈ ds, Differentiable w i (d.env vars (w.objs i).path) vars) :
    ∃ b w', coefficientBound simp w i ds = some (b, w') ∧ 0 ≤ b ∧
      (∀ d ∈ ds, ∀ f ∈ w.roots (w.objs i), ‖eval (d.env vars (w.objs i).path) f‖ ≤ b) ∧
      (∀ d ∈ ds, ∀ f ∈ w.roots (w.objs i), ∀ v ∈ vars, ∀ z,
        IsPartialDeriv f v (d.env vars (w.objs i).path) z → ‖z‖ ≤ b) ∧
      (b = 0 ∨ ∃ d ∈ ds, ∃ z, Seen w i vars d z ∧ b = ‖z‖) := by
  obtain ⟨b, w', h1, _, h2, h3, h4, h5⟩ := coefLoop_ok hsimp ds 0 w (run_good ops _ _ (good_init simp) hsafe hrun) hu hs hdf
  exact ⟨b, w', h1, h2, h3, h4, h5⟩

/-- **C166 (from above).** For an unpatched polynomial system whose functions have degree at most `D` and sums
of the absolute values of their coefficients at most `S`, the result is at most `max(1, D) S`, whatever is
drawn. -/
theorem C166_at_most (simp : Node → Node) (hsimp : ∀ e n, eval e (simp n) = eval e n)
    (ops : List SysOp) (w : World) (hsafe : SafeRun simp ops World.init) (hrun : run simp ops World.init = some w)
    (i : ℕ) (vars : List Var) (ds : List Draw) (ps : List (MvPolynomial Var ℂ)) (hu : Usable w i vars)
    (hp : (w.objs i).patched = false) (hc : Computes w i vars ps) (hs : ∀ d ∈ ds, Sampled w i vars d)
    (D : ℕ) (S : ℝ) (hD : ∀ p ∈ ps, p.totalDegree ≤ D) (hS : ∀ p ∈ ps, coefSum p ≤ S) :
    ∃ b w', coefficientBound simp w i ds = some (b, w') ∧ b ≤ max 1 (D : ℝ) * S := by
  obtain ⟨b, w', h1, _, _, _, h2⟩ := C166_partial simp hsimp ops w hsafe hrun i vars ds hu hs fun d _ => hc.smooth _
  refine ⟨b, w', h1, ?_⟩
  have hne : ps ≠ [] := by
    intro h
    have := hc.same.length_eq
    rw [h] at this
    exact hu.functions (List.length_eq_zero_iff.1 (by simpa [World.roots] using this))
  obtain ⟨p0, hp0⟩ := List.exists_mem_of_ne_nil ps hne
  have hS0 : 0 ≤ S := (coefSum_nonneg p0).trans (hS p0 hp0)
  rcases h2 with rfl | ⟨d, hd, z, hz, rfl⟩
  · positivity
  have hun := fun v => (hs d hd).env_units (w.objs i).path v
  rcases hz with ⟨out, ⟨pv, ho, _, hv⟩, hz⟩ | ⟨J, ⟨rows, pr, hJ, hr, _, hv⟩, hz⟩
  · rw [ho, hv hp, List.append_nil] at hz
    obtain ⟨f, hf, rfl⟩ := List.mem_map.1 hz
    obtain ⟨p, hpm, he⟩ := forall₂_right hc.same hf
    rw [he]
    refine ((norm_eval_le (fun v => (hun v).le) p).trans (hS p hpm)).trans ?_
    exact le_mul_of_one_le_left hS0 (le_max_left _ _)
  · rw [hJ, hv hp, List.append_nil] at hz
    obtain ⟨row, hrow, hz⟩ := List.mem_flatten.1 hz
    obtain ⟨f, hf, hfr⟩ := forall₂_left hr hrow
    obtain ⟨v, _, hvz⟩ := forall₂_left hfr hz
    obtain ⟨p, hpm, he⟩ := forall₂_right hc.same hf
    rw [hvz.unique (partial_of_computes he v _)]
    refine (norm_pderiv_le hun p v (hD p hpm)).trans ?_
    have h3 : (D : ℝ) * coefSum p ≤ D * S := mul_le_mul_of_nonneg_left (hS p hpm) (Nat.cast_nonneg _)
    exact h3.trans (mul_le_mul_of_nonneg_right (le_max_right _ _) hS0)

theorem eval_pderiv_linear {p : MvPolynomial Var ℂ} (hd : p.totalDegree ≤ 1) {x : Env} {j : Var} (hx : x j ≠ 0) :
    MvPolynomial.eval x (MvPolynomial.pderiv j p) = p.coeff (Finsupp.single j 1) := by
  have h := eval_X_pderiv x j p
  have h2 : ∑ m ∈ p.support, p.coeff m * (m j : ℂ) * ∏ i ∈ m.support, x i ^ m i = x j * p.coeff (Finsupp.single j 1) := by
    have hz : ∀ m ∈ p.support, m ≠ Finsupp.single j 1 → p.coeff m * (m j : ℂ) * ∏ i ∈ m.support, x i ^ m i = 0 := by
      intro m hm hne
      have : m j = 0 := by
        by_contra hc
        apply hne
        have h3 := MvPolynomial.le_totalDegree hm
        have h4 : (Finsupp.single j 1 : Var →₀ ℕ) ≤ m := by
          rw [Finsupp.single_le_iff]; omega
        have h5 : m = Finsupp.single j 1 + (m - Finsupp.single j 1) := (add_tsub_cancel_of_le h4).symm
        have h6 : (m - Finsupp.single j 1).degree = 0 := by
          have h7 : m.degree ≤ 1 := by
            have : m.degree = m.sum fun _ e => e := rfl
            omega
          rw [h5, map_add, Finsupp.degree_single] at h7
          omega
        rw [Finsupp.degree_eq_zero_iff] at h6
        rw [h5, h6, add_zero]
      rw [this]; simp
    by_cases hm : Finsupp.single j 1 ∈ p.support
    · rw [Finset.sum_eq_single_of_mem _ hm hz]
      rw [Finsupp.support_single_ne_zero _ one_ne_zero]
      simp [mul_comm]
    · rw [Finset.sum_eq_zero fun m h' => hz m h' fun h'' => hm (h'' ▸ h'), MvPolynomial.notMem_support_iff.1 hm, mul_zero]
  exact mul_left_cancel₀ hx (h.trans h2)

/-- **C166 (linear functions).** The coefficients of the variables in the functions of degree at most one are
always bounded by the result, whatever is drawn. -/
theorem C166_linear (simp : Node → Node) (hsimp : ∀ e n, eval e (simp n) = eval e n)
    (ops : List SysOp) (w : World) (hsafe : SafeRun simp ops World.init) (hrun : run simp ops World.init = some w)
    (i : ℕ) (vars : List Var) (ds : List Draw) (ps : List (MvPolynomial Var ℂ)) (hu : Usable w i vars)
    (hc : Computes w i vars ps) (hne : ds ≠ []) (hs : ∀ d ∈ ds, Sampled w i vars d) :
    ∃ b w', coefficientBound simp w i ds = some (b, w') ∧
      ∀ p ∈ ps, p.totalDegree ≤ 1 → ∀ v ∈ vars, ‖p.coeff (Finsupp.single v 1)‖ ≤ b := by
  obtain ⟨b, w', h1, _, _, h2, _⟩ := C166_partial simp hsimp ops w hsafe hrun i vars ds hu hs fun d _ => hc.smooth _
  refine ⟨b, w', h1, fun p hp hd v hv => ?_⟩
  obtain ⟨d, hdm⟩ := List.exists_mem_of_ne_nil ds hne
  obtain ⟨f, hf, he⟩ := forall₂_left hc.same hp
  have hun := (hs d hdm).env_units (w.objs i).path v
  rw [← eval_pderiv_linear hd (x := d.env vars (w.objs i).path) (j := v) (by intro h; rw [h] at hun; simp at hun)]
  exact h2 d hdm f hf v hv _ (partial_of_computes he v _)

/-- **C166 (possible draws).** For every polynomial system there are unit complex numbers for its variables
such that, once they are drawn, the result bounds the absolute values of all coefficients of all functions. -/
theorem C166_possible (simp : Node → Node) (hsimp : ∀ e n, eval e (simp n) = eval e n)
    (ops : List SysOp) (w : World) (hsafe : SafeRun simp ops World.init) (hrun : run simp ops World.init = some w)
    (i : ℕ) (vars : List Var) (ps : List (MvPolynomial Var ℂ)) (hu : Usable w i vars)
    (hc : Computes w i vars ps) (hpv : ∀ p ∈ ps, ∀ v ∈ p.vars, v ∈ vars ∨ (w.objs i).path = some v) :
    ∃ u : Env, (∀ v, ‖u v‖ = 1) ∧ ∀ ds, (∀ d ∈ ds, Sampled w i vars d) →
      (∃ d ∈ ds, d.x = vars.map u ∧ ∀ p, (w.objs i).path = some p → d.t = u p) →
      ∃ b w', coefficientBound simp w i ds = some (b, w') ∧ ∀ p ∈ ps, ∀ m, ‖p.coeff m‖ ≤ b := by
  have hmax : ∃ u : Env, (∀ v, ‖u v‖ = 1) ∧ ∃ p ∈ ps, ∀ q ∈ ps, ∀ m, ‖q.coeff m‖ ≤ ‖MvPolynomial.eval u p‖ := by
    have hne : ps ≠ [] := by
      intro h
      have := hc.same.length_eq
      rw [h] at this
      exact hu.functions (List.length_eq_zero_iff.1 (by simpa [World.roots] using this))
    obtain ⟨p0, hp0⟩ := List.exists_mem_of_ne_nil ps hne
    set C : Finset (MvPolynomial Var ℂ × (Var →₀ ℕ)) :=
      ps.toFinset.biUnion fun p => p.support.image fun m => (p, m) with hC
    by_cases hCn : C.Nonempty
    · obtain ⟨⟨p, m⟩, hpm, hle⟩ := Finset.exists_max_image C (fun a => ‖a.1.coeff a.2‖) hCn
      have hp : p ∈ ps := by
        rw [hC, Finset.mem_biUnion] at hpm
        obtain ⟨q, hq, hq2⟩ := hpm
        obtain ⟨m', _, hm'⟩ := Finset.mem_image.1 hq2
        rw [Prod.mk.injEq] at hm'
        rw [← hm'.1]; simpa using hq
      obtain ⟨u, hu1, hu2⟩ := exists_torus p m
      refine ⟨u, hu1, p, hp, fun q hq m' => ?_⟩
      by_cases hm' : m' ∈ q.support
      · have := hle (q, m') (by
          rw [hC, Finset.mem_biUnion]
          exact ⟨q, by simpa using hq, Finset.mem_image.2 ⟨m', hm', rfl⟩⟩)
        exact this.trans hu2
      · rw [MvPolynomial.notMem_support_iff.1 hm', norm_zero]; exact norm_nonneg _
    · refine ⟨fun _ => 1, by simp, p0, hp0, fun q hq m => ?_⟩
      have : m ∉ q.support := by
        intro hm
        apply hCn
        exact ⟨(q, m), by rw [hC, Finset.mem_biUnion]; exact ⟨q, by simpa using hq, Finset.mem_image.2 ⟨m, hm, rfl⟩⟩⟩
      rw [MvPolynomial.notMem_support_iff.1 this, norm_zero]; exact norm_nonneg _
  obtain ⟨u, hu1, p, hp, hle⟩ := hmax
  refine ⟨u, hu1, fun ds hs ⟨d, hd, hx, ht⟩ => ?_⟩
  obtain ⟨b, w', h1, _, h2, _, _⟩ := C166_partial simp hsimp ops w hsafe hrun i vars ds hu hs fun d _ => hc.smooth _
  refine ⟨b, w', h1, fun q hq m => (hle q hq m).trans ?_⟩
  obtain ⟨f, hf, he⟩ := forall₂_left hc.same hp
  have h3 := h2 d hd f hf
  rw [he] at h3
  have hb := d.binds (w := w) (i := i) hu.distinct hu.path (hs d hd).length
  have heq : MvPolynomial.eval u p = MvPolynomial.eval (d.env vars (w.objs i).path) p := by
    refine MvPolynomial.eval₂Hom_congr' rfl (fun v hv _ => ?_) rfl
    rcases hpv p hp v hv with h | h
    · have h4 : vars.map (d.env vars (w.objs i).path) = vars.map u := hb.trans hx
      exact (List.map_inj_left.1 h4 v h).symm
    · rw [h]; simp [Draw.env, ht v h]
  rw [heq]; exact h3

/-- `x^2 - 2 x y + y^2`, with the variables `0` and `1`. -/
def sqDiff : Node := .sum (.cons true (.ipow (.var 0) 2) (.cons false
  (.mult (.cons true (.int 2) (.cons true (.var 0) (.cons true (.var 1) .nil))))
  (.cons true (.ipow (.var 1) 2) .nil)))

def oSq : Obj := { Obj.new .slp with vs := Vars.empty.addGroup [0, 1], fns := [0] }

def wSq : World := ({ World.init with heap := Function.update (fun _ => .int 0) 0 sqDiff, next := 1 }).set 0 oSq

def buildSq : List SysOp := [.varOp 0 (·.addGroup [0, 1]), .addFunction 0 sqDiff]

theorem runSq (simp : Node → Node) : run simp buildSq World.init = some wSq := by
  simp [run, buildSq, step, wSq, World.set, World.init, oSq, Obj.new]

theorem safeSq (simp : Node → Node) : SafeRun simp buildSq World.init := by
  simp [buildSq, SafeRun, Safe]

theorem rootsSq : wSq.roots (wSq.objs 0) = [sqDiff] := by
  simp [wSq, World.set, World.init, oSq, Obj.new, World.roots]

theorem ordSq : (wSq.objs 0).vars = some [0, 1] := by rfl

theorem usableSq : Usable wSq 0 [0, 1] where
  listed := ordSq
  closed := by rw [rootsSq]; simp [sqDiff, Closed, Node.vars, Ops.vars]
  nodup := by simp [wSq, World.set, oSq, Obj.new]
  distinct := by simp
  path := by simp [wSq, World.set, oSq, Obj.new]
  patchvars := by simp [wSq, World.set, oSq, Obj.new]
  unpatched := by simp [wSq, World.set, oSq, Obj.new]
  functions := by simp [wSq, World.set, oSq, Obj.new]
  some_variable := by simp

noncomputable def polySq : MvPolynomial Var ℂ :=
  MvPolynomial.X 0 ^ 2 - MvPolynomial.C 2 * MvPolynomial.X 0 * MvPolynomial.X 1 + MvPolynomial.X 1 ^ 2

theorem eval_sqDiff (env : Env) : eval env sqDiff = (env 0 - env 1) ^ 2 := by
  simp [sqDiff, eval, evalSum, evalMult]
  norm_cast
  ring

theorem computesSq : Computes wSq 0 [0, 1] [polySq] where
  same := by
    rw [rootsSq]
    refine .cons (fun env => ?_) .nil
    rw [eval_sqDiff]
    simp [polySq]
    ring
  smooth := by
    intro env f hf
    rw [rootsSq, List.mem_singleton] at hf
    subst hf
    simp [sqDiff, Smooth, SmoothSum, SmoothMult, ExpFree, ExpFreeOps]

/-- Both variables drawn to be `1`. -/
def drawOnes : Draw := ⟨[1, 1], 1, [0], [[0, 0]]⟩

theorem sampledOnes : Sampled wSq 0 [0, 1] drawOnes where
  length := rfl
  units := by simp [drawOnes]
  time := by simp [drawOnes]
  vector := by simp [drawOnes, wSq, World.set, oSq, Obj.new, Obj.total]
  shaped := by simp [Shaped, drawOnes, wSq, World.set, oSq, Obj.new, Obj.total]
  fits := by simp [PatchFits, wSq, World.set, oSq, Obj.new]

theorem pathSq : (wSq.objs 0).path = none := by simp [wSq, World.set, oSq, Obj.new]
theorem patchedSq : (wSq.objs 0).patched = false := by simp [wSq, World.set, oSq, Obj.new]

theorem envOnes : drawOnes.env [0, 1] none = fun _ => 1 := by
  funext v
  simp [Draw.env, drawOnes, bind, Function.update_apply]

/-- When both variables are drawn to be `1`, the result for `x^2 - 2 x y + y^2` is zero. -/
theorem boundSq (simp : Node → Node) (hsimp : ∀ e n, eval e (simp n) = eval e n) :
    ∃ w', coefficientBound simp wSq 0 [drawOnes] = some (0, w') := by
  obtain ⟨b, w', h1, _, _, _, h2⟩ := C166_partial simp hsimp buildSq wSq (safeSq simp) (runSq simp) 0 [0, 1]
    [drawOnes] usableSq (by simpa using sampledOnes) fun d _ => computesSq.smooth _
  have : b = 0 := by
    rcases h2 with h | ⟨d, hd, z, hz, rfl⟩
    · exact h
    rw [List.mem_singleton] at hd
    subst hd
    rw [norm_eq_zero]
    unfold Seen at hz
    rw [pathSq, envOnes] at hz
    rcases hz with ⟨out, ⟨pv, ho, _, hv⟩, hz⟩ | ⟨J, ⟨rows, pr, hJ, hr, _, hv⟩, hz⟩
    · rw [ho, hv patchedSq, rootsSq] at hz
      simpa [eval_sqDiff] using hz
    · rw [hJ, hv patchedSq, List.append_nil] at hz
      obtain ⟨row, hrow, hz⟩ := List.mem_flatten.1 hz
      obtain ⟨f, hf, hfr⟩ := forall₂_left hr hrow
      obtain ⟨v, _, hvz⟩ := forall₂_left hfr hz
      rw [rootsSq, List.mem_singleton] at hf
      subst hf
      have he : ∀ env, eval env sqDiff = MvPolynomial.eval env polySq := by
        have := computesSq.same; rw [rootsSq] at this; exact (List.forall₂_cons.1 this).1
      rw [hvz.unique (partial_of_computes he v _)]
      simp [polySq, MvPolynomial.pderiv_X, Pi.single_apply]
      split_ifs <;> simp
  exact ⟨w', by rw [h1, this]⟩

theorem coeffSq : polySq.coeff (Finsupp.single 0 2) = 1 := by
  have h1 : (MvPolynomial.C 2 * MvPolynomial.X 0 * MvPolynomial.X 1 : MvPolynomial Var ℂ) =
      MvPolynomial.monomial (Finsupp.single 0 1 + Finsupp.single 1 1) 2 := by
    rw [← mul_one (2 : ℂ), ← one_mul ((2:ℂ) * 1), MvPolynomial.X, MvPolynomial.X, mul_assoc,
      MvPolynomial.monomial_mul, MvPolynomial.C_mul_monomial]; simp
  have h2 : ¬ ((Finsupp.single 0 1 + Finsupp.single 1 1 : Var →₀ ℕ) = Finsupp.single 0 2) := by
    intro h
    have := DFunLike.congr_fun h 1
    simp at this
  have h3 : ¬ ((Finsupp.single 1 2 : Var →₀ ℕ) = Finsupp.single 0 2) := by
    intro h
    have := DFunLike.congr_fun h 1
    simp at this
  rw [polySq, h1, MvPolynomial.X_pow_eq_monomial, MvPolynomial.X_pow_eq_monomial]
  simp only [MvPolynomial.coeff_add, MvPolynomial.coeff_sub, MvPolynomial.coeff_monomial, h2, h3, if_true, if_false]
  norm_num

theorem varsSq : polySq.vars ⊆ ({0, 1} : Finset Var) := by
  refine (MvPolynomial.vars_add_subset _ _).trans (Finset.union_subset ((MvPolynomial.vars_sub_subset _).trans
    (Finset.union_subset ((MvPolynomial.vars_pow _ _).trans (by simp [MvPolynomial.vars_X]))
      ((MvPolynomial.vars_mul _ _).trans (Finset.union_subset ((MvPolynomial.vars_mul _ _).trans
        (Finset.union_subset (by simp [MvPolynomial.vars_C]) (by simp [MvPolynomial.vars_X]))) (by simp [MvPolynomial.vars_X])))))
    ((MvPolynomial.vars_pow _ _).trans (by simp [MvPolynomial.vars_X])))

/-- **C166 refuted**: for `x^2 - 2 x y + y^2` with `x` and `y` drawn alike, the result is zero. -/
theorem C166_refuted : ¬ C166_full := by
  intro h
  obtain ⟨b, w', h1, h2⟩ := h id (fun _ _ => rfl) buildSq wSq (safeSq id) (runSq id) 0 [0, 1] [polySq] [drawOnes]
    usableSq patchedSq computesSq (by simp) (by simpa using sampledOnes)
  obtain ⟨w'', h3⟩ := boundSq id fun _ _ => rfl
  rw [h3] at h1
  have h4 := h2 polySq (by simp) (Finsupp.single 0 2)
  rw [coeffSq, ← (Prod.mk.inj (Option.some.inj h1)).1] at h4
  norm_num at h4

/-- The hypotheses of `C166_possible` are met by `x^2 - 2 x y + y^2`. -/
example : ∃ u : Env, (∀ v, ‖u v‖ = 1) ∧ ∀ ds, (∀ d ∈ ds, Sampled wSq 0 [0, 1] d) →
    (∃ d ∈ ds, d.x = [0, 1].map u ∧ ∀ p, (wSq.objs 0).path = some p → d.t = u p) →
    ∃ b w', coefficientBound id wSq 0 ds = some (b, w') ∧ ∀ p ∈ [polySq], ∀ m, ‖p.coeff m‖ ≤ b := by
  refine C166_possible id (fun _ _ => rfl) buildSq wSq (safeSq id) (runSq id) 0 [0, 1] [polySq] usableSq computesSq ?_
  intro p hp v hv
  left
  rw [List.mem_singleton] at hp
  subst hp
  have := varsSq hv
  simpa using this

/-! ### C167 -/

/-- With the path variable fixed by `env`, the functions of the system are the polynomials `ps` in its
variables. -/
def ComputesAt (w : World) (i : ℕ) (vars : List Var) (env : Env) (ps : List (MvPolynomial Var ℂ)) : Prop :=
  List.Forall₂ (fun f p => p.vars ⊆ vars.toFinset ∧
    ∀ env', AgreeOff vars env env' → eval env' f = MvPolynomial.eval env' p) (w.roots (w.objs i)) ps

/-- The inequalities the criteria of adaptive precision rest on: in the unit polydisc the sizes of the terms of
first and second order, which multiply the relative errors of the coordinates, are at most `Psi` and `Phi`. -/
def ErrorBounds (vars : List Var) (p : MvPolynomial Var ℂ) (Phi Psi : ℝ) : Prop :=
  ∀ z : Env, (∀ v, ‖z v‖ ≤ 1) →
    ∑ v ∈ vars.toFinset, ‖z v * MvPolynomial.eval z (MvPolynomial.pderiv v p)‖ ≤ Psi ∧
    ∀ u ∈ vars, ∑ v ∈ vars.toFinset, ‖z v * MvPolynomial.eval z (MvPolynomial.pderiv v (MvPolynomial.pderiv u p))‖ ≤ Phi

/-- **C167, full statement.** The settings of adaptive precision made from a polynomial system bound the
degrees, and their `Phi` and `Psi` bound the terms of first and second order in the unit polydisc. -/
def C167_full : Prop :=
  ∀ (simp : Node → Node), (∀ e n, eval e (simp n) = eval e n) →
  ∀ (ops : List SysOp) (w : World), SafeRun simp ops World.init → run simp ops World.init = some w →
    ∀ i vars env ps ds a, Usable w i vars → (∀ f ∈ w.roots (w.objs i), PolyTree f) → ComputesAt w i vars env ps →
      (∀ d ∈ ds, Sampled w i vars d) → ds ≠ [] → (∀ d ∈ ds, Differentiable w i (d.env vars (w.objs i).path) vars) →
      ∃ c w', ampFrom simp w i ds a = some (c, w') ∧ ∀ p ∈ ps, p.totalDegree ≤ c.degree_bound ∧
        ErrorBounds vars p c.Phi c.Psi

theorem foldl_max_int (l : List ℤ) : ∀ d : ℤ, d ≤ l.foldl max d ∧ (∀ e ∈ l, e ≤ l.foldl max d) ∧
    (l.foldl max d = d ∨ l.foldl max d ∈ l) := by
  induction l with
  | nil => intro d; simp
  | cons e l ih =>
    intro d
    obtain ⟨h1, h2, h3⟩ := ih (max d e)
    simp only [List.foldl_cons]
    refine ⟨(le_max_left _ _).trans h1, ?_, ?_⟩
    · intro x hx
      rcases List.mem_cons.1 hx with rfl | hx
      · exact (le_max_right _ _).trans h1
      · exact h2 x hx
    · rcases h3 with h3 | h3
      · rcases max_choice d e with h | h
        · left; rw [h3, h]
        · right; rw [h3, h]; simp
      · right; simp [h3]

theorem degreeBound_ok {w : World} {i : ℕ} {vars : List Var} (hu : Usable w i vars) :
    ∃ D, degreeBound w i = some D ∧ (∀ f ∈ w.roots (w.objs i), degG w.vals vars f ≤ D) ∧
      ∃ f ∈ w.roots (w.objs i), D = degG w.vals vars f := by
  obtain ⟨f, fs, hfs⟩ := List.exists_cons_of_ne_nil hu.functions
  have hr : w.roots (w.objs i) = w.heap f :: fs.map w.heap := by simp [World.roots, hfs]
  obtain ⟨h1, h2, h3⟩ := foldl_max_int ((fs.map w.heap).map (degG w.vals vars)) (degG w.vals vars (w.heap f))
  refine ⟨((fs.map w.heap).map (degG w.vals vars)).foldl max (degG w.vals vars (w.heap f)),
    by simp only [degreeBound, degreesOf, hu.listed, Option.map_some, hr, List.map_cons], ?_, ?_⟩
  · intro g hg
    rw [hr] at hg
    rcases List.mem_cons.1 hg with rfl | hg
    · exact h1
    · exact h2 _ (List.mem_map_of_mem hg)
  · rw [hr]
    rcases h3 with h3 | h3
    · exact ⟨_, by simp, h3⟩
    · obtain ⟨g, hg, he⟩ := List.mem_map.1 h3
      exact ⟨g, List.mem_cons_of_mem _ hg, he.symm⟩

theorem eq_of_computesAt {vars : List Var} {env : Env} {f : Node} {p : MvPolynomial Var ℂ} {D : ℤ}
    (hp : p.vars ⊆ vars.toFinset) (he : ∀ env', AgreeOff vars env env' → eval env' f = MvPolynomial.eval env' p)
    (h : IsPolyOfDegreeLE vars env f D) : (p.totalDegree : ℤ) ≤ D := by
  obtain ⟨q, hq, hd, hf⟩ := h
  have : p = q := by
    refine MvPolynomial.funext fun z => ?_
    set z' : Env := fun v => if v ∈ vars then z v else env v with hz'
    have hag : AgreeOff vars env z' := fun v hv => by simp [hz', hv]
    have h1 : ∀ r : MvPolynomial Var ℂ, r.vars ⊆ vars.toFinset → MvPolynomial.eval z r = MvPolynomial.eval z' r := by
      intro r hr
      refine MvPolynomial.eval₂Hom_congr' rfl (fun v hv _ => ?_) rfl
      have := hr hv
      rw [List.mem_toFinset] at this
      simp [hz', this]
    rw [h1 p hp, h1 q hq, ← he z' hag, hf z' hag]
  rwa [this]

/-- What the settings are, for every system that can be evaluated and differentiated. -/
theorem ampFrom_ok {simp : Node → Node} (hsimp : ∀ e n, eval e (simp n) = eval e n) {w : World} (hg : Good simp w)
    {i : ℕ} {vars : List Var} {ds : List Draw} (a : Amp) (hu : Usable w i vars) (hs : ∀ d ∈ ds, Sampled w i vars d)
    (hdf : ∀ d ∈ ds, Differentiable w i (d.env vars (w.objs i).path) vars) :
    ∃ c w' D w'' , ampFrom simp w i ds a = some (c, w') ∧ degreeBound w i = some D ∧
      coefficientBound simp w i ds = some (c.coefficient_bound, w'') ∧ 0 ≤ c.coefficient_bound ∧
      c.epsilon = (vars.length : ℝ) ^ 2 ∧ c.degree_bound = D ∧ c.Psi = D * c.coefficient_bound ∧
      c.Phi = D * (D - 1) * c.coefficient_bound := by
  obtain ⟨D, hD, _⟩ := degreeBound_ok hu
  obtain ⟨b, w', h1, _, h2, _⟩ := coefLoop_ok hsimp ds 0 w hg hu hs hdf
  have hb : coefficientBound simp w i ds = some (b, w') := h1
  refine ⟨Amp.setPhiPsi ⟨b, D, (vars.length : ℝ) ^ 2, a.Phi, a.Psi⟩, w', D, w', ?_, hD, hb, h2, rfl, rfl, rfl, rfl⟩
  simp [ampFrom, Amp.setBounds, hu.listed, hD, hb]

/-- **C167 (partial).** The settings can be made from every polynomial system; `epsilon` is the square of the
number of variables, the bound of the degrees is one, the bound of coefficients is what `CoefficientBound` says;
and for each function whose coefficients sum up, in absolute value, to no more than that bound (at the given
value of the path variable), `Psi` and `Phi` bound the terms of first and second order in the unit polydisc.
Missing: that the bound of the coefficients is one, see `C167_refuted`. -/
theorem C167_partial (simp : Node → Node) (hsimp : ∀ e n, eval e (simp n) = eval e n)
    (ops : List SysOp) (w : World) (hsafe : SafeRun simp ops World.init) (hrun : run simp ops World.init = some w)
    (i : ℕ) (vars : List Var) (env : Env) (ps : List (MvPolynomial Var ℂ)) (ds : List Draw) (a : Amp)
    (hu : Usable w i vars) (hpt : ∀ f ∈ w.roots (w.objs i), PolyTree f) (hc : ComputesAt w i vars env ps)
    (hs : ∀ d ∈ ds, Sampled w i vars d) (hdf : ∀ d ∈ ds, Differentiable w i (d.env vars (w.objs i).path) vars) :
    ∃ c w' w'', ampFrom simp w i ds a = some (c, w') ∧
      coefficientBound simp w i ds = some (c.coefficient_bound, w'') ∧ c.epsilon = (vars.length : ℝ) ^ 2 ∧
      0 ≤ c.Phi ∧ 0 ≤ c.Psi ∧
      ∀ p ∈ ps, p.totalDegree ≤ c.degree_bound ∧
        (coefSum p ≤ c.coefficient_bound → ErrorBounds vars p c.Phi c.Psi) := by
  obtain ⟨c, w', D, w'', h1, h2, h3, h4, h5, h6, h7, h8⟩ := ampFrom_ok hsimp (run_good ops _ _ (good_init simp) hsafe hrun) a hu hs hdf
  obtain ⟨D', hD', hle, f0, hf0, hD0⟩ := degreeBound_ok hu
  rw [h2] at hD'
  obtain rfl := Option.some.inj hD'
  have hDn : 0 ≤ D := hD0 ▸ poly_nonneg hu.distinct f0 (hpt f0 hf0)
  obtain ⟨n, rfl⟩ := Int.eq_ofNat_of_zero_le hDn
  have hnn : (0 : ℝ) ≤ (n : ℝ) * (n - 1) := by
    rcases Nat.eq_zero_or_pos n with rfl | hn
    · simp
    · have : (1 : ℝ) ≤ n := by exact_mod_cast hn
      exact mul_nonneg (Nat.cast_nonneg _) (by linarith)
  refine ⟨c, w', w'', h1, h3, h5, ?_, ?_, fun p hp => ?_⟩
  · rw [h8]; push_cast; exact mul_nonneg hnn h4
  · rw [h7]; push_cast; exact mul_nonneg (Nat.cast_nonneg _) h4
  obtain ⟨f, hf, hpv, he⟩ := forall₂_left hc hp
  have hdeg : p.totalDegree ≤ n := by
    have h9 := eq_of_computesAt hpv he (C03_group_degree_partial w.vals env vars f (poly_frozen f (hpt f hf))
      (fun v _ => poly_degV (hpt f hf)) (poly_nonneg hu.distinct f (hpt f hf)))
    have h10 := h9.trans (hle f hf)
    exact_mod_cast h10
  refine ⟨by rw [h6]; exact_mod_cast hdeg, fun hsum z hz => ⟨?_, fun u _ => ?_⟩⟩
  · rw [h7]
    push_cast
    exact (norm_X_pderiv_le hz p _ hdeg).trans (mul_le_mul_of_nonneg_left hsum (Nat.cast_nonneg _))
  · rw [h8]
    push_cast
    rcases Nat.eq_zero_or_pos n with rfl | hn
    · have h0 : p = MvPolynomial.C (p.coeff 0) := MvPolynomial.totalDegree_eq_zero_iff_eq_C.1 (by omega)
      rw [h0]; simp
    · have hd2 : (MvPolynomial.pderiv u p).totalDegree ≤ n - 1 := totalDegree_pderiv_le p u hdeg
      refine (norm_X_pderiv_le hz _ _ hd2).trans ?_
      have h11 : coefSum (MvPolynomial.pderiv u p) ≤ n * c.coefficient_bound :=
        (coefSum_pderiv_le p u hdeg).trans (mul_le_mul_of_nonneg_left hsum (Nat.cast_nonneg _))
      have h12 : ((n - 1 : ℕ) : ℝ) = (n : ℝ) - 1 := by rw [Nat.cast_sub hn]; simp
      rw [h12]
      have h13 : (0 : ℝ) ≤ (n : ℝ) - 1 := by rw [← h12]; exact Nat.cast_nonneg _
      calc ((n : ℝ) - 1) * coefSum (MvPolynomial.pderiv u p) ≤ ((n : ℝ) - 1) * (n * c.coefficient_bound) :=
            mul_le_mul_of_nonneg_left h11 h13
        _ = _ := by ring

theorem polyTreeSq : PolyTree sqDiff := by
  simp [sqDiff, PolyTree, PolySum, PolyMult, MonoTree]

theorem computesAtSq (env : Env) : ComputesAt wSq 0 [0, 1] env [polySq] := by
  have := computesSq.same
  unfold ComputesAt
  rw [rootsSq] at this ⊢
  exact .cons ⟨by simpa using varsSq, fun env' _ => (List.forall₂_cons.1 this).1 env'⟩ .nil

/-- The hypotheses of `C167_partial` are met by `x^2 - 2 x y + y^2`. -/
example : ∃ c w' w'', ampFrom id wSq 0 [drawOnes] ⟨0, 0, 0, 0, 0⟩ = some (c, w') ∧
      coefficientBound id wSq 0 [drawOnes] = some (c.coefficient_bound, w'') ∧ c.epsilon = (([0, 1] : List Var).length : ℝ) ^ 2 ∧
      0 ≤ c.Phi ∧ 0 ≤ c.Psi ∧
      ∀ p ∈ [polySq], p.totalDegree ≤ c.degree_bound ∧
        (coefSum p ≤ c.coefficient_bound → ErrorBounds [0, 1] p c.Phi c.Psi) :=
  C167_partial id (fun _ _ => rfl) buildSq wSq (safeSq id) (runSq id) 0 [0, 1] (fun _ => 0) [polySq] [drawOnes]
    ⟨0, 0, 0, 0, 0⟩ usableSq (by rw [rootsSq]; simpa using polyTreeSq) (computesAtSq _) (by simpa using sampledOnes)
    fun d _ => computesSq.smooth _

/-- **C167 refuted**: when both variables are drawn alike, the settings made from `x^2 - 2 x y + y^2` have
`Psi = 0`, but at `(1, -1)` the terms of first order have size 8. -/
theorem C167_refuted : ¬ C167_full := by
  intro h
  obtain ⟨c, w', h1, h2⟩ := h id (fun _ _ => rfl) buildSq wSq (safeSq id) (runSq id) 0 [0, 1] (fun _ => 0) [polySq]
    [drawOnes] ⟨0, 0, 0, 0, 0⟩ usableSq (by rw [rootsSq]; simpa using polyTreeSq) (computesAtSq _)
    (by simpa using sampledOnes) (by simp) fun d _ => computesSq.smooth _
  obtain ⟨c', w1, D, w2, g1, g2, g3, _, _, _, g4, _⟩ := ampFrom_ok (simp := id) (fun _ _ => rfl)
    (run_good buildSq _ _ (good_init id) (safeSq id) (runSq id)) ⟨0, 0, 0, 0, 0⟩ usableSq
    (ds := [drawOnes]) (by simpa using sampledOnes) fun d _ => computesSq.smooth _
  obtain ⟨w3, g5⟩ := boundSq id fun _ _ => rfl
  rw [g5] at g3
  rw [g1] at h1
  obtain rfl := (Prod.mk.inj (Option.some.inj h1)).1
  rw [← (Prod.mk.inj (Option.some.inj g3)).1, mul_zero] at g4
  have h3 := ((h2 polySq (by simp)).2 (fun v => if v = 0 then 1 else -1) (by intro v; split_ifs <;> simp)).1
  rw [g4] at h3
  have h4 := (Finset.single_le_sum (f := fun v : Var => ‖(if v = 0 then (1 : ℂ) else -1) * MvPolynomial.eval
    (fun v : Var => if v = 0 then (1 : ℂ) else -1) (MvPolynomial.pderiv v polySq)‖) (fun _ _ => norm_nonneg _)
    (show (0 : Var) ∈ ([0, 1] : List Var).toFinset by simp)).trans h3
  have h5 : MvPolynomial.eval (fun v : Var => if v = 0 then (1 : ℂ) else -1) (MvPolynomial.pderiv 0 polySq) = 4 := by
    simp [polySq, MvPolynomial.pderiv_X, Pi.single_apply]
    norm_num
  rw [h5] at h4
  norm_num at h4

/-- **C167 (functions that are not polynomials).** When no function of the system is found to be polynomial,
every one having degree `-1`, the degree bound is `-1`, so that `Psi` is minus the bound of the coefficients:
no bound at all. -/
theorem C167_nonpolynomial (simp : Node → Node) (hsimp : ∀ e n, eval e (simp n) = eval e n)
    (ops : List SysOp) (w : World) (hsafe : SafeRun simp ops World.init) (hrun : run simp ops World.init = some w)
    (i : ℕ) (vars : List Var) (ds : List Draw) (a : Amp) (hu : Usable w i vars)
    (hn : ∀ f ∈ w.roots (w.objs i), degG w.vals vars f = -1)
    (hs : ∀ d ∈ ds, Sampled w i vars d) (hdf : ∀ d ∈ ds, Differentiable w i (d.env vars (w.objs i).path) vars) :
    ∃ c w', ampFrom simp w i ds a = some (c, w') ∧ c.degree_bound = -1 ∧ c.Psi = -c.coefficient_bound ∧
      c.Phi = 2 * c.coefficient_bound ∧ c.Psi ≤ 0 := by
  obtain ⟨c, w', D, w'', h1, h2, h3, h4, h5, h6, h7, h8⟩ := ampFrom_ok hsimp (run_good ops _ _ (good_init simp) hsafe hrun) a hu hs hdf
  obtain ⟨D', hD', _, f0, hf0, hD0⟩ := degreeBound_ok hu
  rw [h2] at hD'
  obtain rfl := Option.some.inj hD'
  rw [hn f0 hf0] at hD0
  subst hD0
  push_cast at h6 h7 h8
  have h9 : c.Psi = -c.coefficient_bound := by rw [h7]; ring
  exact ⟨c, w', h1, h6, h9, by rw [h8]; ring, by rw [h9]; linarith⟩

def wExp : World := ({ World.init with heap := Function.update (fun _ => .int 0) 0 (.exp (.var 0)), next := 1 }).set 0 o0

/-- The hypotheses of `C167_nonpolynomial` are met by the system `exp(x)`. -/
example : ∃ c w', ampFrom id wExp 0 [⟨[1], 1, [0], [[0]]⟩] ⟨0, 0, 0, 0, 0⟩ = some (c, w') ∧ c.degree_bound = -1 ∧
    c.Psi = -c.coefficient_bound ∧ c.Phi = 2 * c.coefficient_bound ∧ c.Psi ≤ 0 := by
  have hr : wExp.roots (wExp.objs 0) = [.exp (.var 0)] := by
    simp [wExp, World.set, World.init, o0, Obj.new, World.roots]
  refine C167_nonpolynomial id (fun _ _ => rfl) [.varOp 0 (·.addGroup [0]), .addFunction 0 (.exp (.var 0))] wExp
    (by simp [SafeRun, Safe]) ?_ 0 [0] _ _ ?_ ?_ ?_ ?_
  · simp [run, step, wExp, World.set, World.init, o0, Obj.new]
  · exact { listed := rfl, closed := by rw [hr]; simp [Closed, Node.vars], nodup := by simp [wExp, World.set, o0],
            distinct := by simp, path := by simp [wExp, World.set, o0, Obj.new],
            patchvars := by simp [wExp, World.set, o0, Obj.new], unpatched := by simp [wExp, World.set, o0, Obj.new],
            functions := by simp [wExp, World.set, o0], some_variable := by simp }
  · rw [hr]; simp [degG, foldUnary, degV, transDeg]
  · simp only [List.mem_singleton, forall_eq]
    exact ⟨rfl, by simp, by simp, by simp [wExp, World.set, o0, Obj.new, Obj.total],
      by simp [Shaped, wExp, World.set, o0, Obj.new, Obj.total], by simp [PatchFits, wExp, World.set, o0, Obj.new]⟩
  · intro d _ f hf
    rw [hr, List.mem_singleton] at hf
    subst hf
    simp [Smooth, ExpFree]

end B2.Sys
