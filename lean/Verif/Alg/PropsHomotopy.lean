import Verif.Alg.Homotopy
import Verif.System.PropsState

/-!
# Properties C139, C140: the homotopy of a zero-dimensional solve
-/

namespace B2.Alg.Htp

open B2.Sys

theorem eval_oneMinus (env : Env) (t : Var) : eval env (oneMinus t) = 1 - env t := by
  simp [oneMinus, eval, evalSum]
  ring

theorem eval_gammaTimes (env : Env) (γ : ℚ × ℚ) (t : Var) :
    eval env (gammaTimes γ t) = gammaVal γ * env t := by
  simp [gammaTimes, eval, evalMult, gammaVal]

theorem timesNew_objs (w : World) (i k l : ℕ) (N : Node) (h : l ≠ k) :
    (timesNew w i N k).objs l = w.objs l := by
  simp [timesNew, timesAssign, World.set, Function.update_of_ne h]

theorem timesNew_new (w : World) (i k : ℕ) (N : Node) :
    (timesNew w i N k).objs k = (w.objs i).copy := by
  simp [timesNew, timesAssign, World.set]

/-- The patch of a sum: the left operand's when it is patched, else the right operand's. -/
theorem plusNew_obj {w w' : World} {i j k : ℕ} (hjk : j ≠ k) (h : plusNew w i j k = some w') :
    w'.objs k = if ¬ (w.objs i).patched ∧ (w.objs j).patched then
      { (w.objs i).copy with patch := (w.objs j).patch, patched := true } else (w.objs i).copy := by
  unfold plusNew plusAssign at h
  simp only [World.set, Function.update_self, Function.update_of_ne hjk, Option.bind_eq_bind] at h
  split at h
  · simp at h
  split at h
  · simp at h
  simp only [Option.bind_eq_some_iff, Option.some.injEq] at h
  obtain ⟨heap, _, rfl⟩ := h
  simp only [Function.update_self]
  rfl

/-- Everything `FormHomotopy` does, in one lemma. -/
theorem formHomotopy_spec {simp : Node → Node} {γ : ℚ × ℚ} {t : Var} {i j a b c h : ℕ} {w w' : World}
    (hs : Setup w i j a b c h) (hr : formHomotopy simp γ t i j a b c h w = some w') :
    (∀ l, l ∉ [a, b, c, h] → w'.objs l = w.objs l) ∧
    w'.objs h = { (if ¬ (w.objs i).patched ∧ (w.objs j).patched then
      { (w.objs i).copy with patch := (w.objs j).patch, patched := true } else (w.objs i).copy) with
        path := some t, diffed := false } ∧
    (∀ env, valuesOf w' (w'.objs h) env = List.zipWith
      (fun f g => (1 - env t) * f + gammaVal γ * env t * g)
      (valuesOf w (w.objs i) env) (valuesOf w (w.objs j) env)) ∧
    (∀ env, valuesOf w' (w.objs i) env = valuesOf w' (w'.objs h) env) ∧
    (∀ env, valuesOf w' (w.objs j) env =
      (valuesOf w (w.objs j) env).map (gammaVal γ * env t * ·)) ∧
    (∀ o env, ¬ Shares o (w.objs i) → ¬ Shares o (w.objs j) →
      valuesOf w' o env = valuesOf w o env) ∧
    ∀ n ∈ w'.roots (w'.objs h), ∀ v ∈ n.vars, v = t ∨ (∃ f ∈ w.roots (w.objs i), v ∈ f.vars) ∨
      ∃ g ∈ w.roots (w.objs j), v ∈ g.vars := by
  obtain ⟨hd, hnT, hnS, hap, hlen⟩ := hs
  simp only [List.nodup_cons, List.mem_cons, List.not_mem_nil, or_false, not_or] at hd
  obtain ⟨⟨hij, hia, hib, hic, hih⟩, ⟨hja, hjb, hjc, hjh⟩, ⟨hab, hac, hah⟩, ⟨hbc, hbh⟩, hch, _⟩ := hd
  simp only [formHomotopy, homotopyOps, run, step, Option.bind_some, Option.bind_eq_some_iff] at hr
  obtain ⟨w3, h3, hr⟩ := hr
  set w1 := timesNew w i (oneMinus t) a with hw1
  set w2 := timesNew w1 j (gammaTimes γ t) b with hw2
  simp only [Option.some.injEq] at hr
  -- the objects
  have o1 : ∀ l, l ≠ a → w1.objs l = w.objs l := fun l hl => timesNew_objs _ _ _ _ _ hl
  have o1a : w1.objs a = (w.objs i).copy := timesNew_new _ _ _ _
  have o2 : ∀ l, l ≠ b → w2.objs l = w1.objs l := fun l hl => timesNew_objs _ _ _ _ _ hl
  have o2b : w2.objs b = (w.objs j).copy := by rw [hw2, timesNew_new, o1 j hja]
  have o2a : w2.objs a = (w.objs i).copy := by rw [o2 a hab, o1a]
  obtain ⟨heap, p1, p2, p3, p4⟩ := plusAssign_some h3
  have o3c := plusNew_obj hbc h3
  rw [o2a, o2b] at o3c
  have o3 : ∀ l, l ≠ c → w3.objs l = w2.objs l := by
    intro l hl
    rw [p4 l hl]
    simp [World.set, Function.update_of_ne hl]
  simp only [World.set, Function.update_self, Function.update_of_ne hbc, o2a, o2b] at p1
  change plusRoots (w.objs i).fns (w.objs j).fns w2.heap = some heap at p1
  have oh : w'.objs h = { (w3.objs c).copy with path := some t, diffed := false } := by
    rw [← hr]; simp [World.set]
  have ol : ∀ l, l ≠ h → w'.objs l = w3.objs l := by
    intro l hl
    rw [← hr]; simp [World.set, Function.update_of_ne hl]
  have ohp : w'.heap = w3.heap := by rw [← hr]; rfl
  -- values
  have v1a : ∀ env, valuesOf w1 (w1.objs a) env =
      (valuesOf w (w.objs i) env).map ((1 - env t) * ·) := by
    intro env
    have := (C23_scaling w i a (oneMinus t) env hnT hia).1
    rwa [eval_oneMinus] at this
  have off1 : ∀ o env, ¬ Shares o (w.objs i) → valuesOf w1 o env = valuesOf w o env := by
    intro o env ho
    unfold valuesOf
    congr 1
    refine roots_of_off fun f hf => ?_
    simp only [hw1, timesNew, timesAssign, World.set, Function.update_self, Obj.copy]
    exact timesRoots_off _ _ _ f fun hf' => ho ⟨f, hf, hf'⟩
  have off2 : ∀ o env, ¬ Shares o (w.objs j) → valuesOf w2 o env = valuesOf w1 o env := by
    intro o env ho
    unfold valuesOf
    congr 1
    refine roots_of_off fun f hf => ?_
    simp only [hw2, timesNew, timesAssign, World.set, Function.update_self, Obj.copy, o1 j hja]
    exact timesRoots_off _ _ _ f fun hf' => ho ⟨f, hf, hf'⟩
  have off3 : ∀ o env, ¬ Shares o (w.objs i) → valuesOf w3 o env = valuesOf w2 o env := by
    intro o env ho
    unfold valuesOf
    congr 1
    refine roots_of_off fun f hf => ?_
    rw [p2]
    exact plusRoots_off _ _ _ _ p1 f fun hf' => ho ⟨f, hf, hf'⟩
  have hap' : ¬ Shares (w.objs i) (w.objs j) := fun ⟨f, x, y⟩ => hap ⟨f, y, x⟩
  have fv : ∀ (v : World) (o o' : Obj) env, o.fns = o'.fns → valuesOf v o env = valuesOf v o' env := by
    intro v o o' env e
    simp [valuesOf, World.roots, e]
  have v2a : ∀ env, valuesOf w2 (w2.objs a) env =
      (valuesOf w (w.objs i) env).map ((1 - env t) * ·) := by
    intro env
    rw [← v1a env, o2 a hab]
    refine off2 _ _ ?_
    rw [o1a]
    exact hap'
  have v2b : ∀ env, valuesOf w2 (w2.objs b) env =
      (valuesOf w (w.objs j) env).map (gammaVal γ * env t * ·) := by
    intro env
    have := (C23_scaling w1 j b (gammaTimes γ t) env (by rw [o1 j hja]; exact hnS) hjb).1
    rw [eval_gammaTimes, o1 j hja, off1 _ _ hap] at this
    exact this
  have v3c : ∀ env, valuesOf w3 (w3.objs c) env = List.zipWith
      (fun f g => (1 - env t) * f + gammaVal γ * env t * g)
      (valuesOf w (w.objs i) env) (valuesOf w (w.objs j) env) := by
    intro env
    have := C23_sum w2 w3 a b c env (by rw [o2a]; exact hnT) hbc (by rw [o2a, o2b]; exact hap)
      (by rw [o2a, o2b]; exact hlen) h3
    rw [this, v2a, v2b, List.zipWith_map, List.zipWith_comm]
    congr 1
    funext f g
    ring
  have hfc : (w3.objs c).fns = (w.objs i).fns := by
    rw [o3c]
    split <;> rfl
  have vw : ∀ o env, valuesOf w' o env = valuesOf w3 o env := by
    intro o env
    simp [valuesOf, World.roots, ohp]
  have vh : ∀ env, valuesOf w' (w'.objs h) env = valuesOf w3 (w3.objs c) env := by
    intro env
    rw [vw]
    exact fv _ _ _ _ (by rw [oh]; rfl)
  refine ⟨?_, ?_, ?_, ?_, ?_, ?_, ?_⟩
  · intro l hl
    simp only [List.mem_cons, List.not_mem_nil, or_false, not_or] at hl
    obtain ⟨la, lb, lc, lh⟩ := hl
    rw [ol l lh, o3 l lc, o2 l lb, o1 l la]
  · rw [oh, o3c]
    have : (w.objs i).copy.patched = (w.objs i).patched := rfl
    have h2 : (w.objs j).copy.patched = (w.objs j).patched := rfl
    rw [this, h2]
    split <;> rfl
  · intro env; rw [vh, v3c]
  · intro env
    rw [vh, vw]
    exact fv _ _ _ _ hfc.symm
  · intro env
    rw [vw, off3 _ _ hap, ← v2b env]
    exact fv _ _ _ _ (by rw [o2b]; rfl)
  · intro o env ho1 ho2
    rw [vw, off3 _ _ ho1, off2 _ _ ho2, off1 _ _ ho1]
  · intro n hn v hv
    have hroots : w'.roots (w'.objs h) = (w.objs i).fns.map heap := by
      unfold World.roots
      rw [ohp, p2, ← hfc, oh]
      rfl
    rw [hroots, plusRoots_on _ _ _ _ p1 hnT (fun g hg hg' => hap ⟨g, hg, hg'⟩) hlen] at hn
    obtain ⟨⟨f, g⟩, hfg, rfl⟩ := by
      rw [← List.map_uncurry_zip_eq_zipWith] at hn
      exact List.mem_map.1 hn
    have hf := (List.of_mem_zip hfg).1
    have hg := (List.of_mem_zip hfg).2
    have hf2 : w2.heap f = .mult (.cons true (oneMinus t) (.cons true (w.heap f) .nil)) := by
      have e1 : w2.heap f = w1.heap f := by
        simp only [hw2, timesNew, timesAssign, World.set, Function.update_self, Obj.copy, o1 j hja]
        exact timesRoots_off _ _ _ f fun hf' => hap ⟨f, hf', hf⟩
      rw [e1]
      simp only [hw1, timesNew, timesAssign, World.set, Function.update_self, Obj.copy]
      exact timesRoots_on _ _ _ hnT f hf
    have hg2 : w2.heap g = .mult (.cons true (gammaTimes γ t) (.cons true (w.heap g) .nil)) := by
      have e1 : w1.heap g = w.heap g := by
        simp only [hw1, timesNew, timesAssign, World.set, Function.update_self, Obj.copy]
        exact timesRoots_off _ _ _ g fun hg' => hap ⟨g, hg, hg'⟩
      rw [← e1]
      simp only [hw2, timesNew, timesAssign, World.set, Function.update_self, Obj.copy, o1 j hja]
      exact timesRoots_on _ _ _ hnS g hg
    simp only [Function.uncurry_apply_pair, hf2, hg2, Node.vars, Ops.vars, oneMinus, gammaTimes,
      List.mem_append, List.not_mem_nil, or_false, List.mem_singleton, false_or] at hv
    rcases hv with (hv | hv) | hv | hv
    · exact Or.inl hv
    · exact Or.inr (Or.inr ⟨_, List.mem_map_of_mem hg, hv⟩)
    · exact Or.inl hv
    · exact Or.inr (Or.inl ⟨_, List.mem_map_of_mem hf, hv⟩)

theorem plusRoots_ok : ∀ (fs gs : List ℕ) (heap : ℕ → Node), fs.length = gs.length →
    ∃ heap', plusRoots fs gs heap = some heap' := by
  intro fs
  induction fs with
  | nil => intro gs heap _; exact ⟨heap, rfl⟩
  | cons f fs ih =>
    intro gs heap hl
    cases gs with
    | nil => simp at hl
    | cons g gs => exact ih gs _ (by simpa using hl)

/-- Target and start system are alike in what `operator+=` compares (`system.cpp:1297-1318`). -/
structure Alike (o o' : Obj) : Prop where
  numVariables : o.vs.numVariables = o'.vs.numVariables
  numHomVars : o.vs.numHomVars = o'.vs.numHomVars
  groups : o.vs.groups.length + o.vs.homGroups.length = o'.vs.groups.length + o'.vs.homGroups.length
  patch : o.patch = o'.patch

/-- The homotopy is formed whenever the two systems are alike. -/
theorem formHomotopy_ok (simp : Node → Node) (γ : ℚ × ℚ) (t : Var) {i j a b c h : ℕ} {w : World}
    (hs : Setup w i j a b c h) (ha : Alike (w.objs i) (w.objs j)) :
    ∃ w', formHomotopy simp γ t i j a b c h w = some w' := by
  obtain ⟨hd, -, -, -, hlen⟩ := hs
  simp only [List.nodup_cons, List.mem_cons, List.not_mem_nil, or_false, not_or] at hd
  obtain ⟨⟨hij, hia, hib, hic, hih⟩, ⟨hja, hjb, hjc, hjh⟩, ⟨hab, hac, hah⟩, ⟨hbc, hbh⟩, hch, _⟩ := hd
  obtain ⟨h1, h2, h3, h4⟩ := ha
  have o2b : (timesNew (timesNew w i (oneMinus t) a) j (gammaTimes γ t) b).objs b = (w.objs j).copy := by
    rw [timesNew_new, timesNew_objs _ _ _ _ _ hja]
  have o2a : (timesNew (timesNew w i (oneMinus t) a) j (gammaTimes γ t) b).objs a = (w.objs i).copy := by
    rw [timesNew_objs _ _ _ _ _ hab, timesNew_new]
  simp only [formHomotopy, homotopyOps, run, step, Option.bind_some]
  generalize timesNew (timesNew w i (oneMinus t) a) j (gammaTimes γ t) b = w2 at o2a o2b
  have : ∃ w3, plusNew w2 a b c = some w3 := by
    obtain ⟨heap', hh⟩ := plusRoots_ok (w.objs i).fns (w.objs j).fns w2.heap hlen
    unfold plusNew plusAssign
    simp only [World.set, Function.update_self, Function.update_of_ne hbc, Option.bind_eq_bind, o2a, o2b]
    rw [if_neg (by simp [Obj.copy, Obj.total, h1, h2, h3, h4, hlen]), if_neg (by simp [Obj.copy, h4])]
    have : (if ¬ (w.objs i).copy.copy.patched = true ∧ (w.objs j).copy.patched = true then
      { (w.objs i).copy.copy with patch := (w.objs j).copy.patch, patched := true } else
        (w.objs i).copy.copy).fns = (w.objs i).fns := by split <;> rfl
    rw [this]
    change ∃ w3, (plusRoots _ (w.objs j).fns w2.heap).bind _ = _
    rw [hh]
    exact ⟨_, rfl⟩
  obtain ⟨w3, h3⟩ := this
  rw [h3]
  exact ⟨_, rfl⟩

/-! ### C140 -/

/-- The straight line from `γ g` (at `s = 1`) to `f` (at `s = 0`). -/
noncomputable def straightLine (γ : ℚ × ℚ) (s f g : ℂ) : ℂ := (1 - s) * f + gammaVal γ * s * g

/-- **C140.** For all target and start systems, all random `γ`, all points and all times: evaluating
the homotopy at `(x, s)` succeeds and gives `(1-s) f_k(x) + γ s g_k(x)` for the functions `f_k` of the
target and `g_k` of the start system as they were before, followed by the values of the target's
patch at `x` when it is patched. The homotopy has the variables and the patch of the target, and its
path variable is `t`. -/
theorem C140 (simp : Node → Node) (γ : ℚ × ℚ) (t : Var) (i j a b c h : ℕ) (w w' : World)
    (vars : List Var) (hs : Setup w i j a b c h) (hr : formHomotopy simp γ t i j a b c h w = some w')
    (hT : Evaluable w i vars) (hS : Evaluable w j vars) (hpT : (w.objs i).path = none)
    (hpS : (w.objs j).path = none) (ht : t ∉ vars)
    (hpat : (w.objs j).patched = true → (w.objs i).patched = true)
    (hup : (w.objs i).patched = false → (w.objs i).patch = []) :
    (w'.objs h).vs = (w.objs i).vs ∧ (w'.objs h).path = some t ∧
    (w'.objs h).patched = (w.objs i).patched ∧ (w'.objs h).patch = (w.objs i).patch ∧
    ∀ (x : List ℂ) (env : Env) (s : ℂ) (junk : List ℂ), Binds vars x env → PatchFits w i x →
      junk.length = (w.objs i).total →
      ∃ pv w'', evalAtTime simp w' h junk x s = some (List.zipWith (straightLine γ s)
          (valuesOf w (w.objs i) env) (valuesOf w (w.objs j) env) ++ pv, w'') ∧
        ((w.objs i).patched = true → ∃ xs, x = xs.flatten ∧ Patch.Fits (w.objs i).patch xs ∧
          pv = List.zipWith Patch.value (w.objs i).patch xs) ∧
        ((w.objs i).patched = false → pv = []) := by
  obtain ⟨-, g2, g3, -, -, -, g5⟩ := formHomotopy_spec hs hr
  rw [if_neg (fun hc => hc.1 (hpat hc.2))] at g2
  have e1 : (w'.objs h).vs = (w.objs i).vs := by rw [g2]; rfl
  have e2 : (w'.objs h).path = some t := by rw [g2]
  have e3 : (w'.objs h).patched = (w.objs i).patched := by rw [g2]; rfl
  have e4 : (w'.objs h).patch = (w.objs i).patch := by rw [g2]; rfl
  have e5 : (w'.objs h).fns = (w.objs i).fns := by rw [g2]; rfl
  refine ⟨e1, e2, e3, e4, ?_⟩
  intro x env s junk hb hpf hj
  -- the variables other than `t` are the target's
  have fresh : ∀ o, (∀ f ∈ w.roots o, Closed vars none f) →
      valuesOf w o (Function.update env t s) = valuesOf w o env := by
    intro o ho
    refine List.map_congr_left fun f hf => eval_congr f fun v hv => ?_
    refine Function.update_of_ne (fun hvt => ht ?_) _ _
    subst hvt
    simpa using ho f hf v hv
  have hcl : ∀ f ∈ w'.roots (w'.objs h), Closed vars (w'.objs h).path f := by
    intro n hn v hv
    rcases g5 n hn v hv with rfl | ⟨f, hf, hv⟩ | ⟨f, hf, hv⟩
    · exact Or.inr e2
    · have := hT.closed f hf v hv
      rw [hpT] at this
      exact Or.inl (by simpa using this)
    · have := hS.closed f hf v hv
      rw [hpS] at this
      exact Or.inl (by simpa using this)
  have he : Evaluable w' h vars :=
    ⟨by unfold Obj.vars; rw [e1]; exact hT.listed, hcl, by rw [e5]; exact hT.nodup⟩
  have hb' : Binds vars x (Function.update env t s) := by
    rw [← hb]
    refine List.map_congr_left fun v hv => ?_
    have hvt : v ≠ t := fun e => ht (e ▸ hv)
    exact Function.update_of_ne hvt _ _
  have hsy : Sync simp w' (w'.objs h) :=
    Sync.undiffed (by rw [g2]) (fun _ => by rw [g2]; rfl)
  have hl : x.length = vars.length := by rw [← hb]; simp
  obtain ⟨w1, w2, h1, h2, htc, hc, hrd⟩ := ready_time (t := s) hsy he hb' e2 (by simp)
  obtain ⟨out, ho, hv⟩ := evalStored_ready (junk := junk) htc.sync htc.diffed (htc.evaluable he) hrd hc
    (by unfold PatchFits; rw [htc.patched, htc.patch, e3, e4]; exact hpf)
    (by rw [htc.patched, htc.patch, e3, e4]; exact hup)
    (by rw [hj]; simp [Obj.total, htc.fns, htc.patch, e4, e5])
  obtain ⟨pv, rfl, q1, q2⟩ := htc.isValue hv
  rw [e3, e4] at q1
  rw [e3] at q2
  refine ⟨pv, w2, ?_, q1, q2⟩
  have hval := g3 (Function.update env t s)
  rw [fresh _ (by rw [← hpT]; exact hT.closed), fresh _ (by rw [← hpS]; exact hS.closed)] at hval
  simp only [Function.update_self] at hval
  have hout : List.zipWith (straightLine γ s) (valuesOf w (w.objs i) env) (valuesOf w (w.objs j) env) =
      List.map (eval (Function.update env t s)) (w'.roots (w'.objs h)) := hval.symm
  rw [hout]
  simp [evalAtTime, he.listed, hl, e2, h1, h2, ho]

/-- **C140 (existence).** When target and start system have the same variable structure and patch,
`FormHomotopy` does not throw. -/
theorem C140_forms (simp : Node → Node) (γ : ℚ × ℚ) (t : Var) (i j a b c h : ℕ) (w : World)
    (hs : Setup w i j a b c h) (ha : Alike (w.objs i) (w.objs j)) :
    ∃ w', formHomotopy simp γ t i j a b c h w = some w' := formHomotopy_ok simp γ t hs ha

theorem straightLine_all_zero (γ : ℚ × ℚ) (s : ℂ) : ∀ (fs gs : List ℂ), fs.length = gs.length →
    (s = 0 → ((∀ v ∈ List.zipWith (straightLine γ s) fs gs, v = 0) ↔ ∀ f ∈ fs, f = 0)) ∧
    (s = 1 → γ ≠ (0, 0) → ((∀ v ∈ List.zipWith (straightLine γ s) fs gs, v = 0) ↔ ∀ g ∈ gs, g = 0)) := by
  have hγ : γ ≠ (0, 0) → gammaVal γ ≠ 0 := by
    intro h0 hc
    apply h0
    have hre := congrArg Complex.re hc
    have him := congrArg Complex.im hc
    simp [gammaVal] at hre him
    exact Prod.ext hre him
  intro fs
  induction fs with
  | nil => intro gs hl; cases gs <;> simp_all
  | cons f fs ih =>
    intro gs hl
    cases gs with
    | nil => simp at hl
    | cons g gs =>
      obtain ⟨h1, h2⟩ := ih gs (by simpa using hl)
      refine ⟨fun h0 => ?_, fun h0 hg => ?_⟩
      · simp only [List.zipWith_cons_cons, List.forall_mem_cons, h1 h0]
        rw [h0]
        simp [straightLine]
      · simp only [List.zipWith_cons_cons, List.forall_mem_cons, h2 h0 hg]
        rw [h0]
        simp [straightLine, hγ hg]

/-- **C140 (ends).** At time 0 all functions of the homotopy vanish exactly at the common zeros of the
target's functions; at time 1, for `γ ≠ 0`, exactly at those of the start system. -/
theorem C140_ends (simp : Node → Node) (γ : ℚ × ℚ) (t : Var) (i j a b c h : ℕ) (w w' : World)
    (hs : Setup w i j a b c h) (hr : formHomotopy simp γ t i j a b c h w = some w') (env : Env) :
    (env t = 0 → ((∀ v ∈ valuesOf w' (w'.objs h) env, v = 0) ↔
      ∀ v ∈ valuesOf w (w.objs i) env, v = 0)) ∧
    (env t = 1 → γ ≠ (0, 0) → ((∀ v ∈ valuesOf w' (w'.objs h) env, v = 0) ↔
      ∀ v ∈ valuesOf w (w.objs j) env, v = 0)) := by
  obtain ⟨-, -, g3, -⟩ := formHomotopy_spec hs hr
  rw [g3 env]
  exact straightLine_all_zero γ (env t) _ _ (by simpa [valuesOf, World.roots] using hs.same)

/-! ### C139 -/

/-- **C139, full statement.** After any history, forming the homotopy leaves the target and the start
system what they were: same values at every point. -/
def C139_full : Prop :=
  ∀ (simp : Node → Node) (ops : List SysOp) (w : World), run simp ops World.init = some w →
    ∀ (γ : ℚ × ℚ) (t : Var) (i j a b c h : ℕ) (w' : World), Setup w i j a b c h →
      formHomotopy simp γ t i j a b c h w = some w' →
      ∀ env, valuesOf w' (w'.objs i) env = valuesOf w (w.objs i) env ∧
        valuesOf w' (w'.objs j) env = valuesOf w (w.objs j) env

/-- **C139 (partial).** Forming the homotopy keeps the variables, patch, number of functions and
evaluation method of target and start system (the objects themselves are not written), and keeps
every other system that shares no function with either, such as the one the user gave, of which the
target is a clone. Missing: the values of target and start system, which change: `C139_values`. -/
theorem C139_partial (simp : Node → Node) (γ : ℚ × ℚ) (t : Var) (i j a b c h : ℕ) (w w' : World)
    (hs : Setup w i j a b c h) (hr : formHomotopy simp γ t i j a b c h w = some w') :
    w'.objs i = w.objs i ∧ w'.objs j = w.objs j ∧
    ∀ l, l ∉ [a, b, c, h] → ¬ Shares (w.objs l) (w.objs i) → ¬ Shares (w.objs l) (w.objs j) →
      w'.objs l = w.objs l ∧ ∀ env, valuesOf w' (w'.objs l) env = valuesOf w (w.objs l) env := by
  obtain ⟨g1, -, -, -, -, g6, -⟩ := formHomotopy_spec hs hr
  have hd := hs.distinct
  simp only [List.nodup_cons, List.mem_cons, List.not_mem_nil, or_false, not_or] at hd
  refine ⟨g1 i (by simp; omega), g1 j (by simp; omega), ?_⟩
  intro l hl h1 h2
  refine ⟨g1 l hl, fun env => ?_⟩
  rw [g1 l hl]
  exact g6 _ env h1 h2

/-- **C139 (what happens instead).** After the homotopy is formed the functions of the target *are*
those of the homotopy, and the functions of the start system are multiplied by `γ t`: for every
target, start system, `γ` and values of the variables. -/
theorem C139_values (simp : Node → Node) (γ : ℚ × ℚ) (t : Var) (i j a b c h : ℕ) (w w' : World)
    (hs : Setup w i j a b c h) (hr : formHomotopy simp γ t i j a b c h w = some w') (env : Env) :
    valuesOf w' (w'.objs i) env = List.zipWith (straightLine γ (env t))
      (valuesOf w (w.objs i) env) (valuesOf w (w.objs j) env) ∧
    valuesOf w' (w'.objs j) env = (valuesOf w (w.objs j) env).map (gammaVal γ * env t * ·) := by
  obtain ⟨-, -, g3, g4, g5, -, -⟩ := formHomotopy_spec hs hr
  obtain ⟨e1, e2, -⟩ := C139_partial simp γ t i j a b c h w w' hs hr
  rw [e1, e2, g4 env, g3 env, g5 env]
  exact ⟨rfl, rfl⟩

/-- **C139 (the reported residual).** `function_residual` is the norm of `TargetSystem().Eval(x)`
(`zero_dim_solve.hpp:763-765`). The target does not know `t`; its compiled program reads `t` as the
first coordinate `x_0` (`SLP.C15_foreign`). At an exact solution of the target the values whose norm
is reported are then `γ x_0 g_k(x)`, the start system's functions scaled: not zero unless `x_0 = 0`
or `x` is also a solution of the start system. -/
theorem C139_residual (simp : Node → Node) (γ : ℚ × ℚ) (t : Var) (i j a b c h : ℕ) (w w' : World)
    (hs : Setup w i j a b c h) (hr : formHomotopy simp γ t i j a b c h w = some w')
    (hγ : γ ≠ (0, 0)) (x : List ℂ) (env : Env) (hx : env t = x.headD 0)
    (hsol : ∀ v ∈ valuesOf w (w.objs i) env, v = 0) :
    valuesOf w' (w'.objs i) env =
      (valuesOf w (w.objs j) env).map (gammaVal γ * x.headD 0 * ·) ∧
    ((∀ v ∈ valuesOf w' (w'.objs i) env, v = 0) ↔
      x.headD 0 = 0 ∨ ∀ v ∈ valuesOf w (w.objs j) env, v = 0) := by
  have hg0 : gammaVal γ ≠ 0 := by
    intro hc
    apply hγ
    have hre := congrArg Complex.re hc
    have him := congrArg Complex.im hc
    simp [gammaVal] at hre him
    exact Prod.ext hre him
  have key : valuesOf w' (w'.objs i) env =
      (valuesOf w (w.objs j) env).map (gammaVal γ * x.headD 0 * ·) := by
    rw [(C139_values simp γ t i j a b c h w w' hs hr env).1, hx]
    have hl : (valuesOf w (w.objs i) env).length = (valuesOf w (w.objs j) env).length := by
      simpa [valuesOf, World.roots] using hs.same
    generalize valuesOf w (w.objs i) env = fs at hsol hl
    generalize valuesOf w (w.objs j) env = gs at hl
    induction fs generalizing gs with
    | nil => cases gs <;> simp_all
    | cons f fs ih =>
      cases gs with
      | nil => simp at hl
      | cons g gs =>
        simp only [List.zipWith_cons_cons, List.map_cons]
        rw [ih (fun v hv => hsol v (by simp [hv])) gs (by simpa using hl), hsol f (by simp)]
        simp [straightLine]
  refine ⟨key, ?_⟩
  rw [key]
  simp only [List.forall_mem_map, mul_eq_zero, hg0, false_or]
  constructor
  · intro hh
    by_cases h0 : x.headD 0 = 0
    · exact Or.inl h0
    · exact Or.inr fun v hv => (hh v hv).resolve_left h0
  · rintro (h0 | h0) v hv
    · exact Or.inl h0
    · exact Or.inr (h0 v hv)

/-! ### A concrete setup: target `x`, start system `1 - x`, both in the one variable `x`. -/

def exOps : List SysOp :=
  [.varOp 0 (·.addGroup [0]), .addFunction 0 (.var 0), .varOp 1 (·.addGroup [0]),
    .addFunction 1 (.sum (.cons true (.int 1) (.cons false (.var 0) .nil)))]

theorem exRun (simp : Node → Node) : ∃ w, run simp exOps World.init = some w ∧
    (w.objs 0).fns = [0] ∧ (w.objs 1).fns = [1] ∧ w.heap 0 = .var 0 ∧
    w.heap 1 = .sum (.cons true (.int 1) (.cons false (.var 0) .nil)) ∧
    (w.objs 0).vs = (w.objs 1).vs ∧ (w.objs 0).patch = [] ∧ (w.objs 1).patch = [] ∧
    (w.objs 0).patched = false ∧ (w.objs 1).patched = false ∧
    (w.objs 0).path = none ∧ (w.objs 1).path = none ∧ (w.objs 0).vs.ordering = some [0] := by
  refine ⟨_, rfl, ?_⟩
  simp [World.set, World.init, Obj.new]
  rfl

theorem exSetup {w : World} (h0 : (w.objs 0).fns = [0]) (h1 : (w.objs 1).fns = [1]) :
    Setup w 0 1 2 3 4 5 := by
  refine ⟨by simp, ?_, ?_, ?_, ?_⟩ <;> simp [h0, h1, Shares]

/-- **C139 refuted**: with target `x` and start system `1-x`, the target's function has the value 1 at
its solution `x = 0` (with `t = 1`) after the homotopy is formed. -/
theorem C139_refuted : ¬ C139_full := by
  intro hf
  obtain ⟨w, hr, f0, f1, r0, r1, hvs, p0, p1, -⟩ := exRun id
  have hs := exSetup f0 f1
  obtain ⟨w', hw'⟩ := formHomotopy_ok id (1, 0) 1 hs
    ⟨by rw [hvs], by rw [hvs], by rw [hvs], p0.trans p1.symm⟩
  have h1 := (hf id exOps w hr (1, 0) 1 0 1 2 3 4 5 w' hs hw' (Function.update (fun _ => 0) 1 1)).1
  rw [(C139_values id (1, 0) 1 0 1 2 3 4 5 w w' hs hw' _).1] at h1
  simp [valuesOf, World.roots, f0, f1, r0, r1, eval, evalSum, straightLine, gammaVal] at h1

/-- `C139_residual` with the roles exchanged, target `1-x` and start system `x`: at the exact solution
`x = 1` of the target the reported value is `γ`. -/
example (simp : Node → Node) (γ : ℚ × ℚ) (hγ : γ ≠ (0, 0)) : ∃ w w', run simp exOps World.init = some w ∧
    formHomotopy simp γ 1 1 0 2 3 4 5 w = some w' ∧
    valuesOf w (w.objs 1) (fun _ => 1) = [0] ∧ valuesOf w' (w'.objs 1) (fun _ => 1) = [gammaVal γ] := by
  obtain ⟨w, hr, f0, f1, r0, r1, hvs, p0, p1, -⟩ := exRun simp
  have hs : Setup w 1 0 2 3 4 5 := by
    refine ⟨by simp, ?_, ?_, ?_, ?_⟩ <;> simp [f0, f1, Shares]
  obtain ⟨w', hw'⟩ := formHomotopy_ok simp γ 1 hs
    ⟨by rw [hvs], by rw [hvs], by rw [hvs], p1.trans p0.symm⟩
  have hsol : valuesOf w (w.objs 1) (fun _ => 1) = [0] := by
    simp [valuesOf, World.roots, f1, r1, eval, evalSum]
  refine ⟨w, w', hr, hw', hsol, ?_⟩
  rw [(C139_residual simp γ 1 1 0 2 3 4 5 w w' hs hw' hγ [1] (fun _ => 1) rfl (by simp [hsol])).1]
  simp [valuesOf, World.roots, f0, r0, eval]

/-- `C140` and `C139_partial` apply to it: the homotopy of `x` and `1-x` evaluates to
`(1-s) x + γ s (1-x)`. -/
example (simp : Node → Node) (γ : ℚ × ℚ) (x s : ℂ) : ∃ w w', run simp exOps World.init = some w ∧
    formHomotopy simp γ 1 0 1 2 3 4 5 w = some w' ∧
    ∃ w'', evalAtTime simp w' 5 [0] [x] s = some ([(1 - s) * x + gammaVal γ * s * (1 - x)], w'') := by
  obtain ⟨w, hr, f0, f1, r0, r1, hvs, p0, p1, q0, q1, t0, t1, ho⟩ := exRun simp
  have hs := exSetup f0 f1
  obtain ⟨w', hw'⟩ := formHomotopy_ok simp γ 1 hs
    ⟨by rw [hvs], by rw [hvs], by rw [hvs], p0.trans p1.symm⟩
  refine ⟨w, w', hr, hw', ?_⟩
  obtain ⟨-, -, -, -, hev⟩ := C140 simp γ 1 0 1 2 3 4 5 w w' [0] hs hw'
    ⟨ho, by simp [World.roots, f0, r0, Closed, Node.vars], by simp [f0]⟩
    ⟨by unfold Obj.vars; rw [← hvs]; exact ho, by simp [World.roots, f1, r1, Closed, Node.vars, Ops.vars],
      by simp [f1]⟩ t0 t1 (by simp) (by simp [q1]) (fun _ => p0)
  obtain ⟨pv, w'', he, -, hp⟩ := hev [x] (fun _ => x) s [0] rfl (by simp [PatchFits, q0])
    (by simp [Obj.total, f0, p0])
  refine ⟨w'', ?_⟩
  rw [he, hp q0]
  simp [valuesOf, World.roots, f0, f1, r0, r1, eval, evalSum, straightLine, sub_eq_add_neg]

end B2.Alg.Htp
