import Verif.Start.TotalDegree
import Verif.Patch.PropsPatch
import Verif.Tree.DegreeLemmas
import Mathlib.Tactic.FieldSimp
import Mathlib.Tactic.LinearCombination
import Mathlib.Analysis.SpecialFunctions.Complex.Log
import Mathlib.RingTheory.RootsOfUnity.Complex

/-!
# Properties C32, C33, C36: the total degree start system
-/

namespace B2.Start

open Classical B2.Sys

/-! ### C33 -/

/-- **C33 (rejections).** When the constructor does not throw, the target has exactly one affine
group, no homogeneous group, no path variable, as many functions as variables, and is polynomial as
far as `IsPolynomial` can tell. -/
theorem C33_rejects (rand : ℕ → ℚ × ℚ) (fresh : ℕ → Var) (w w' : World) (i k : ℕ)
    (h : totalDegree rand fresh w i k = some w') :
    (w.objs i).vs.groups.length = 1 ∧ (w.objs i).vs.homGroups = [] ∧ (w.objs i).path = none ∧
    (w.objs i).fns.length + (w.objs i).patch.length = (w.objs i).vs.numVariables ∧
    systemIsPoly w (w.objs i) := by
  unfold totalDegree at h
  by_cases ha : tdAccepts w (w.objs i)
  · exact ⟨ha.2.2.2.1, by simpa using ha.1, ha.2.2.1, ha.2.1, ha.2.2.2.2.2⟩
  · simp [ha] at h

theorem addFns_spec (k : ℕ) : ∀ (ns : List Node) (w : World),
    ((addFns k ns w).objs k).fns = (w.objs k).fns ++ (List.range' w.next ns.length) ∧
    ((addFns k ns w).objs k).vs = (w.objs k).vs ∧ ((addFns k ns w).objs k).patch = (w.objs k).patch ∧
    ((addFns k ns w).objs k).patched = (w.objs k).patched ∧
    ((addFns k ns w).objs k).path = (w.objs k).path ∧
    (addFns k ns w).vals = w.vals ∧
    (∀ l, l ≠ k → (addFns k ns w).objs l = w.objs l) ∧
    (∀ f, f < w.next → (addFns k ns w).heap f = w.heap f) ∧
    (List.range' w.next ns.length).map (addFns k ns w).heap = ns := by
  intro ns
  induction ns with
  | nil => intro w; simp [addFns]
  | cons n ns ih =>
    intro w
    obtain ⟨h1, h2, h3, h4, h5, h6, h7, h8, h9⟩ := ih ({ w with heap := Function.update w.heap w.next n, next := w.next + 1 }.set k
      { w.objs k with fns := (w.objs k).fns ++ [w.next], diffed := false })
    simp only [World.set, Function.update_self] at h1 h2 h3 h4 h5 h6 h7 h8 h9
    simp only [addFns, World.set]
    refine ⟨?_, h2, h3, h4, h5, h6, ?_, ?_, ?_⟩
    · rw [h1]; simp [List.range'_succ]
    · intro l hl; rw [h7 l hl]; simp [Function.update_of_ne hl]
    · intro f hf
      rw [h8 f (by omega)]
      exact Function.update_of_ne (by omega) _ _
    · rw [List.length_cons, List.range'_succ, List.map_cons, h9, h8 w.next (by omega)]
      simp

theorem tdFunctions_length : ∀ (g : List Var) (ds : List ℤ) (rs : List (ℚ × ℚ)) (fs : List Node),
    tdFunctions g ds rs = some fs → fs.length = g.length := by
  intro g
  induction g with
  | nil => intro ds rs fs h; simp [tdFunctions] at h; subst h; simp
  | cons v g ih =>
    intro ds rs fs h
    cases ds with
    | nil => simp [tdFunctions] at h
    | cons d ds =>
      cases rs with
      | nil => simp [tdFunctions] at h
      | cons r rs =>
        simp only [tdFunctions, Option.map_eq_some_iff] at h
        obtain ⟨a, h1, rfl⟩ := h
        simp [ih _ _ _ h1]

/-- What the constructor builds. -/
theorem totalDegree_spec {rand : ℕ → ℚ × ℚ} {fresh : ℕ → Var} {w w' : World} {i k : ℕ}
    (h : totalDegree rand fresh w i k = some w') : ∃ g fs, (w.objs i).vs.groups = [g] ∧
      tdFunctions g ((w.roots (w.objs i)).map (degT w.vals))
        ((List.range (w.objs i).fns.length).map rand) = some fs ∧
      (w'.objs k).fns.length = g.length ∧
      (w'.objs k).path = none ∧
      (w'.objs k).patched = (w.objs i).patched ∧
      (w'.objs k).patch = (if (w.objs i).patched then (w.objs i).patch else []) ∧
      (¬ systemIsHom w (w.objs i) → (w'.objs k).vs = (w.objs i).vs ∧ w'.roots (w'.objs k) = fs) ∧
      (systemIsHom w (w.objs i) → ∃ h, (w.objs i).vs.homVars = [h] ∧
        (w'.objs k).vs = { (w.objs i).vs with cache := none } ∧
        List.Forall₂ (fun f f' => hom w.vals (h :: g) h f = some f') fs (w'.roots (w'.objs k))) := by
  unfold totalDegree at h
  by_cases ha : tdAccepts w (w.objs i)
  swap
  · simp [ha] at h
  have hgl := ha.2.2.2.1
  obtain ⟨g, hg⟩ := List.length_eq_one_iff.1 hgl
  simp only [ha, not_true_eq_false, if_false, hg, List.headD_cons, Option.bind_eq_some_iff] at h
  obtain ⟨fs, hfs, w2, hw2, h⟩ := h
  simp only [Option.some.injEq] at h
  set o := w.objs i with ho
  set w1 := w.set k { Obj.new .slp with vs := o.vs, path := o.path } with hw1
  obtain ⟨a1, a2, a3, a4, a5, a6, a7, a8, a9⟩ := addFns_spec k fs w1
  have ek : w1.objs k = { Obj.new .slp with vs := o.vs, path := o.path } := by simp [hw1, World.set]
  rw [ek] at a1 a2 a3 a4 a5
  simp only [Obj.new, List.nil_append] at a1 a3 a4
  have hfl := tdFunctions_length _ _ _ _ hfs
  have hout : ∀ (w2 : World), w' = (if o.patched = true then w2.set k { w2.objs k with
        patch := o.patch, patched := true } else w2) →
      (w2.objs k).patched = false → (w2.objs k).patch = [] →
      (w'.objs k).fns = (w2.objs k).fns ∧ (w'.objs k).vs = (w2.objs k).vs ∧
      (w'.objs k).path = (w2.objs k).path ∧ (w'.objs k).patched = o.patched ∧
      (w'.objs k).patch = (if o.patched then o.patch else []) ∧ w'.heap = w2.heap := by
    rintro w2 rfl h1 h2
    cases hp : o.patched <;> simp [World.set, h1, h2]
  by_cases hh : systemIsHom w o
  · rw [if_pos hh] at hw2
    obtain ⟨vs, heap, _, b2, _, b4, rfl⟩ := homogenize_some hw2
    rw [a2] at b2
    have hn : o.vs.numHomVars = 1 := by rw [hh.1, hgl]
    obtain ⟨hv, hhv⟩ := List.length_eq_one_iff.1 hn
    have hvs : vs = { o.vs with cache := none } := by
      simp [Vars.homogenize, hn, hgl] at b2
      exact b2.symm
    obtain ⟨c1, c2, c3, c4, c5, c6⟩ := hout _ h.symm (by simp [World.set, a4]) (by simp [World.set, a3])
    simp only [World.set, Function.update_self] at c1 c2 c3 c6
    refine ⟨g, fs, hg, hfs, ?_, ?_, c4, c5, fun hc => absurd hh hc, fun _ => ⟨hv, hhv, ?_, ?_⟩⟩
    · rw [c1, a1]; simp [hfl]
    · rw [c3, a5]; exact ha.2.2.1
    · rw [c2, hvs]
    · unfold World.roots
      rw [c1, c6, a1]
      have hargs : homArgs fresh ((addFns k fs w1).objs k).vs = [(hv :: g, hv)] := by
        rw [a2]; simp [homArgs, hn, hg, hhv]
      rw [hargs, a1, a6] at b4
      simp only [homGroupsLoop, Option.bind_eq_some_iff, Option.some.injEq] at b4
      obtain ⟨heap', b4, rfl⟩ := b4
      have hon : ∀ (ids : List ℕ) (hp hp' : ℕ → Node), homRoots w1.vals (hv :: g) hv ids hp = some hp' →
          ids.Nodup → ∀ f ∈ ids, hom w1.vals (hv :: g) hv (hp f) = some (hp' f) := by
        intro ids
        induction ids with
        | nil => intro _ _ _ _ f hf; simp at hf
        | cons a ids ih =>
          intro hp hp' hr hnd f hf
          simp only [homRoots, Option.bind_eq_some_iff] at hr
          obtain ⟨n, hn, hr⟩ := hr
          rw [List.nodup_cons] at hnd
          by_cases hfa : f = a
          · subst hfa
            rw [homRoots_off _ _ _ _ _ _ hr f hnd.1]
            simpa using hn
          · have := ih _ _ hr hnd.2 f (by simpa [hfa] using hf)
            rwa [Function.update_of_ne hfa] at this
      have := hon _ _ _ b4 List.nodup_range'
      have hmain : List.Forall₂ (fun f f' => hom w.vals (hv :: g) hv f = some f')
          ((List.range' w1.next fs.length).map (addFns k fs w1).heap)
          ((List.range' w1.next fs.length).map heap') := by
        rw [List.forall₂_map_left_iff, List.forall₂_map_right_iff, List.forall₂_same]
        exact this
      rwa [a9] at hmain
  · rw [if_neg hh, Option.some.injEq] at hw2
    subst hw2
    obtain ⟨c1, c2, c3, c4, c5, c6⟩ := hout _ h.symm a4 a3
    refine ⟨g, fs, hg, hfs, ?_, ?_, c4, c5, fun _ => ⟨by rw [c2, a2], ?_⟩, fun hc => absurd hc hh⟩
    · rw [c1, a1]; simp [hfl]
    · rw [c3, a5]; exact ha.2.2.1
    · unfold World.roots
      rw [c1, c6, a1, a9]

/-- **C33, full statement of the second half.** Whenever the constructor does not throw, the start
system has the variable structure of the target, and as many functions (with patches) as variables. -/
def C33_full : Prop :=
  ∀ (simp : Node → Node) (ops : List SysOp) (w : World), run simp ops World.init = some w →
    ∀ (rand : ℕ → ℚ × ℚ) (fresh : ℕ → Var) (i k : ℕ) (w' : World), i ≠ k →
      totalDegree rand fresh w i k = some w' →
      (w'.objs k).vs.ordering = (w.objs i).vs.ordering ∧
      (w'.objs k).total = (w'.objs k).vs.numVariables

theorem orderingLoop_cache (s : Vars Var) (c : Option (List Var)) (b : Bool) : ∀ (l : List Kind) (a u g : ℕ)
    (acc : List Var), { s with cache := c }.orderingLoop b l a u g acc = s.orderingLoop b l a u g acc := by
  intro l
  induction l with
  | nil => intros; rfl
  | cons k l ih => intro a u g acc; cases k <;> simp only [Vars.orderingLoop, ih]

theorem ordering_cache (s : Vars Var) (c : Option (List Var)) :
    { s with cache := c }.ordering = s.ordering := by
  unfold Vars.ordering
  simp only [orderingLoop_cache]
  rfl

/-- **C33 (structure).** The variable structure is always that of the target. -/
theorem C33_variables (rand : ℕ → ℚ × ℚ) (fresh : ℕ → Var) (w w' : World) (i k : ℕ)
    (h : totalDegree rand fresh w i k = some w') :
    (w'.objs k).vs.ordering = (w.objs i).vs.ordering ∧
    (w'.objs k).vs.numVariables = (w.objs i).vs.numVariables := by
  obtain ⟨g, fs, _, _, _, _, _, _, h1, h2⟩ := totalDegree_spec h
  by_cases hh : systemIsHom w (w.objs i)
  · obtain ⟨hv, _, e, _⟩ := h2 hh
    rw [e]
    exact ⟨ordering_cache _ _, rfl⟩
  · rw [(h1 hh).1]
    exact ⟨rfl, rfl⟩

/-- **C33 (partial).** The start system is square when the target has no ungrouped variables and is
either not homogenized and not patched, or homogenized with one patch. Missing: ungrouped variables,
and homogenized targets without a patch: see `C33_refuted`. -/
theorem C33_partial (rand : ℕ → ℚ × ℚ) (fresh : ℕ → Var) (w w' : World) (i k : ℕ)
    (h : totalDegree rand fresh w i k = some w') (hu : (w.objs i).vs.ungrouped = [])
    (hp : ((w.objs i).vs.homVars = [] ∧ (w.objs i).patched = false) ∨
      ((w.objs i).vs.homVars.length = 1 ∧ (w.objs i).patched = true ∧ (w.objs i).patch.length = 1)) :
    (w'.objs k).total = (w'.objs k).vs.numVariables := by
  rw [(C33_variables _ _ _ _ _ _ h).2]
  obtain ⟨_, hh0, _, _, _⟩ := C33_rejects _ _ _ _ _ _ h
  obtain ⟨g, fs, hg, _, hl, _, _, hpatch, _, _⟩ := totalDegree_spec h
  unfold Obj.total Vars.numVariables Vars.numHomVars Vars.numNatural
  rw [hl, hpatch, hg, hh0, hu]
  rcases hp with ⟨a, b⟩ | ⟨a, b, c⟩
  · simp [a, b]
  · simp [a, b, c]; omega

def oU : Obj := { Obj.new .slp with vs := (Vars.empty.addGroup [0]).addUngrouped 1, fns := [0, 1] }

def wU : World := ({ World.init with heap := Function.update (Function.update (fun _ => .int 0) 0 (.var 0)) 1 (.var 1), next := 2 }).set 0 oU

theorem run_wU (simp : Node → Node) : run simp [.varOp 0 (·.addGroup [0]), .varOp 0 (·.addUngrouped 1),
    .addFunction 0 (.var 0), .addFunction 0 (.var 1)] World.init = some wU := by
  simp [run, step, wU, World.set, World.init, oU, Obj.new]

/-- **C33 refuted**: the target `x, u` with `x` in a group and `u` ungrouped passes all checks; the
start system has one function for two variables. -/
theorem C33_refuted : ¬ C33_full := by
  intro hall
  have ho : wU.objs 0 = oU := by simp [wU, World.set]
  have hr : wU.roots oU = [.var 0, .var 1] := by simp [World.roots, wU, World.set, oU]
  have hacc : tdAccepts wU (wU.objs 0) := by
    rw [ho]
    refine ⟨rfl, rfl, rfl, rfl, by simp [oU, Vars.numHomVars, Vars.addGroup, Vars.addUngrouped, Vars.empty], ?_⟩
    intro f hf
    rw [hr] at hf
    constructor
    · intro g hg
      simp only [oU, Vars.numHomVars, Vars.addGroup, Vars.addUngrouped, Vars.empty, List.length_nil,
        if_true, List.nil_append, List.mem_singleton] at hg
      subst hg
      simp only [List.mem_cons, List.not_mem_nil, or_false] at hf
      rcases hf with rfl | rfl <;> simp [isPoly, degG]
    · intro g hg
      simp [oU, Vars.addGroup, Vars.addUngrouped, Vars.empty] at hg
  have hnot : ¬ systemIsHom wU (wU.objs 0) := by
    rw [ho]
    intro hc
    have := hc.1
    simp [oU, Vars.numHomVars, Vars.addGroup, Vars.addUngrouped, Vars.empty] at this
  obtain ⟨w', hw⟩ : ∃ w', totalDegree (fun _ => (1, 0)) id wU 0 1 = some w' := by
    unfold totalDegree
    simp only [hacc, not_true_eq_false, if_false, hnot]
    rw [ho, hr]
    simp [oU, Vars.addGroup, Vars.addUngrouped, Vars.empty, degT, tdFunctions, Obj.new]
  have h2 := (hall id _ _ (run_wU id) _ id 0 1 w' (by simp) hw).2
  rw [(C33_variables _ _ _ _ _ _ hw).2] at h2
  obtain ⟨g, fs, hg, _, hl, _, _, hpatch, _, _⟩ := totalDegree_spec hw
  rw [Obj.total, hl, hpatch, ho] at h2
  rw [ho] at hg
  simp only [oU, Vars.addGroup, Vars.addUngrouped, Vars.empty, List.nil_append, List.cons.injEq,
    and_true] at hg
  subst hg
  simp [oU, Vars.numVariables, Vars.numHomVars, Vars.numNatural, Vars.addGroup, Vars.addUngrouped,
    Vars.empty, Obj.new] at h2

/-! ### C36 -/

/-- **C36, full statement.** `start *= node` returns, having multiplied every function. -/
def C36_full : Prop :=
  ∀ (w : World) (i : ℕ) (N : Node), TimesReturns i N w (timesAssign w i N)

/-- The call never returns, whatever the system and the node. -/
theorem C36_never_returns (w w' : World) (i : ℕ) (N : Node) : ¬ TimesReturns i N w w' := by
  intro h
  induction h with
  | body _ ih => exact ih

/-- **C36 refuted.** -/
theorem C36_refuted : ¬ C36_full := fun h => C36_never_returns _ _ _ _ (h World.init 0 (.int 1))

/-! ### C32 -/

theorem root_pow (s d : ℕ) (r : ℚ × ℚ) (hd : d ≠ 0) : tdCoord s d r ^ d = ratValue r := by
  have hd' : (d : ℂ) ≠ 0 := by exact_mod_cast hd
  unfold tdCoord
  rw [mul_pow, one_div, Complex.cpow_nat_inv_pow _ hd, ← Complex.exp_nat_mul]
  have : (d : ℂ) * (2 * Real.pi * Complex.I * s / d) = s * (2 * Real.pi * Complex.I) := by
    field_simp
  rw [this, Complex.exp_nat_mul_two_pi_mul_I, one_mul]

theorem tdCoord_inj {s s' d : ℕ} {r : ℚ × ℚ} (hr : ratValue r ≠ 0) (h1 : s < d) (h2 : s' < d)
    (h : tdCoord s d r = tdCoord s' d r) : s = s' := by
  have hd' : (d : ℂ) ≠ 0 := by exact_mod_cast (by omega : d ≠ 0)
  unfold tdCoord at h
  have hc : ratValue r ^ ((1 : ℂ) / d) ≠ 0 := by
    rw [Ne, Complex.cpow_eq_zero_iff]
    exact fun h => hr h.1
  have he := mul_right_cancel₀ hc h
  rw [Complex.exp_eq_exp_iff_exists_int] at he
  obtain ⟨n, hn⟩ := he
  have hpi : (2 * Real.pi * Complex.I : ℂ) ≠ 0 := Complex.two_pi_I_ne_zero
  have h3 : (s : ℂ) = s' + n * d := by
    have : (2 * Real.pi * Complex.I : ℂ) * s = (2 * Real.pi * Complex.I) * (s' + n * d) := by
      field_simp at hn
      linear_combination (2 * Real.pi * Complex.I : ℂ) * hn
    exact mul_left_cancel₀ hpi this
  have h4 : (s : ℤ) = s' + n * d := by exact_mod_cast h3
  have h5 : n = 0 := by
    by_contra hne
    rcases lt_or_gt_of_ne hne with h | h
    · nlinarith [mul_le_mul_of_nonneg_right (by omega : n ≤ -1) (by omega : (0 : ℤ) ≤ d)]
    · nlinarith [mul_le_mul_of_nonneg_right (by omega : (1 : ℤ) ≤ n) (by omega : (0 : ℤ) ≤ d)]
  subst h5
  omega

theorem tdCoords_eq (n : ℕ) (s degs : List ℕ) (rs : List (ℚ × ℚ)) (h1 : n ≤ s.length)
    (h2 : n ≤ degs.length) (h3 : n ≤ rs.length) :
    tdCoords n s degs rs = some ((List.range n).map fun ii =>
      tdCoord (s.getD ii 0) (degs.getD ii 0) (rs.getD ii (0, 0))) := by
  unfold tdCoords
  apply mapM_some
  intro ii hii
  rw [List.mem_range] at hii
  simp [List.getElem?_eq_getElem (by omega : ii < s.length),
    List.getElem?_eq_getElem (by omega : ii < degs.length),
    List.getElem?_eq_getElem (by omega : ii < rs.length)]

theorem tdFunctions_mem : ∀ (g : List Var) (ds : List ℤ) (rs : List (ℚ × ℚ)) (fs : List Node),
    tdFunctions g ds rs = some fs → g.length ≤ ds.length ∧ g.length ≤ rs.length ∧
    ∀ n ∈ fs, ∃ j, ∃ hj : j < g.length, n = mkSub (mkPow (.var g[j]) (ds.getD j 0))
      (.rat (rs.getD j (0, 0)).1 (rs.getD j (0, 0)).2) := by
  intro g
  induction g with
  | nil => intro ds rs fs h; simp [tdFunctions] at h; subst h; simp
  | cons v g ih =>
    intro ds rs fs h
    cases ds with
    | nil => simp [tdFunctions] at h
    | cons d ds =>
      cases rs with
      | nil => simp [tdFunctions] at h
      | cons r rs =>
        simp only [tdFunctions, Option.map_eq_some_iff] at h
        obtain ⟨a, h1, rfl⟩ := h
        obtain ⟨i1, i2, i3⟩ := ih _ _ _ h1
        refine ⟨by simpa using i1, by simpa using i2, ?_⟩
        intro n hn
        rcases List.mem_cons.1 hn with rfl | hn
        · exact ⟨0, by simp, by simp⟩
        · obtain ⟨j, hj, e⟩ := i3 n hn
          exact ⟨j + 1, by simpa using hj, by simpa using e⟩

theorem eval_tdFunction (env : Env) (v : Var) (d : ℤ) (r : ℚ × ℚ) :
    eval env (mkSub (mkPow (.var v) d) (.rat r.1 r.2)) = env v ^ d - ratValue r := by
  simp [mkSub, mkPow, eval, evalSum, ratValue, sub_eq_add_neg]

theorem degG_pow_var (cur : Env) (u : List Var) (v : Var) (d : ℤ) (hd : 0 ≤ d) (hv : v ∈ u)
    (hu : u.Nodup) : degG cur u (.ipow (.var v) d) = d := by
  simp only [degG, degV]
  rw [foldUnary_of_nonneg]
  · induction u with
    | nil => simp at hv
    | cons a u ih =>
      rw [List.nodup_cons] at hu
      simp only [List.map_cons, List.sum_cons]
      by_cases e : v = a
      · subst e
        rw [List.sum_eq_zero]
        · simp
        · intro x hx
          obtain ⟨b, hb, rfl⟩ := List.mem_map.1 hx
          have : v ≠ b := fun e => hu.1 (e ▸ hb)
          simp [this]
      · rw [ih (by simpa [e] using hv) hu.2]
        simp [e]
  · intro x hx
    obtain ⟨b, _, rfl⟩ := List.mem_map.1 hx
    by_cases e : v = b <;> simp [e, hd]

theorem eval_hom_tdFunction (cur env : Env) (g : List Var) (h v : Var) (d : ℤ) (r : ℚ × ℚ) (n' : Node)
    (hd : 0 < d) (hv : v ∈ g) (hnd : (h :: g).Nodup)
    (hh : hom cur (h :: g) h (mkSub (mkPow (.var v) d) (.rat r.1 r.2)) = some n') :
    eval env n' = env v ^ d - env h ^ d * ratValue r := by
  have h1 : degG cur (h :: g) (.ipow (.var v) d) = d :=
    degG_pow_var cur _ v d hd.le (by simp [hv]) hnd
  have h2 : degG cur (h :: g) (.rat r.1 r.2) = 0 := by simp [degG]
  simp only [mkSub, mkPow, hom, homOps, Option.bind_eq_bind, Option.bind_some, allNonneg, h1, h2,
    maxDeg, padOps] at hh
  rw [if_pos ⟨hd.le, le_rfl, trivial⟩, Option.some.injEq] at hh
  have hm : max d (max 0 0) = d := by simp [hd.le]
  rw [hm] at hh
  subst hh
  simp only [padTerm, sub_self, lt_irrefl, if_false, sub_zero, hd, if_true]
  split_ifs with h1
  · subst h1
    simp [eval, evalSum, evalMult, ratValue, sub_eq_add_neg]
  · simp [eval, evalSum, evalMult, ratValue, sub_eq_add_neg]

/-- The degrees of the target's functions are what the property is about: non-negative `int`s. -/
def DegreesOk (w : World) (o : Obj) : Prop := ∀ n ∈ w.roots o, 0 ≤ degT w.vals n ∧ degT w.vals n < 2 ^ 31

/-- The two situations a start system is used in: the target is affine and unpatched; or homogenized
and patched, its homogenizing variable being none of its own. -/
def Usual (w : World) (o : Obj) : Prop :=
  o.vs.ungrouped = [] ∧
  ((o.vs.homVars = [] ∧ o.patched = false) ∨
   (systemIsHom w o ∧ o.patched = true ∧ (∃ c, o.patch = [c]) ∧
    ∀ g ∈ o.vs.groups, ∀ h ∈ o.vs.homVars, (h :: g).Nodup))

theorem vars_affine {s : Vars Var} {g vars : List Var} (hg : s.groups = [g]) (hu : s.ungrouped = [])
    (hh : s.homGroups = []) (hv : s.homVars = []) (h : s.ordering = some vars) : vars = g := by
  have hl : s.numHomVars = 0 := by simp [Vars.numHomVars, hv]
  simp only [Vars.ordering, hl, gt_iff_lt, lt_irrefl, decide_false, Bool.false_eq_true, false_and,
    if_false, Option.bind_eq_bind, Option.bind_eq_some_iff] at h
  obtain ⟨l, h1, h2⟩ := h
  split_ifs at h2 with h3
  simp only [Option.some.injEq] at h2
  subst h2
  have hn : s.numVariables = g.length := by
    simp [Vars.numVariables, Vars.numHomVars, Vars.numNatural, hg, hu, hh, hv]
  rw [hn, not_not] at h3
  cases ho : s.order with
  | nil =>
    rw [ho] at h1
    simp only [Vars.orderingLoop, Option.some.injEq] at h1
    subst h1
    exact (List.length_eq_zero_iff.1 (by simpa using h3.symm)).symm
  | cons k r =>
    rw [ho] at h1
    cases k with
    | affine =>
      simp only [Vars.orderingLoop, hg, Bool.false_eq_true, if_false, Option.bind_eq_bind,
        Option.bind_some, List.getElem?_cons_zero, List.nil_append] at h1
      cases r with
      | nil => simpa [Vars.orderingLoop] using h1.symm
      | cons k r => cases k <;> simp [Vars.orderingLoop, hg, hh, hu] at h1
    | homogeneous => simp [Vars.orderingLoop, hh] at h1
    | ungrouped => simp [Vars.orderingLoop, hu] at h1

theorem vars_hom {s : Vars Var} {g vars : List Var} {h : Var} (hg : s.groups = [g])
    (hu : s.ungrouped = []) (hh : s.homGroups = []) (hv : s.homVars = [h])
    (ho : s.ordering = some vars) : vars = h :: g := by
  have hl : s.numHomVars = 1 := by simp [Vars.numHomVars, hv]
  simp only [Vars.ordering, hl, gt_iff_lt, zero_lt_one, decide_true, hg, List.length_singleton, ne_eq,
    not_true_eq_false, and_false,
    if_false, Option.bind_eq_bind, Option.bind_eq_some_iff] at ho
  obtain ⟨l, h1, h2⟩ := ho
  split_ifs at h2 with h3
  simp only [Option.some.injEq] at h2
  subst h2
  have hn : s.numVariables = g.length + 1 := by
    simp [Vars.numVariables, Vars.numHomVars, Vars.numNatural, hg, hu, hh, hv, add_comm]
  rw [hn] at h3
  cases ho : s.order with
  | nil =>
    rw [ho] at h1
    simp only [Vars.orderingLoop, Option.some.injEq] at h1
    subst h1
    simp at h3
  | cons k r =>
    rw [ho] at h1
    cases k with
    | affine =>
      simp only [Vars.orderingLoop, hg, hv, if_true, Option.bind_eq_bind, Option.map_some,
        Option.bind_some, List.getElem?_cons_zero, List.nil_append] at h1
      cases r with
      | nil => simpa [Vars.orderingLoop] using h1.symm
      | cons k r => cases k <;> simp [Vars.orderingLoop, hg, hh, hu, hv] at h1
    | homogeneous => simp [Vars.orderingLoop, hh] at h1
    | ungrouped => simp [Vars.orderingLoop, hu] at h1

/-- The coordinates of start point `index` before rescaling. -/
noncomputable def rawPoint (n : ℕ) (s degs : List ℕ) (rand : ℕ → ℚ × ℚ) : List ℂ :=
  (List.range n).map fun ii => tdCoord (s.getD ii 0) (degs.getD ii 0) (rand ii)

theorem tdDegrees_getD {w : World} {o : Obj} (hd : DegreesOk w o) (j : ℕ) (hj : j < o.fns.length) :
    ((tdDegrees w o).getD j 0 : ℤ) = ((w.roots o).map (degT w.vals)).getD j 0 ∧
    0 ≤ ((w.roots o).map (degT w.vals)).getD j 0 := by
  have hl : j < (w.roots o).length := by simpa [World.roots] using hj
  have := hd _ (List.getElem_mem hl)
  simp only [tdDegrees, List.getD_eq_getElem?_getD, List.getElem?_map, List.getElem?_eq_getElem hl,
    Option.map_some, Option.getD_some]
  refine ⟨?_, this.1⟩
  rw [Int.emod_eq_of_lt this.1 (by omega)]
  omega

theorem inBox_of {index : ℕ} {dims s : List ℕ} (h : indexToSubscript index dims = some s) :
    InBox s dims := by
  have hd : dims ≠ [] := by rintro rfl; simp [indexToSubscript, strides] at h
  obtain ⟨h1, _, h3⟩ := C31_bijection dims hd
  have lt : index < dims.prod := by
    by_contra hc
    rw [h3 _ (by omega)] at h
    simp at h
  obtain ⟨s', e, hb, _⟩ := h1 index lt
  rw [e, Option.some.injEq] at h
  exact h ▸ hb

/-- In the usual situations `GenerateStartPoint` computes, from the subscript of the index, the raw
point, with a leading 1 and rescaled when patched. -/
theorem startPoint_eq {rand : ℕ → ℚ × ℚ} {fresh : ℕ → Var} {w w' : World} {i k : ℕ}
    (h : totalDegree rand fresh w i k = some w') (hus : Usual w (w.objs i)) (index : ℕ) :
    startPoint (w'.objs k) (tdDegrees w (w.objs i)) ((List.range (w.objs i).fns.length).map rand) index =
    (indexToSubscript index (tdDegrees w (w.objs i))).bind fun s =>
      if (w.objs i).patched then
        Patch.rescale (w.objs i).patch (1 :: rawPoint (w.objs i).fns.length s (tdDegrees w (w.objs i)) rand)
      else some (rawPoint (w.objs i).fns.length s (tdDegrees w (w.objs i)) rand) := by
  obtain ⟨hg1, hh0, _, hsq, _⟩ := C33_rejects _ _ _ _ _ _ h
  obtain ⟨g, fs, hg, hfs, hl, _, hpd, hpatch, hA, hB⟩ := totalDegree_spec h
  obtain ⟨m1, m2, m3⟩ := tdFunctions_mem _ _ _ _ hfs
  obtain ⟨hu, hus⟩ := hus
  simp only [World.roots, List.length_map] at m1
  have hnat : (w'.objs k).vs.numNatural = g.length := by
    by_cases hh : systemIsHom w (w.objs i)
    · obtain ⟨hv, _, e, _⟩ := hB hh
      rw [e]
      simp [Vars.numNatural, hg, hh0, hu]
    · rw [(hA hh).1]
      simp [Vars.numNatural, hg, hh0, hu]
  have hnv : (w'.objs k).vs.numVariables = (w.objs i).vs.homVars.length + g.length := by
    rw [(C33_variables _ _ _ _ _ _ h).2]
    simp [Vars.numVariables, Vars.numNatural, Vars.numHomVars, hg, hh0, hu]
  have hsq' : (w.objs i).fns.length + (w.objs i).patch.length =
      (w.objs i).vs.homVars.length + g.length := by
    rw [hsq]; simp [Vars.numVariables, Vars.numNatural, Vars.numHomVars, hg, hh0, hu]
  have hfl : (w.objs i).fns.length = g.length := by
    rcases hus with ⟨a, _⟩ | ⟨a, _, ⟨c, b⟩, _⟩
    · rw [a] at hsq'; simp at hsq'; omega
    · rw [b] at hsq'
      have := a.1
      simp only [Vars.numHomVars] at this
      simp only [List.length_singleton] at hsq'
      omega
  unfold startPoint
  cases hsub : indexToSubscript index (tdDegrees w (w.objs i)) with
  | none => simp
  | some s =>
    have hs : g.length ≤ s.length := by
      have := (inBox_of hsub).length_eq
      simp only [tdDegrees, World.roots, List.length_map] at this
      omega
    rw [Option.bind_some, Option.bind_some, hnat,
      tdCoords_eq _ _ _ _ hs (by simp [tdDegrees, World.roots]; omega) (by simp; omega)]
    have hraw : ((List.range g.length).map fun ii => tdCoord (s.getD ii 0)
        ((tdDegrees w (w.objs i)).getD ii 0) (((List.range (w.objs i).fns.length).map rand).getD ii (0, 0))) =
        rawPoint (w.objs i).fns.length s (tdDegrees w (w.objs i)) rand := by
      rw [rawPoint, hfl]
      apply List.map_congr_left
      intro ii hii
      rw [List.mem_range] at hii
      congr 1
      simp [List.getD, List.getElem?_eq_getElem (by simpa using hii : ii < (List.range g.length).length)]
    rw [hraw, Option.bind_some, hpd, hpatch, hnv]
    have hrl : (rawPoint (w.objs i).fns.length s (tdDegrees w (w.objs i)) rand).length = g.length := by
      simp [rawPoint, hfl]
    rcases hus with ⟨a, b⟩ | ⟨a, b, c, _⟩
    · simp [a, b, hrl]
    · have := a.1
      simp only [Vars.numHomVars, hg, List.length_singleton] at this
      simp [b, hrl, this, add_comm]

theorem rescale_one (c x y : List ℂ) (h : Patch.rescale [c] x = some y) :
    x.length = c.length ∧ Patch.dot x c ≠ 0 ∧ y = x.map (· / Patch.dot x c) := by
  unfold Patch.rescale at h
  by_cases h1 : x.length = c.length
  · have hn : Patch.numVariables [c] = c.length := by simp [Patch.numVariables]
    rw [hn, if_neg (by simpa using h1)] at h
    simp only [Patch.rescaleLoop, zero_add, List.drop_zero, ← h1, lt_irrefl, if_false,
      List.take_length, List.take_zero, List.nil_append, List.drop_length, List.append_nil] at h
    split_ifs at h with h2
    exact ⟨h1, h2, by simpa using h.symm⟩
  · rw [if_pos (by simpa [Patch.numVariables] using h1)] at h
    simp at h

theorem rescale_one_total (c x : List ℂ) (h1 : x.length = c.length) (h2 : Patch.dot x c ≠ 0) :
    Patch.rescale [c] x = some (x.map (· / Patch.dot x c)) := by
  unfold Patch.rescale
  have hn : Patch.numVariables [c] = c.length := by simp [Patch.numVariables]
  rw [hn, if_neg (by simpa using h1)]
  simp only [Patch.rescaleLoop, zero_add, List.drop_zero, ← h1, lt_irrefl, if_false,
      List.take_length, List.take_zero, List.nil_append, List.drop_length, List.append_nil]
  rw [if_neg h2]

theorem map_eq_get {vars : List Var} {env : Env} {x : List ℂ} (h : vars.map env = x) (j : ℕ)
    (hj : j < vars.length) : env vars[j] = x.getD j 0 := by
  subst h
  simp [List.getD, hj]

/-- The value of a start function at a raw coordinate. -/
theorem raw_pow {w : World} {o : Obj} (hd : DegreesOk w o) {s : List ℕ} (rand : ℕ → ℚ × ℚ)
    (hs : InBox s (tdDegrees w o)) (j : ℕ) (hj : j < o.fns.length) :
    0 < ((w.roots o).map (degT w.vals)).getD j 0 ∧
    (rawPoint o.fns.length s (tdDegrees w o) rand).getD j 0 ^
      (((w.roots o).map (degT w.vals)).getD j 0) = ratValue (rand j) := by
  obtain ⟨e, _⟩ := tdDegrees_getD hd j hj
  have hl : (tdDegrees w o).length = o.fns.length := by simp [tdDegrees, World.roots]
  have hls := hs.length_eq
  have hpos : s.getD j 0 < (tdDegrees w o).getD j 0 := by
    have := hs.get (i := j) (by omega) (by omega)
    simpa [List.getD, List.getElem?_eq_getElem (by omega : j < s.length),
      List.getElem?_eq_getElem (by omega : j < (tdDegrees w o).length)] using this
  refine ⟨by omega, ?_⟩
  rw [← e, zpow_natCast]
  have : (rawPoint o.fns.length s (tdDegrees w o) rand).getD j 0 =
      tdCoord (s.getD j 0) ((tdDegrees w o).getD j 0) (rand j) := by
    simp [rawPoint, List.getD, hj]
  rw [this]
  exact root_pow _ _ _ (by omega)

/-- **C32 (zeros).** Every point returned by `GenerateStartPoint`, for any index, is a zero of every
function of the start system and lies on its patch: whatever the random constants are, for the usual
targets (affine and unpatched, or homogenized and patched). -/
theorem C32_zero (rand : ℕ → ℚ × ℚ) (fresh : ℕ → Var) (w w' : World) (i k : ℕ)
    (h : totalDegree rand fresh w i k = some w') (hus : Usual w (w.objs i))
    (hd : DegreesOk w (w.objs i)) (index : ℕ) (x : List ℂ)
    (hx : startPoint (w'.objs k) (tdDegrees w (w.objs i))
      ((List.range (w.objs i).fns.length).map rand) index = some x)
    (vars : List Var) (hv : (w'.objs k).vs.ordering = some vars) (env : Env)
    (henv : vars.map env = x) :
    (∀ n ∈ w'.roots (w'.objs k), eval env n = 0) ∧
    (∀ c ∈ (w'.objs k).patch, Patch.dot x c = 1) := by
  rw [startPoint_eq h hus, Option.bind_eq_some_iff] at hx
  obtain ⟨s, hs, hx⟩ := hx
  have hbox := inBox_of hs
  obtain ⟨_, hh0, _, hsq, _⟩ := C33_rejects _ _ _ _ _ _ h
  obtain ⟨g, fs, hg, hfs, hl, _, hpd, hpatch, hA, hB⟩ := totalDegree_spec h
  obtain ⟨m1, m2, m3⟩ := tdFunctions_mem _ _ _ _ hfs
  simp only [World.roots, List.length_map] at m1
  have hrd : ∀ j < g.length, ((List.range (w.objs i).fns.length).map rand).getD j (0, 0) = rand j := by
    intro j hj
    simp [List.getD, List.getElem?_eq_getElem (by simp; omega : j < (List.range (w.objs i).fns.length).length)]
  have hvo : (w.objs i).vs.ordering = some vars := (C33_variables _ _ _ _ _ _ h).1 ▸ hv
  obtain ⟨hu, hus⟩ := hus
  rcases hus with ⟨a, b⟩ | ⟨a, b, ⟨c, hc⟩, hnd⟩
  · have hnh : ¬ systemIsHom w (w.objs i) := by
      rintro ⟨q, _⟩
      simp [Vars.numHomVars, a, hg] at q
    obtain rfl := vars_affine hg hu hh0 a hvo
    simp only [b, Bool.false_eq_true, if_false, Option.some.injEq] at hx
    rw [hpatch, (hA hnh).2]
    refine ⟨?_, by simp [b]⟩
    intro n hn
    obtain ⟨j, hj, rfl⟩ := m3 n hn
    rw [eval_tdFunction, hrd j hj, map_eq_get henv j hj, ← hx]
    rw [(raw_pow hd rand hbox j (by omega)).2, sub_self]
  · obtain ⟨hz, ehv, _, hall⟩ := hB a
    obtain rfl := vars_hom hg hu hh0 ehv hvo
    simp only [b, if_true, hc] at hx
    obtain ⟨h1, h2, rfl⟩ := rescale_one _ _ _ hx
    set lam := Patch.dot (1 :: rawPoint (w.objs i).fns.length s (tdDegrees w (w.objs i)) rand) c with hlam
    constructor
    · intro n hn
      obtain ⟨f, hf, hfn⟩ : ∃ f ∈ fs, hom w.vals (hz :: g) hz f = some n := by
        obtain ⟨q, hq, rfl⟩ := List.mem_iff_getElem.1 hn
        have hq' : q < fs.length := by rw [hall.length_eq]; exact hq
        exact ⟨fs[q], List.getElem_mem _, hall.get hq' hq⟩
      obtain ⟨j, hj, rfl⟩ := m3 f hf
      obtain ⟨hpos, hpow⟩ := raw_pow hd rand hbox j (by omega)
      rw [hrd j hj] at hfn
      rw [eval_hom_tdFunction _ env _ _ _ _ _ _ hpos (List.getElem_mem hj)
        (hnd g (by simp [hg]) hz (by simp [ehv])) hfn]
      have e0 := map_eq_get henv 0 (by simp)
      have ej := map_eq_get henv (j + 1) (by simpa using hj)
      have hrl : j < (rawPoint (w.objs i).fns.length s (tdDegrees w (w.objs i)) rand).length := by
        simp [rawPoint]; omega
      simp only [List.getElem_cons_zero, List.map_cons, List.getD_cons_zero] at e0
      simp only [List.getElem_cons_succ, List.map_cons, List.getD_cons_succ] at ej
      simp only [List.getD,
        List.getElem?_map, List.getElem?_eq_getElem hrl, Option.map_some, Option.getD_some] at ej
      simp only [List.getD, List.getElem?_eq_getElem hrl, Option.getD_some] at hpow hpos
      simp only [List.getD] at ⊢
      rw [e0, ej, ← hpow, div_zpow, div_zpow, one_zpow]
      ring
    · rw [hpatch, b, hc]
      intro c' hc'
      simp only [if_true, List.mem_singleton] at hc'
      subst hc'
      exact Patch.dot_scaled c' _ h2

/-- **C32 (all of them).** Every index below the product of the degrees gives a start point, and no
other index does. In the patched case the raw point must not be at infinity for the patch. -/
theorem C32_total (rand : ℕ → ℚ × ℚ) (fresh : ℕ → Var) (w w' : World) (i k : ℕ)
    (h : totalDegree rand fresh w i k = some w') (hus : Usual w (w.objs i))
    (hne : (w.objs i).fns ≠ []) (index : ℕ) :
    (index < (tdDegrees w (w.objs i)).prod →
      ((w.objs i).patched = true → ∀ c ∈ (w.objs i).patch,
        c.length = (w.objs i).fns.length + 1 ∧
        ∀ s, InBox s (tdDegrees w (w.objs i)) →
          Patch.dot (1 :: rawPoint (w.objs i).fns.length s (tdDegrees w (w.objs i)) rand) c ≠ 0) →
      ∃ x, startPoint (w'.objs k) (tdDegrees w (w.objs i))
        ((List.range (w.objs i).fns.length).map rand) index = some x) ∧
    ((tdDegrees w (w.objs i)).prod ≤ index →
      startPoint (w'.objs k) (tdDegrees w (w.objs i))
        ((List.range (w.objs i).fns.length).map rand) index = none) := by
  have hne' : tdDegrees w (w.objs i) ≠ [] := by simpa [tdDegrees, World.roots] using hne
  obtain ⟨b1, _, b3⟩ := C31_bijection _ hne'
  rw [startPoint_eq h hus]
  constructor
  · intro hi hp
    obtain ⟨s, hs, hb, _⟩ := b1 index hi
    rw [hs, Option.bind_some]
    obtain ⟨hu, hus⟩ := hus
    rcases hus with ⟨a, b⟩ | ⟨a, b, ⟨c, hc⟩, hnd⟩
    · exact ⟨_, by rw [b]; rfl⟩
    · obtain ⟨p1, p2⟩ := hp b c (by simp [hc])
      rw [b, hc, if_pos rfl]
      exact ⟨_, rescale_one_total c _ (by simp [rawPoint, p1]) (p2 s hb)⟩
  · intro hi
    rw [b3 index hi]
    rfl

theorem rawPoint_inj {dims s s' : List ℕ} {rand : ℕ → ℚ × ℚ} (hr : ∀ j < dims.length, ratValue (rand j) ≠ 0)
    (h1 : InBox s dims) (h2 : InBox s' dims)
    (h : rawPoint dims.length s dims rand = rawPoint dims.length s' dims rand) : s = s' := by
  have l1 := h1.length_eq
  have l2 := h2.length_eq
  apply List.ext_getElem (by omega)
  intro j hj hj'
  have := congrArg (fun l => l.getD j 0) h
  have hjd : j < dims.length := by omega
  simp only [rawPoint, List.getD, List.getElem?_map, List.getElem?_range hjd, Option.map_some,
    Option.getD_some, List.getElem?_eq_getElem hj, List.getElem?_eq_getElem hj',
    List.getElem?_eq_getElem hjd] at this
  exact tdCoord_inj (hr j hjd) (h1.get hj hjd) (h2.get hj' hjd) this

/-- **C32 (distinct).** With nonzero random constants, different indices give different points. -/
theorem C32_distinct (rand : ℕ → ℚ × ℚ) (fresh : ℕ → Var) (w w' : World) (i k : ℕ)
    (h : totalDegree rand fresh w i k = some w') (hus : Usual w (w.objs i))
    (hr : ∀ j, ratValue (rand j) ≠ 0) (index index' : ℕ) (x : List ℂ)
    (hx : startPoint (w'.objs k) (tdDegrees w (w.objs i))
      ((List.range (w.objs i).fns.length).map rand) index = some x)
    (hx' : startPoint (w'.objs k) (tdDegrees w (w.objs i))
      ((List.range (w.objs i).fns.length).map rand) index' = some x) : index = index' := by
  rw [startPoint_eq h hus, Option.bind_eq_some_iff] at hx hx'
  obtain ⟨s, hs, hx⟩ := hx
  obtain ⟨s', hs', hx'⟩ := hx'
  have hl : (w.objs i).fns.length = (tdDegrees w (w.objs i)).length := by simp [tdDegrees, World.roots]
  have key : rawPoint (w.objs i).fns.length s (tdDegrees w (w.objs i)) rand =
      rawPoint (w.objs i).fns.length s' (tdDegrees w (w.objs i)) rand := by
    obtain ⟨hu, hus⟩ := hus
    rcases hus with ⟨a, b⟩ | ⟨a, b, ⟨c, hc⟩, hnd⟩
    · simp only [b, Bool.false_eq_true, if_false, Option.some.injEq] at hx hx'
      rw [hx, hx']
    · simp only [b, if_true, hc] at hx hx'
      obtain ⟨_, q1, rfl⟩ := rescale_one _ _ _ hx
      obtain ⟨_, q2, e⟩ := rescale_one _ _ _ hx'
      simp only [List.map_cons, List.cons.injEq] at e
      obtain ⟨e1, e2⟩ := e
      have e3 := inv_injective (by simpa using e1)
      rw [e3] at e2
      exact (List.map_injective_iff.2 (fun a b hab => by
        rwa [div_left_inj' q2] at hab)) e2
  rw [hl] at key
  obtain rfl := rawPoint_inj (fun j _ => hr j) (inBox_of hs) (inBox_of hs') key
  exact C31_injective _ _ _ _ hs hs'

/-- `NumStartPoints` is the number of valid indices, modulo the range of its return type. -/
theorem C32_count (degs : List ℕ) : numStartPoints degs = degs.prod % 2 ^ 64 := by
  have key : ∀ (l : List ℕ) (a : ℕ), l.foldl (fun a d => a * d % 2 ^ 64) (a % 2 ^ 64) =
      (a * l.prod) % 2 ^ 64 := by
    intro l
    induction l with
    | nil => simp
    | cons d l ih =>
      intro a
      rw [List.foldl_cons, Nat.mod_mul_mod, ih, List.prod_cons, mul_assoc]
  have := key degs 1
  simpa [numStartPoints] using this

/-- Non-vacuity: the target `x^2, y^3` in one affine group is accepted, is usual, has admissible
degrees, and has 6 start points. -/
def oX : Obj := { Obj.new .slp with vs := Vars.empty.addGroup [0, 1], fns := [0, 1] }

def wX : World := ({ World.init with
  heap := Function.update (Function.update (fun _ => .int 0) 0 (.ipow (.var 0) 2)) 1 (.ipow (.var 1) 3),
  next := 2 }).set 0 oX

theorem exampleX : (∃ w', totalDegree (fun _ => (1, 2)) id wX 0 1 = some w') ∧ Usual wX (wX.objs 0) ∧
    DegreesOk wX (wX.objs 0) ∧ (wX.objs 0).fns ≠ [] ∧ tdDegrees wX (wX.objs 0) = [2, 3] ∧
    (∀ j : ℕ, ratValue ((fun _ => (1, 2)) j) ≠ 0) := by
  have ho : wX.objs 0 = oX := by simp [wX, World.set]
  have hr : wX.roots oX = [.ipow (.var 0) 2, .ipow (.var 1) 3] := by
    simp [World.roots, wX, World.set, oX]
  have hacc : tdAccepts wX (wX.objs 0) := by
    rw [ho]
    refine ⟨rfl, rfl, rfl, rfl, by simp [oX, Vars.numHomVars, Vars.addGroup, Vars.empty], ?_⟩
    intro f hf
    rw [hr] at hf
    constructor
    · intro g hg
      simp only [oX, Vars.numHomVars, Vars.addGroup, Vars.empty, List.length_nil,
        if_true, List.nil_append, List.mem_singleton] at hg
      subst hg
      simp only [List.mem_cons, List.not_mem_nil, or_false] at hf
      rcases hf with rfl | rfl <;> simp [isPoly, degG, degV, foldUnary]
    · intro g hg
      simp [oX, Vars.addGroup, Vars.empty] at hg
  have hnot : ¬ systemIsHom wX (wX.objs 0) := by
    rw [ho]
    intro hc
    have := hc.1
    simp [oX, Vars.numHomVars, Vars.addGroup, Vars.empty] at this
  refine ⟨?_, ?_, ?_, ?_, ?_, ?_⟩
  · unfold totalDegree
    simp only [hacc, not_true_eq_false, if_false, hnot]
    rw [ho, hr]
    simp [oX, Vars.addGroup, Vars.empty, degT, tdFunctions, Obj.new]
  · rw [ho]; exact ⟨rfl, .inl ⟨rfl, rfl⟩⟩
  · rw [ho]
    intro n hn
    rw [hr] at hn
    simp only [List.mem_cons, List.not_mem_nil, or_false] at hn
    rcases hn with rfl | rfl <;> simp [degT]
  · simp [ho, oX]
  · rw [ho, tdDegrees, hr]; simp [degT]
  · intro _ h
    have := congrArg Complex.re h
    simp [ratValue] at this

end B2.Start
