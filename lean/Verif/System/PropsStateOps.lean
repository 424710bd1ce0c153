import Verif.System.PropsStateNeg
import Verif.Tree.HomStable
import Verif.Tree.PropsHom

/-!
# Properties C23, C24, C26, C27: arithmetic, reordering, homogenization, concatenation of systems
-/

namespace B2.Sys

open Classical

/-! ### C24 -/

theorem mapM_getElem_map {β : Type} (l : List β) (d : β) : ∀ (ind : List ℕ), (∀ k ∈ ind, k < l.length) →
    (ind.mapM fun k => l[k]?) = some (ind.map fun k => l.getD k d) := by
  intro ind h
  exact mapM_some ind fun k hk => by simp [List.getElem?_eq_getElem (h k hk), List.getD]

theorem map_range_getD {β : Type} (l : List β) (d : β) :
    (List.range l.length).map (fun k => l.getD k d) = l := by
  apply List.ext_getElem
  · simp
  · intro n h1 h2
    simp [List.getD, h2]

/-- **C24 (decreasing).** For every system, whatever order `std::sort` gives ties: the function list
is rearranged, nothing lost or duplicated, the degrees of the new list are those of the old one
rearranged and in non-increasing order. -/
theorem C24_decreasing (w : World) (o o' : Obj) (h : ReorderDecreasing w o o') :
    ∃ degs degs', degreesOf w o = some degs ∧ degreesOf w o' = some degs' ∧
      o'.fns.Perm o.fns ∧ degs'.Perm degs ∧ degs'.Pairwise (· ≥ ·) := by
  obtain ⟨degs, ind, hd, ⟨hp, hs⟩, h⟩ := h
  unfold degreesOf at hd ⊢
  simp only [Option.map_eq_some_iff] at hd
  obtain ⟨vars, hv, rfl⟩ := hd
  have hlen : ((w.roots o).map (degG w.vals vars)).length = o.fns.length := by simp [World.roots]
  rw [hlen] at hp
  have hmem : ∀ k ∈ ind, k < o.fns.length := fun k hk => by simpa using hp.mem_iff.1 hk
  unfold Obj.permute at h
  rw [mapM_getElem_map o.fns 0 ind hmem] at h
  simp only [Option.map_some, Option.some.injEq] at h
  subst h
  have hdeg : (w.roots { o with fns := ind.map fun k => o.fns.getD k 0 }).map (degG w.vals vars) =
      ind.map fun k => ((w.roots o).map (degG w.vals vars)).getD k 0 := by
    simp only [World.roots, List.map_map]
    apply List.map_congr_left
    intro k hk
    have := hmem k hk
    simp [List.getD, List.getElem?_eq_getElem this]
  refine ⟨(w.roots o).map (degG w.vals vars),
    ind.map fun k => ((w.roots o).map (degG w.vals vars)).getD k 0, by rw [hv]; rfl, ?_, ?_, ?_, ?_⟩
  · rw [← hdeg]
    change Option.map _ o.vars = _
    rw [hv]; rfl
  · have := (hp.map fun k => o.fns.getD k 0)
    rwa [map_range_getD] at this
  · have := (hp.map fun k => ((w.roots o).map (degG w.vals vars)).getD k 0)
    rwa [← hlen, map_range_getD] at this
  · rw [List.pairwise_map]
    exact hs.imp fun h => by simpa using h

/-- **C24 (increasing).** -/
theorem C24_increasing (w : World) (o o' : Obj) (h : ReorderIncreasing w o o') :
    ∃ degs degs', degreesOf w o = some degs ∧ degreesOf w o' = some degs' ∧
      o'.fns.Perm o.fns ∧ degs'.Perm degs ∧ degs'.Pairwise (· ≤ ·) := by
  obtain ⟨degs, ind, hd, ⟨hp, hs⟩, h⟩ := h
  unfold degreesOf at hd ⊢
  simp only [Option.map_eq_some_iff] at hd
  obtain ⟨vars, hv, rfl⟩ := hd
  have hlen : ((w.roots o).map (degG w.vals vars)).length = o.fns.length := by simp [World.roots]
  rw [hlen] at hp
  have hmem : ∀ k ∈ ind, k < o.fns.length := fun k hk => by simpa using hp.mem_iff.1 hk
  unfold Obj.permute at h
  rw [mapM_getElem_map o.fns 0 ind hmem] at h
  simp only [Option.map_some, Option.some.injEq] at h
  subst h
  have hdeg : (w.roots { o with fns := ind.map fun k => o.fns.getD k 0 }).map (degG w.vals vars) =
      ind.map fun k => ((w.roots o).map (degG w.vals vars)).getD k 0 := by
    simp only [World.roots, List.map_map]
    apply List.map_congr_left
    intro k hk
    have := hmem k hk
    simp [List.getD, List.getElem?_eq_getElem this]
  refine ⟨(w.roots o).map (degG w.vals vars),
    ind.map fun k => ((w.roots o).map (degG w.vals vars)).getD k 0, by rw [hv]; rfl, ?_, ?_, ?_, ?_⟩
  · rw [← hdeg]
    change Option.map _ o.vars = _
    rw [hv]; rfl
  · have := (hp.map fun k => o.fns.getD k 0)
    rwa [map_range_getD] at this
  · have := (hp.map fun k => ((w.roots o).map (degG w.vals vars)).getD k 0)
    rwa [← hlen, map_range_getD] at this
  · rw [List.pairwise_map]
    exact hs.imp fun h => by simpa using h

/-- Both relations are total: a sorting always exists and never fails, when the variables can be
listed. -/
theorem C24_total (w : World) (o : Obj) (vars : List Var) (hv : o.vars = some vars) :
    (∃ o', ReorderDecreasing w o o') ∧ ∃ o', ReorderIncreasing w o o' := by
  have key : ∀ (le : ℕ → ℕ → Bool), (∀ a b c, le a b = true → le b c = true → le a c = true) →
      (∀ a b, (le a b || le b a) = true) → ∀ n, ∃ ind : List ℕ, ind.Perm (List.range n) ∧
        ind.Pairwise fun a b => le a b = true := fun le ht htot n =>
    ⟨(List.range n).mergeSort le, List.mergeSort_perm _ _, List.pairwise_mergeSort ht htot _⟩
  have hdeg : degreesOf w o = some ((w.roots o).map (degG w.vals vars)) := by simp [degreesOf, hv]
  set degs := (w.roots o).map (degG w.vals vars) with hdegs
  have hlen : degs.length = o.fns.length := by simp [hdegs, World.roots]
  constructor
  · obtain ⟨ind, h1, h2⟩ := key (fun a b => decide (degs.getD b 0 ≤ degs.getD a 0))
      (by intro a b c; simp only [decide_eq_true_eq]; omega)
      (by intro a b; simp only [Bool.or_eq_true, decide_eq_true_eq]; omega) degs.length
    refine ⟨{ o with fns := ind.map fun k => o.fns.getD k 0 }, degs, ind, hdeg,
      ⟨h1, h2.imp fun h => by simpa using h⟩, ?_⟩
    rw [Obj.permute, mapM_getElem_map o.fns 0 ind fun k hk => by simpa [hlen] using h1.mem_iff.1 hk]
    rfl
  · obtain ⟨ind, h1, h2⟩ := key (fun a b => decide (degs.getD a 0 ≤ degs.getD b 0))
      (by intro a b c; simp only [decide_eq_true_eq]; omega)
      (by intro a b; simp only [Bool.or_eq_true, decide_eq_true_eq]; omega) degs.length
    refine ⟨{ o with fns := ind.map fun k => o.fns.getD k 0 }, degs, ind, hdeg,
      ⟨h1, h2.imp fun h => by simpa using h⟩, ?_⟩
    rw [Obj.permute, mapM_getElem_map o.fns 0 ind fun k hk => by simpa [hlen] using h1.mem_iff.1 hk]
    rfl

/-! ### C27 -/

/-- **C27, full statement.** Whenever the two systems have the same variables and are not patched
differently, `Concatenate` gives a system with `a`'s functions followed by `b`'s, `a`'s variable
structure, and the patch of whichever operand is patched. -/
def C27_full : Prop :=
  ∀ (w : World) (i j k : ℕ) (vars : List Var), (w.objs i).vars = some vars →
    (w.objs j).vars = some vars →
    ¬ ((w.objs i).patched = true ∧ (w.objs j).patched = true ∧ (w.objs i).patch ≠ (w.objs j).patch) →
    ∃ w', concatenate w i j k = some w' ∧
      w'.roots (w'.objs k) = w.roots (w.objs i) ++ w.roots (w.objs j) ∧
      (w'.objs k).vs = (w.objs i).vs ∧
      (w'.objs k).patched = ((w.objs i).patched || (w.objs j).patched) ∧
      ((w.objs i).patched = true → (w'.objs k).patch = (w.objs i).patch) ∧
      ((w.objs j).patched = true → (w'.objs k).patch = (w.objs j).patch)

theorem vars_length {s : Vars Var} {l : List Var} (h : s.ordering = some l) :
    l.length = s.numVariables := by
  unfold Vars.ordering at h
  simp only [Option.bind_eq_bind] at h
  split_ifs at h
  simp only [Option.bind_eq_some_iff] at h
  obtain ⟨a, _, h⟩ := h
  split_ifs at h with h2
  simp only [Option.some.injEq] at h
  subst h
  simpa using h2

/-- **C27 (partial).** Everything except the case that only the second system is patched. -/
theorem C27_partial (w : World) (i j k : ℕ) (vars : List Var) (hi : (w.objs i).vars = some vars)
    (hj : (w.objs j).vars = some vars)
    (hp : ¬ ((w.objs i).patched = true ∧ (w.objs j).patched = true ∧
      (w.objs i).patch ≠ (w.objs j).patch))
    (hc : (w.objs j).patched = true → (w.objs i).patched = true) :
    ∃ w', concatenate w i j k = some w' ∧
      w'.roots (w'.objs k) = w.roots (w.objs i) ++ w.roots (w.objs j) ∧
      (w'.objs k).vs = (w.objs i).vs ∧
      (w'.objs k).patched = ((w.objs i).patched || (w.objs j).patched) ∧
      ((w.objs i).patched = true → (w'.objs k).patch = (w.objs i).patch) ∧
      ((w.objs j).patched = true → (w'.objs k).patch = (w.objs j).patch) := by
  have hn : (w.objs i).vs.numVariables = (w.objs j).vs.numVariables := by
    rw [← vars_length hi, ← vars_length hj]
  have hi' : (w.objs i).copy.vars = some vars := hi
  refine ⟨w.set k { (w.objs i).copy with
      fns := (w.objs i).copy.fns ++ (w.objs j).fns
      diffed := if (w.objs j).fns = [] then (w.objs i).copy.diffed else false }, ?_, ?_, ?_, ?_, ?_, ?_⟩
  · unfold concatenate
    simp only [hi', hj, Option.bind_eq_bind, Option.bind_some]
    rw [if_neg (by simpa [Obj.copy] using hn), if_neg (by simp), if_neg (by simpa [Obj.copy] using hp),
      if_neg (by push Not; simpa [Obj.copy] using hc)]
  · simp [World.set, World.roots, Obj.copy]
  · simp [World.set, Obj.copy]
  · simp only [World.set, Function.update_self, Obj.copy]
    cases h1 : (w.objs i).patched <;> cases h2 : (w.objs j).patched <;> simp_all
  · intro _; simp [World.set, Obj.copy]
  · intro h2
    simp only [World.set, Function.update_self, Obj.copy]
    by_contra hne
    exact hp ⟨hc h2, h2, hne⟩

/-- **C27 (rejections).** `Concatenate` throws when the variables differ or both systems are patched
differently. -/
theorem C27_rejects (w : World) (i j k : ℕ)
    (h : (w.objs i).vars ≠ (w.objs j).vars ∨ ((w.objs i).patched = true ∧ (w.objs j).patched = true ∧
      (w.objs i).patch ≠ (w.objs j).patch)) : concatenate w i j k = none := by
  by_contra hne
  obtain ⟨w', hw⟩ := Option.ne_none_iff_exists'.1 hne
  obtain ⟨vars, h1, h2, _, h4, _⟩ := concatenate_some hw
  rcases h with h | h
  · exact h (h1.trans h2.symm)
  · exact h4 h

/-- **C27 (what happens in the missing case).** When only the second system is patched, `Concatenate`
always throws. -/
theorem C27_second_patched (w : World) (i j k : ℕ) (hi : (w.objs i).patched = false)
    (hj : (w.objs j).patched = true) : concatenate w i j k = none := by
  by_contra hne
  obtain ⟨w', hw⟩ := Option.ne_none_iff_exists'.1 hne
  obtain ⟨vars, _, _, _, _, h5, _⟩ := concatenate_some hw
  exact h5 ⟨hj, by simp [hi]⟩

/-- **C27 refuted**: two systems in the same variable, only the second one patched. -/
theorem C27_refuted : ¬ C27_full := by
  intro h
  obtain ⟨w', h1, _⟩ := h ((w0.set 1 { o0 with patch := [[1]], patched := true })) 0 1 2 [0] ord0 ord0
    (by simp [World.set, w0, o0, Obj.new])
  rw [C27_second_patched _ _ _ _ (by simp [World.set, w0, o0, Obj.new]) (by simp [World.set])] at h1
  simp at h1

/-- `C27_partial` applies to that system with itself. -/
example : ∃ w', concatenate w0 0 0 2 = some w' ∧
    w'.roots (w'.objs 2) = [.var 0, .var 0] := by
  obtain ⟨w', h1, h2, _⟩ := C27_partial w0 0 0 2 [0] ord0 ord0 (by simp) id
  exact ⟨w', h1, by rw [h2]; simp [World.roots, w0, World.set, o0]⟩

/-! ### C23 -/

/-- The values of all functions of a system at `env`. -/
noncomputable def valuesOf (w : World) (o : Obj) (env : Env) : List ℂ := (w.roots o).map (eval env)

/-- **C23, full statement.** Computing `a+b` or `n*s` into a new object leaves the values of the
operands (and all other systems) unchanged, after any history. -/
def C23_full : Prop :=
  ∀ (simp : Node → Node) (ops : List SysOp) (w : World), run simp ops World.init = some w →
    ∀ (op : SysOp) (k : ℕ) (w' : World),
      ((∃ i j, op = .plus i j k) ∨ (∃ i N, op = .times i N k)) → step simp w op = some w' →
      ∀ l env, l ≠ k → valuesOf w' (w'.objs l) env = valuesOf w (w.objs l) env

theorem plusAssign_some {w w' : World} {i j : ℕ} (h : plusAssign w i j = some w') :
    ∃ heap, plusRoots (w.objs i).fns (w.objs j).fns w.heap = some heap ∧ w'.heap = heap ∧
      (w'.objs i).fns = (w.objs i).fns ∧ ∀ k, k ≠ i → w'.objs k = w.objs k := by
  unfold plusAssign at h
  simp only [Option.bind_eq_bind] at h
  by_cases h1 : (w.objs i).total ≠ (w.objs j).total ∨ (w.objs i).vs.numVariables ≠ (w.objs j).vs.numVariables ∨
      (w.objs i).vs.numHomVars ≠ (w.objs j).vs.numHomVars ∨
      (w.objs i).vs.groups.length + (w.objs i).vs.homGroups.length ≠
        (w.objs j).vs.groups.length + (w.objs j).vs.homGroups.length
  · rw [if_pos h1] at h; simp at h
  rw [if_neg h1] at h
  by_cases h2 : (w.objs i).patched ∧ (w.objs j).patched ∧ (w.objs i).patch ≠ (w.objs j).patch
  · rw [if_pos h2] at h; simp at h
  rw [if_neg h2] at h
  simp only [Option.bind_eq_some_iff, Option.some.injEq] at h
  obtain ⟨heap, h3, rfl⟩ := h
  have hf : (if ¬ (w.objs i).patched ∧ (w.objs j).patched then
      { w.objs i with patch := (w.objs j).patch, patched := true } else w.objs i).fns =
        (w.objs i).fns := by split_ifs <;> rfl
  refine ⟨heap, by rw [← hf]; exact h3, rfl, ?_, ?_⟩
  · simp only [World.set, Function.update_self]; exact hf
  · intro k hk; simp [World.set, Function.update_of_ne hk]

/-- **C23 (partial).** Adding or scaling changes only the functions of the left operand: every system
sharing no `Function` with it keeps its functions. Missing: the left operand itself (and every other
system sharing a function with it), which is changed: see `C23_left_operand`, `C23_refuted`. -/
theorem C23_partial (simp : Node → Node) (w w' : World) (op : SysOp) (i : ℕ)
    (hop : (∃ j k, op = .plus i j k) ∨ (∃ N k, op = .times i N k) ∨ (∃ j, op = .plusAssign i j) ∨
      ∃ N, op = .timesAssign i N)
    (h : step simp w op = some w') (l : ℕ) (hl : ¬ Shares (w.objs l) (w.objs i)) (env : Env) :
    valuesOf w' (w.objs l) env = valuesOf w (w.objs l) env := by
  have hoff : ∀ f ∈ (w.objs l).fns, f ∉ (w.objs i).fns := fun f hf hf' => hl ⟨f, hf, hf'⟩
  unfold valuesOf
  congr 1
  rcases hop with ⟨j, k, rfl⟩ | ⟨N, k, rfl⟩ | ⟨j, rfl⟩ | ⟨N, rfl⟩
  · obtain ⟨heap, h1, h2, _⟩ := plusAssign_some h
    simp only [World.set, Function.update_self, Obj.copy] at h1
    exact roots_of_off fun f hf => by rw [h2]; exact plusRoots_off _ _ _ _ h1 f (hoff f hf)
  · simp only [step, Option.some.injEq] at h
    subst h
    refine roots_of_off fun f hf => ?_
    simp only [timesNew, timesAssign, World.set, Function.update_self, Obj.copy]
    exact timesRoots_off _ _ _ f (hoff f hf)
  · obtain ⟨heap, h1, h2, _⟩ := plusAssign_some h
    exact roots_of_off fun f hf => by rw [h2]; exact plusRoots_off _ _ _ _ h1 f (hoff f hf)
  · simp only [step, Option.some.injEq] at h
    subst h
    exact roots_of_off fun f hf => timesRoots_off _ _ _ f (hoff f hf)

theorem timesRoots_on (N : Node) : ∀ (fs : List ℕ) (heap : ℕ → Node), fs.Nodup → ∀ f ∈ fs,
    timesRoots N fs heap f = .mult (.cons true N (.cons true (heap f) .nil)) := by
  intro fs
  induction fs with
  | nil => intro _ _ f hf; simp at hf
  | cons a fs ih =>
    intro heap hnd f hf
    rw [List.nodup_cons] at hnd
    simp only [timesRoots]
    by_cases hfa : f = a
    · subst hfa
      rw [timesRoots_off _ _ _ _ hnd.1]; simp
    · rw [ih _ hnd.2 f (by simpa [hfa] using hf)]
      simp [Function.update_of_ne hfa]

theorem plusRoots_on : ∀ (fs gs : List ℕ) (heap heap' : ℕ → Node), plusRoots fs gs heap = some heap' →
    fs.Nodup → (∀ g ∈ gs, g ∉ fs) → fs.length = gs.length →
    fs.map heap' = List.zipWith (fun f g =>
      .sum (.cons true (heap g) (.cons true (heap f) .nil))) fs gs := by
  intro fs
  induction fs with
  | nil => intro gs heap heap' _ _ _ _; simp
  | cons a fs ih =>
    intro gs heap heap' h hnd hdis hl
    cases gs with
    | nil => simp at hl
    | cons b gs =>
      simp only [plusRoots] at h
      rw [List.nodup_cons] at hnd
      have := ih gs _ heap' h hnd.2 (fun g hg hg' => hdis g (by simp [hg]) (by simp [hg']))
        (by simpa using hl)
      have ha : heap' a = .sum (.cons true (heap b) (.cons true (heap a) .nil)) := by
        rw [plusRoots_off _ _ _ _ h a hnd.1]; simp
      simp only [List.map_cons, List.zipWith_cons_cons, ha, this, List.cons.injEq, true_and]
      have hb : ∀ x ∈ fs, x ≠ a := fun x hx e => hnd.1 (e ▸ hx)
      have hg : ∀ x ∈ gs, x ≠ a := fun x hx e => hdis x (by simp [hx]) (by simp [e])
      clear this ha h ih
      induction fs generalizing gs with
      | nil => simp
      | cons c fs ih2 =>
        cases gs with
        | nil => simp
        | cons d gs =>
          simp only [List.zipWith_cons_cons]
          rw [Function.update_of_ne (hb c (by simp)), Function.update_of_ne (hg d (by simp)),
            ih2 ⟨fun h => hnd.1 (by simp [h]), (List.nodup_cons.1 hnd.2).2⟩ gs
              (fun g hg hg' => hdis g (by
                rcases List.mem_cons.1 hg with h | h
                · simp [h]
                · simp [h]) (by
                rcases List.mem_cons.1 hg' with h | h
                · simp [h]
                · simp [h])) (by simpa using hl)
              (fun x hx => hb x (by simp [hx])) (fun x hx => hg x (by simp [hx]))]

/-- **C23 (values of the result).** `n*s` has the values of `s` times `n`; so has `s` itself
afterwards. -/
theorem C23_scaling (w : World) (i k : ℕ) (N : Node) (env : Env) (hnd : (w.objs i).fns.Nodup)
    (hik : i ≠ k) :
    valuesOf (timesNew w i N k) ((timesNew w i N k).objs k) env =
      (valuesOf w (w.objs i) env).map (eval env N * ·) ∧
    valuesOf (timesNew w i N k) ((timesNew w i N k).objs i) env =
      (valuesOf w (w.objs i) env).map (eval env N * ·) := by
  have key : ∀ fs : List ℕ, fs = (w.objs i).fns →
      (fs.map (timesNew w i N k).heap).map (eval env) =
        ((fs.map w.heap).map (eval env)).map (eval env N * ·) := by
    rintro fs rfl
    simp only [List.map_map]
    apply List.map_congr_left
    intro f hf
    have : (timesNew w i N k).heap f = .mult (.cons true N (.cons true (w.heap f) .nil)) := by
      simp only [timesNew, timesAssign, World.set, Function.update_self, Obj.copy]
      exact timesRoots_on N _ _ hnd f hf
    simp [this, eval, evalMult]
  have hk : ((timesNew w i N k).objs k).fns = (w.objs i).fns := by
    simp [timesNew, timesAssign, World.set, Obj.copy]
  have hi : ((timesNew w i N k).objs i).fns = (w.objs i).fns := by
    simp [timesNew, timesAssign, World.set, Function.update_of_ne hik]
  unfold valuesOf World.roots
  rw [hk, hi]
  exact ⟨key _ rfl, key _ rfl⟩

/-- **C23 (values of the result).** `a+b` has the values of `a` plus the values of `b` when the two
share no function and `a` has no function twice. -/
theorem C23_sum (w w' : World) (i j k : ℕ) (env : Env) (hnd : (w.objs i).fns.Nodup) (hjk : j ≠ k)
    (hs : ¬ Shares (w.objs j) (w.objs i)) (hl : (w.objs i).fns.length = (w.objs j).fns.length)
    (h : plusNew w i j k = some w') :
    valuesOf w' (w'.objs k) env =
      List.zipWith (· + ·) (valuesOf w (w.objs j) env) (valuesOf w (w.objs i) env) := by
  obtain ⟨heap, h1, h2, h3, h4⟩ := plusAssign_some h
  simp only [World.set, Function.update_self, Obj.copy, Function.update_of_ne hjk] at h1 h3
  have := plusRoots_on _ _ _ _ h1 hnd (fun g hg hg' => hs ⟨g, hg, hg'⟩) hl
  unfold valuesOf World.roots
  rw [h3, h2, this]
  generalize (w.objs i).fns = fs at hl
  generalize (w.objs j).fns = gs at hl
  clear this h1 h2 h3 h4 h hs hnd
  induction fs generalizing gs with
  | nil => cases gs <;> simp_all
  | cons f fs ih =>
    cases gs with
    | nil => simp at hl
    | cons g gs => simpa [eval, evalSum] using ih gs (by simpa using hl)

/-- **C23 (the left operand is modified).** After `a+b` the system `a` itself has the values of the
sum: for all systems `a`, `b`. -/
theorem C23_left_operand (w w' : World) (i j k : ℕ) (env : Env) (hik : i ≠ k)
    (h : plusNew w i j k = some w') :
    valuesOf w' (w'.objs i) env = valuesOf w' (w'.objs k) env := by
  obtain ⟨heap, _, _, h3, h4⟩ := plusAssign_some h
  unfold valuesOf World.roots
  rw [h3, h4 i hik]
  simp [World.set, Function.update_of_ne hik, Obj.copy]

/-- **C23 refuted**: after computing `2*s` for `s = (x)`, evaluating `s` at 1 gives 2. -/
theorem C23_refuted : ¬ C23_full := by
  intro h
  have := h id build0 w0 (run0 id) (.times 0 (.int 2) 1) 1 (timesNew w0 0 (.int 2) 1)
    (Or.inr ⟨0, .int 2, rfl⟩) rfl 0 (fun _ => 1) (by simp)
  rw [(C23_scaling w0 0 1 (.int 2) (fun _ => 1) (by simp [w0, World.set, o0]) (by simp)).2] at this
  simp [valuesOf, World.roots, w0, World.set, o0, eval] at this

/-! ### C26 -/

/-- **C26 (structure).** A successful `Homogenize` leaves exactly one homogenizing variable per affine
group, keeps the groups, homogeneous groups, ungrouped variables and their order, and keeps existing
homogenizing variables. -/
theorem C26_structure (fresh : ℕ → Var) (w w' : World) (i : ℕ) (h : homogenize fresh w i = some w') :
    (w'.objs i).vs.homVars.length = (w.objs i).vs.groups.length ∧
    ((w.objs i).vs.homVars = [] →
      (w'.objs i).vs.homVars = (List.range (w.objs i).vs.groups.length).map fresh) ∧
    ((w.objs i).vs.homVars ≠ [] → (w'.objs i).vs.homVars = (w.objs i).vs.homVars) ∧
    (w'.objs i).vs.groups = (w.objs i).vs.groups ∧
    (w'.objs i).vs.homGroups = (w.objs i).vs.homGroups ∧
    (w'.objs i).vs.ungrouped = (w.objs i).vs.ungrouped ∧
    (w'.objs i).vs.order = (w.objs i).vs.order ∧ (w'.objs i).fns = (w.objs i).fns := by
  obtain ⟨vs, heap, _, h2, _, _, rfl⟩ := homogenize_some h
  simp only [World.set, Function.update_self]
  by_cases h4 : (w.objs i).vs.homVars = []
  · simp only [Vars.homogenize, Vars.numHomVars, h4, List.length_nil, ne_eq, not_true_eq_false,
      decide_false, Bool.false_eq_true, false_and, if_false, Option.some.injEq] at h2
    subst h2
    simp [h4]
  · have h5 : (w.objs i).vs.homVars.length ≠ 0 := by simpa using h4
    simp only [Vars.homogenize, Vars.numHomVars, h5, ne_eq, not_false_eq_true, decide_true, true_and,
      if_true] at h2
    by_cases h6 : (w.objs i).vs.homVars.length = (w.objs i).vs.groups.length
    · rw [if_neg (not_not.2 h6)] at h2
      simp only [Option.some.injEq] at h2
      subst h2
      simp [h4, h6]
    · rw [if_pos h6] at h2; simp at h2

/-- The effect of all groups on one function. -/
noncomputable def homFold (cur : Env) : List (List Var × Var) → Node → Option Node
  | [], n => some n
  | (g, h) :: r, n => (hom cur g h n).bind (homFold cur r)

theorem homRoots_on {cur : Env} {g : List Var} {h : Var} : ∀ (ids : List ℕ) (heap heap' : ℕ → Node),
    homRoots cur g h ids heap = some heap' → ids.Nodup →
    ∀ f ∈ ids, hom cur g h (heap f) = some (heap' f) := by
  intro ids
  induction ids with
  | nil => intro _ _ _ _ f hf; simp at hf
  | cons a ids ih =>
    intro heap heap' hr hnd f hf
    simp only [homRoots, Option.bind_eq_some_iff] at hr
    obtain ⟨n, hn, hr⟩ := hr
    rw [List.nodup_cons] at hnd
    by_cases hfa : f = a
    · subst hfa
      rw [homRoots_off _ _ _ _ _ _ hr f hnd.1]
      simpa using hn
    · have := ih _ _ hr hnd.2 f (by simpa [hfa] using hf)
      rwa [Function.update_of_ne hfa] at this

theorem homGroupsLoop_on {cur : Env} {ids : List ℕ} (hnd : ids.Nodup) :
    ∀ (args : List (List Var × Var)) (heap heap' : ℕ → Node),
    homGroupsLoop cur ids args heap = some heap' →
    ∀ f ∈ ids, homFold cur args (heap f) = some (heap' f) := by
  intro args
  induction args with
  | nil => intro heap heap' h f _; simp [homGroupsLoop] at h; simp [homFold, h]
  | cons p args ih =>
    obtain ⟨g, h⟩ := p
    intro heap heap' hl f hf
    simp only [homGroupsLoop, Option.bind_eq_some_iff] at hl
    obtain ⟨heap1, h1, h2⟩ := hl
    simp only [homFold, homRoots_on _ _ _ h1 hnd f hf, Option.bind_some]
    exact ih _ _ h2 f hf

theorem homRoots_id {cur : Env} {g : List Var} {h : Var} {heap : ℕ → Node} : ∀ (ids : List ℕ),
    (∀ f ∈ ids, hom cur g h (heap f) = some (heap f)) → homRoots cur g h ids heap = some heap := by
  intro ids
  induction ids with
  | nil => intro _; rfl
  | cons a ids ih =>
    intro hall
    simp only [homRoots, hall a (by simp), Option.bind_some, Function.update_eq_self]
    exact ih fun f hf => hall f (by simp [hf])

theorem homGroupsLoop_id {cur : Env} {ids : List ℕ} {heap : ℕ → Node} :
    ∀ (args : List (List Var × Var)),
    (∀ p ∈ args, ∀ f ∈ ids, hom cur p.1 p.2 (heap f) = some (heap f)) →
    homGroupsLoop cur ids args heap = some heap := by
  intro args
  induction args with
  | nil => intro _; rfl
  | cons p args ih =>
    intro hall
    simp only [homGroupsLoop, homRoots_id ids (hall p (by simp)), Option.bind_some]
    exact ih fun q hq => hall q (by simp [hq])

theorem homFold_spec {cur : Env} : ∀ (args : List (List Var × Var)) (n n' : Node),
    homFold cur args n = some n' → Expanded cur n → (∀ p ∈ args, p.2 ∉ n.vars) →
    (∀ p ∈ args, ∀ q ∈ args, p.2 ∉ q.1) → (args.map Prod.snd).Nodup →
    (∀ p ∈ args, Unpadded cur (p.2 :: p.1) n' ∧ degG cur (p.2 :: p.1) n' = degG cur p.1 n) ∧
    ∀ u, (∀ p ∈ args, p.2 ∉ u) → degG cur u n' = degG cur u n ∧ (Unpadded cur u n → Unpadded cur u n') ∧
      (isHom cur u n → isHom cur u n') := by
  intro args
  induction args with
  | nil =>
    intro n n' h _ _ _ _
    simp only [homFold, Option.some.injEq] at h
    subst h
    simp
  | cons p args ih =>
    obtain ⟨g, h⟩ := p
    intro n n' hf he hv hg hnd
    simp only [homFold, Option.bind_eq_some_iff] at hf
    obtain ⟨n1, h1, h2⟩ := hf
    have hhg : h ∉ g := hg (g, h) (by simp) (g, h) (by simp)
    have hs := hom_stable hhg n n1 he (hv (g, h) (by simp)) h1
    have hd := (hom_degrees hhg n n1 h1).2
    simp only [List.map_cons, List.nodup_cons, List.mem_map, not_exists, not_and] at hnd
    have hoth := fun u (hu : h ∉ u) => hom_other hu n n1 he h1
    have he1 : Expanded cur n1 := (hoth g hhg).2.2.2.1
    have hv1 := (hoth g hhg).2.2.2.2
    obtain ⟨i1, i2⟩ := ih n1 n' h2 he1
      (fun q hq hm => by
        rcases hv1 _ hm with e | e
        · exact hnd.1 q hq e
        · exact hv q (by simp [hq]) e)
      (fun q hq r hr => hg q (by simp [hq]) r (by simp [hr])) hnd.2
    constructor
    · intro q hq
      rcases List.mem_cons.1 hq with rfl | hq
      · have := i2 (h :: g) (fun q hq hm => by
          rcases List.mem_cons.1 hm with e | e
          · exact hnd.1 q hq e
          · exact hg q (by simp [hq]) (g, h) (by simp) e)
        exact ⟨this.2.1 hs.1, by rw [this.1, hs.2, hd]⟩
      · refine ⟨(i1 q hq).1, ?_⟩
        rw [(i1 q hq).2]
        exact (hoth q.1 (hg (g, h) (by simp) q (by simp [hq]))).1
    · intro u hu
      have a := hoth u (hu (g, h) (by simp))
      have b := i2 u fun q hq => hu q (by simp [hq])
      exact ⟨b.1.trans a.1, fun x => b.2.1 (a.2.1 x), fun x => b.2.2 (a.2.2.1 x)⟩

/-- The homogenizing variables are new: made by `Variable::Make`, so they occur nowhere yet. -/
def FreshFor (w : World) (o : Obj) (fresh : ℕ → Var) : Prop :=
  Function.Injective fresh ∧
  ∀ k, (∀ g ∈ o.vs.groups, fresh k ∉ g) ∧ (∀ g ∈ o.vs.homGroups, fresh k ∉ g) ∧
    ∀ n ∈ w.roots o, fresh k ∉ n.vars

/-- **C26, full statement (idempotence).** Homogenizing a homogenized system again changes nothing. -/
def C26_full : Prop :=
  ∀ (simp : Node → Node) (ops : List SysOp) (w : World), run simp ops World.init = some w →
    ∀ (i : ℕ) (fresh fresh' : ℕ → Var) (w' : World), (w.objs i).vs.homVars = [] →
      (w.objs i).fns.Nodup → FreshFor w (w.objs i) fresh →
      homogenize fresh w i = some w' → homogenize fresh' w' i = some w'

/-- **C26 (partial, idempotence).** When the functions are sums and products in which negation, powers
and elementary functions are applied to sum-free trees, the second `Homogenize` succeeds and changes
nothing at all. -/
theorem C26_partial (w w' : World) (i : ℕ) (fresh fresh' : ℕ → Var)
    (hno : (w.objs i).vs.homVars = []) (hnd : (w.objs i).fns.Nodup) (hfr : FreshFor w (w.objs i) fresh)
    (hexp : ∀ n ∈ w.roots (w.objs i), Expanded w.vals n) (h : homogenize fresh w i = some w') :
    homogenize fresh' w' i = some w' := by
  obtain ⟨vs, heap, h1, h2, h3, h4, rfl⟩ := homogenize_some h
  obtain ⟨hinj, hfr⟩ := hfr
  set s := (w.objs i).vs with hsdef
  have hvs : vs = { s with homVars := (List.range s.groups.length).map fresh, cache := none } := by
    unfold Vars.homogenize Vars.numHomVars at h2
    simpa [hno] using h2.symm
  have hargs : homArgs fresh s =
      List.zipWith (fun g k => (g, fresh k)) s.groups (List.range s.groups.length) := by
    simp [homArgs, Vars.numHomVars, hno]
  set args := homArgs fresh s with hargsdef
  have hmem : ∀ p ∈ args, p.1 ∈ s.groups ∧ ∃ k, p.2 = fresh k := by
    intro p hp
    rw [hargs, List.mem_iff_getElem] at hp
    obtain ⟨k, hk, rfl⟩ := hp
    simp only [List.length_zipWith, List.length_range, min_self] at hk
    simp only [List.getElem_zipWith, List.getElem_range]
    exact ⟨List.getElem_mem _, k, rfl⟩
  have hsnd : (args.map Prod.snd).Nodup := by
    have : args.map Prod.snd = (List.range s.groups.length).map fresh := by
      rw [hargs, List.map_zipWith]
      apply List.ext_getElem <;> simp
    rw [this]
    exact List.nodup_range.map hinj
  have hfold : ∀ f ∈ (w.objs i).fns, homFold w.vals args (w.heap f) = some (heap f) :=
    homGroupsLoop_on hnd _ _ _ h4
  have hroot : ∀ f ∈ (w.objs i).fns, w.heap f ∈ w.roots (w.objs i) := fun f hf =>
    List.mem_map_of_mem hf
  have hspec := fun f (hf : f ∈ (w.objs i).fns) => homFold_spec args (w.heap f) (heap f) (hfold f hf)
    (hexp _ (hroot f hf))
    (fun p hp => by obtain ⟨_, k, e⟩ := hmem p hp; rw [e]; exact (hfr k).2.2 _ (hroot f hf))
    (fun p hp q hq => by obtain ⟨_, k, e⟩ := hmem p hp; rw [e]; exact (hfr k).1 _ (hmem q hq).1) hsnd
  have hhg : ∀ g ∈ s.homGroups, ∀ p ∈ args, p.2 ∉ g := fun g hg p hp => by
    obtain ⟨_, k, e⟩ := hmem p hp; rw [e]; exact (hfr k).2.1 g hg
  have hzip : ∀ {β : Type} (F : List Var → Var → β),
      List.zipWith F s.groups ((List.range s.groups.length).map fresh) =
        args.map fun p => F p.1 p.2 := by
    intro β F
    rw [hargs, List.map_zipWith, List.zipWith_map_right]
  -- the second call
  unfold homogenize
  simp only [World.set, Function.update_self, World.roots, Option.bind_eq_bind]
  rw [if_neg, hvs]
  swap
  · rw [not_not, hvs]
    intro n hn g hg
    obtain ⟨f, hf, rfl⟩ := List.mem_map.1 hn
    exact ((hspec f hf).2 g (hhg g hg)).2.2 (h1 _ (hroot f hf) g hg)
  have hh : Vars.homogenize fresh'
      { s with homVars := (List.range s.groups.length).map fresh, cache := none } =
      some { s with homVars := (List.range s.groups.length).map fresh, cache := none } := by
    unfold Vars.homogenize Vars.numHomVars
    by_cases h0 : s.groups = []
    · simp [h0]
    · simp [h0]
  rw [hh]
  simp only [Option.bind_some]
  rw [if_neg]
  swap
  · rw [not_not]
    intro n hn
    obtain ⟨f, hf, rfl⟩ := List.mem_map.1 hn
    refine ⟨?_, ?_⟩
    · intro g hg
      have hold := (h3 _ (hroot f hf)).1
      simp only [← hsdef, Vars.numHomVars, hno, List.length_nil, if_true] at hold
      simp only [Vars.numHomVars, List.length_map, List.length_range, List.length_eq_zero_iff] at hg
      by_cases h0 : s.groups = []
      · simp [h0] at hg
      · rw [if_neg h0, hzip] at hg
        obtain ⟨p, hp, rfl⟩ := List.mem_map.1 hg
        unfold isPoly
        dsimp only
        rw [((hspec f hf).1 p hp).2]
        exact hold p.1 (hmem p hp).1
    · intro g hg
      unfold isPoly
      dsimp only
      rw [((hspec f hf).2 g (hhg g hg)).1]
      exact (h3 _ (hroot f hf)).2 g hg
  rw [homGroupsLoop_id]
  · simp
  · intro p hp f hf
    unfold homArgs at hp
    simp only [Vars.numHomVars, List.length_map, List.length_range, List.length_eq_zero_iff] at hp
    by_cases h0 : s.groups = []
    · simp [h0] at hp
    · rw [if_neg h0, hzip] at hp
      obtain ⟨q, hq, rfl⟩ := List.mem_map.1 hp
      exact hom_of_stable _ ((hspec f hf).1 q hq).1

/-- `x - (x + 1)`, written with a negation. -/
def negSum : Node :=
  .sum (.cons true (.var 0) (.cons true (.neg (.sum (.cons true (.var 0) (.cons true (.int 1) .nil)))) .nil))

def ow : Obj := { Obj.new .slp with vs := Vars.empty.addGroup [0], fns := [0] }

def ww (n : Node) : World :=
  ({ World.init with heap := Function.update (fun _ => .int 0) 0 n, next := 1 }).set 0 ow

theorem run_ww (simp : Node → Node) (n : Node) :
    run simp [.varOp 0 (·.addGroup [0]), .addFunction 0 n] World.init = some (ww n) := by
  simp [run, step, ww, World.set, World.init, ow, Obj.new]

/-- What the first call makes of it: `x - (x + 1*h)`. -/
def negSum1 : Node :=
  .sum (.cons true (.var 0) (.cons true (.neg (.sum (.cons true (.var 0)
    (.cons true (.mult (.cons true (.var 1) (.cons true (.int 1) .nil))) .nil)))) .nil))

theorem hom_negSum (cur : Env) : hom cur [0] 1 negSum = some negSum1 := by
  simp [negSum, negSum1, hom, homOps, allNonneg, degG, degGSum, degV, degVSum, padOps, maxDeg, foldUnary,
    padTerm, degVMult, degGMult]

theorem hom_negSum1 (cur : Env) : hom cur [1, 0] 1 negSum1 ≠ some negSum1 := by
  simp [negSum1, hom, homOps, allNonneg, degG, degGSum, degV, degVSum, padOps, maxDeg, foldUnary, padTerm,
    degGMult, degVMult]

/-- **C26 refuted**: `x - (x+1)`. After `Homogenize` the group is `h, x`; the degree of `-(x+h)` in it
is counted as 2, so the second `Homogenize` multiplies `x` by `h`. -/
theorem C26_refuted : ¬ C26_full := by
  intro hall
  have hz : (ww negSum).heap 0 = negSum := by simp [ww, World.set]
  have hw : homogenize (· + 1) (ww negSum) 0 = some
      ({ ww negSum with heap := Function.update (ww negSum).heap 0 negSum1 }.set 0
        { ow with vs := { Vars.empty.addGroup [0] with homVars := [1] }, diffed := false }) := by
    have hp : isPoly (ww negSum).vals [0] negSum := by
      simp [isPoly, negSum, degG, degGSum, degV, degVSum, foldUnary]
    have ho : (ww negSum).objs 0 = ow := by simp [ww, World.set]
    simp only [homogenize, ho, World.roots]
    simp [ow, Vars.homogenize, Vars.empty, Vars.addGroup, Obj.new, Vars.numHomVars, systemIsPoly,
      homGroupsLoop, homArgs, homRoots, World.roots, hz, hp, hom_negSum]
  have := hall id _ _ (run_ww id negSum) 0 (· + 1) (· + 1) _ rfl (by simp [ww, World.set, ow])
    ⟨fun a b => by simp, fun k => ⟨by simp [ww, World.set, ow, Vars.empty, Vars.addGroup],
      by simp [ww, World.set, ow, Vars.empty, Vars.addGroup],
      by simp [World.roots, ww, World.set, ow, negSum, Node.vars, Ops.vars]⟩⟩ hw
  obtain ⟨vs, heap, _, _, _, h4, h5⟩ := homogenize_some this
  have h0 := homGroupsLoop_on (by simp [World.set, ow]) _ _ _ h4 0 (by simp [World.set, ow])
  have h6 := congrArg (fun w => World.heap w 0) h5
  simp only [World.set, Function.update_self] at h6
  rw [← h6] at h0
  simp only [homArgs, World.set, Function.update_self, Vars.addGroup, Vars.empty, Vars.numHomVars,
    List.length_singleton, one_ne_zero, if_false, List.nil_append, List.zipWith_cons_cons,
    List.zipWith_nil_left, homFold, Option.bind_eq_some_iff, Option.some.injEq] at h0
  obtain ⟨n, h7, h8⟩ := h0
  rw [h8] at h7
  exact hom_negSum1 _ h7

/-- `C26_partial` applies to `x + 1`. -/
example : ∀ w', homogenize (· + 1) (ww (.sum (.cons true (.var 0) (.cons true (.int 1) .nil)))) 0 = some w' →
    homogenize (· + 1) w' 0 = some w' := by
  intro w' h
  refine C26_partial _ w' 0 (· + 1) (· + 1) rfl (by simp [ww, World.set, ow]) ?_ ?_ h
  · exact ⟨fun a b => by simp, fun k => ⟨by simp [ww, World.set, ow, Vars.empty, Vars.addGroup],
      by simp [ww, World.set, ow, Vars.empty, Vars.addGroup],
      by simp [World.roots, ww, World.set, ow, Node.vars, Ops.vars]⟩⟩
  · simp [World.roots, ww, World.set, ow, Expanded, ExpandedOps]

/-! ### C67 -/

/-- **C67, full statement**, for systems with one affine group: after `Homogenize` every function of
the system is homogeneous in the group together with the new variable. (Powers must have constant
exponents, the functions must be polynomial, and negations and powers must be applied to trees whose
group degree is exact: the conditions under which C05 holds for a single function.) -/
def C67_full : Prop :=
  ∀ (simp : Node → Node) (ops : List SysOp) (w : World), run simp ops World.init = some w →
    ∀ (i : ℕ) (g : List Var) (fresh : ℕ → Var) (w' : World), (w.objs i).vs.homVars = [] →
      (w.objs i).vs.groups = [g] → FreshFor w (w.objs i) fresh →
      (∀ n ∈ w.roots (w.objs i), (∀ env, FrozenExponents w.vals env n) ∧ (∀ v ∈ g, 0 ≤ degV w.vals v n) ∧
        ExactUnary w.vals g n) →
      homogenize fresh w i = some w' →
      ∀ n' ∈ w'.roots (w'.objs i), ∃ d, IsHomogeneousFun (fresh 0 :: g) n' d

/-- **C67 (partial)**: it holds when no `Function` is in the system twice. Missing: repeated functions,
see `C67_refuted`. -/
theorem C67_partial (w w' : World) (i : ℕ) (g : List Var) (fresh : ℕ → Var)
    (hno : (w.objs i).vs.homVars = []) (hg : (w.objs i).vs.groups = [g])
    (hfr : FreshFor w (w.objs i) fresh) (hnd : (w.objs i).fns.Nodup)
    (hc : ∀ n ∈ w.roots (w.objs i), (∀ env, FrozenExponents w.vals env n) ∧
      (∀ v ∈ g, 0 ≤ degV w.vals v n) ∧ ExactUnary w.vals g n)
    (h : homogenize fresh w i = some w') :
    ∀ n' ∈ w'.roots (w'.objs i), ∃ d, IsHomogeneousFun (fresh 0 :: g) n' d := by
  obtain ⟨vs, heap, _, _, _, h4, rfl⟩ := homogenize_some h
  intro n' hn'
  simp only [World.set, World.roots, Function.update_self] at hn'
  obtain ⟨f, hf, rfl⟩ := List.mem_map.1 hn'
  have h5 := homGroupsLoop_on hnd _ _ _ h4 f hf
  have hr : w.heap f ∈ w.roots (w.objs i) := List.mem_map_of_mem hf
  simp only [homArgs, Vars.numHomVars, hno, List.length_nil, if_true, hg, List.length_singleton,
    List.range_one, List.zipWith_cons_cons, List.zipWith_nil_left, homFold,
    Option.bind_eq_some_iff, Option.some.injEq] at h5
  obtain ⟨m, h6, h7⟩ := h5
  rw [h7] at h6
  exact ⟨_, C05_homogenize_partial w.vals g (fresh 0) _ _ ((hfr.2 0).1 g (by simp [hg]))
    ((hfr.2 0).2.2 _ hr) (hc _ hr).1 (hc _ hr).2.1 (hc _ hr).2.2 h6⟩

def xPlusOne : Node := .sum (.cons true (.var 0) (.cons true (.int 1) .nil))

def ow2 : Obj := { ow with fns := [0, 0] }

def ww2 : World := (ww xPlusOne).set 0 ow2

theorem run_ww2 (simp : Node → Node) :
    run simp [.varOp 0 (·.addGroup [0]), .addFunction 0 xPlusOne, .addSharedFunction 0 0] World.init =
      some ww2 := by
  simp [run, step, ww2, ww, World.set, World.init, ow, ow2, Obj.new]

/-- `x + h*(h*1)` -/
def xPlusOne2 : Node := .sum (.cons true (.var 0) (.cons true (.mult (.cons true (.var 1) (.cons true
  (.mult (.cons true (.var 1) (.cons true (.int 1) .nil))) .nil))) .nil))

/-- **C67 refuted**: the function `x + 1`, added twice, becomes `x + h*h*1`. -/
theorem C67_refuted : ¬ C67_full := by
  intro hall
  have hz : ww2.heap 0 = xPlusOne := by simp [ww2, ww, World.set]
  have hh1 : ∀ cur, hom cur [0] 1 xPlusOne = some (.sum (.cons true (.var 0) (.cons true
      (.mult (.cons true (.var 1) (.cons true (.int 1) .nil))) .nil))) := by
    intro cur
    simp [xPlusOne, hom, homOps, allNonneg, degG, degV, padOps, maxDeg, padTerm]
  have hh2 : ∀ cur, hom cur [0] 1 (.sum (.cons true (.var 0) (.cons true
      (.mult (.cons true (.var 1) (.cons true (.int 1) .nil))) .nil))) = some xPlusOne2 := by
    intro cur
    simp [xPlusOne2, hom, homOps, allNonneg, degG, degV, degGMult, padOps, maxDeg, padTerm]
  have hw : homogenize (· + 1) ww2 0 = some
      ({ ww2 with heap := Function.update (Function.update ww2.heap 0 (.sum (.cons true (.var 0)
        (.cons true (.mult (.cons true (.var 1) (.cons true (.int 1) .nil))) .nil)))) 0 xPlusOne2 }.set 0
        { ow2 with vs := { Vars.empty.addGroup [0] with homVars := [1] }, diffed := false }) := by
    have hp : isPoly ww2.vals [0] xPlusOne := by
      simp [isPoly, xPlusOne, degG, degGSum, degV]
    have ho : ww2.objs 0 = ow2 := by simp [ww2, World.set]
    simp only [homogenize, ho, World.roots]
    simp [ow2, ow, Vars.homogenize, Vars.empty, Vars.addGroup, Obj.new, Vars.numHomVars, systemIsPoly,
      homGroupsLoop, homArgs, homRoots, World.roots, hz, hp, hh1, hh2]
  have := hall id _ _ (run_ww2 id) 0 [0] (· + 1) _ rfl
    (by simp [ww2, World.set, ow2, ow, Vars.addGroup, Vars.empty])
    ⟨fun a b => by simp, fun k => ⟨by simp [ww2, World.set, ow2, ow, Vars.empty, Vars.addGroup],
      by simp [ww2, World.set, ow2, ow, Vars.empty, Vars.addGroup],
      by simp [World.roots, ww2, ww, World.set, ow2, ow, xPlusOne, Node.vars, Ops.vars]⟩⟩
    (by simp [World.roots, ww2, ww, World.set, ow2, ow, xPlusOne, FrozenExponents,
      FrozenExponentsOps, ExactUnary, ExactUnaryOps, degV, degVSum]) hw xPlusOne2
    (by simp [World.roots, World.set, ow2])
  obtain ⟨d, hd⟩ := this
  have e1 := hd 2 (fun v => if v = 0 then 1 else 0) (by norm_num)
  have e2 := hd 2 (fun v => if v = 1 then 1 else 0) (by norm_num)
  simp [xPlusOne2, eval, evalSum, evalMult, scale] at e1 e2
  rw [← e1] at e2
  norm_num at e2

/-- `C67_partial` applies to `x + 1` added once. -/
example : ∀ w', homogenize (· + 1) (ww xPlusOne) 0 = some w' →
    ∀ n' ∈ w'.roots (w'.objs 0), ∃ d, IsHomogeneousFun [1, 0] n' d := by
  intro w' h
  exact C67_partial _ w' 0 [0] (· + 1) rfl rfl
    ⟨fun a b => by simp, fun k => ⟨by simp [ww, World.set, ow, Vars.empty, Vars.addGroup],
      by simp [ww, World.set, ow, Vars.empty, Vars.addGroup],
      by simp [World.roots, ww, World.set, ow, xPlusOne, Node.vars, Ops.vars]⟩⟩
    (by simp [ww, World.set, ow])
    (by simp [World.roots, ww, World.set, ow, xPlusOne, FrozenExponents,
      FrozenExponentsOps, ExactUnary, ExactUnaryOps, degV, degVSum]) h

end B2.Sys
