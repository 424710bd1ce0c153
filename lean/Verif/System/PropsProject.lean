import Verif.System.PropsStateOps
import Verif.Tree.HomProof2

/-!
# Property C142: homogenizing a system keeps its solutions

A common zero of the homogenized functions, none of whose homogenizing coordinates vanishes, is, after
dividing the variables of each group by the homogenizing coordinate of the group, a common zero of the
functions as they were, and conversely.
-/

namespace B2.Sys

open Classical

mutual
theorem frozen_hom {cur env : Env} {g : List Var} {h : Var} : ∀ (n n' : Node),
    hom cur g h n = some n' → FrozenExponents cur env n → FrozenExponents cur env n'
  | .int _, n', ho, hf | .float _ _, n', ho, hf | .rat _ _, n', ho, hf | .special _, n', ho, hf
  | .var _, n', ho, hf => by
    simp only [hom, Option.some.injEq] at ho; subst ho; exact hf
  | .sum ops, n', ho, hf => by
    simp only [hom, Option.bind_eq_bind, Option.bind_eq_some_iff] at ho
    obtain ⟨ops', ho1, ho2⟩ := ho
    split_ifs at ho2 with hnn
    simp only [Option.some.injEq] at ho2
    subst ho2
    clear hnn
    have := frozen_homOps ops ops' ho1 hf
    simp only [FrozenExponents]
    generalize maxDeg cur g ops' = D
    clear ho1
    induction ops' using Ops.rec (motive_1 := fun _ => True) with
    | nil => trivial
    | cons s n r _ ih =>
      refine ⟨?_, ih this.2⟩
      unfold padTerm
      split_ifs <;> simp [FrozenExponents, FrozenExponentsOps, this.1]
    | _ => trivial
  | .mult ops, n', ho, hf => by
    simp only [hom, Option.bind_eq_bind, Option.bind_eq_some_iff, Option.some.injEq] at ho
    obtain ⟨ops', ho1, rfl⟩ := ho
    exact frozen_homOps ops ops' ho1 hf
  | .pow b e, n', ho, hf => by
    simp only [hom] at ho
    split_ifs at ho
    simp only [Option.bind_eq_bind, Option.bind_eq_some_iff, Option.some.injEq] at ho
    obtain ⟨b', hb, rfl⟩ := ho
    exact ⟨frozen_hom b b' hb hf.1, hf.2⟩
  | .neg n, n', ho, hf | .ipow n _, n', ho, hf | .sqrt n, n', ho, hf | .exp n, n', ho, hf
  | .log n, n', ho, hf | .sin n, n', ho, hf | .cos n, n', ho, hf | .tan n, n', ho, hf
  | .asin n, n', ho, hf | .acos n, n', ho, hf | .atan n, n', ho, hf | .fn n, n', ho, hf => by
    simp only [hom, Option.bind_eq_bind, Option.bind_eq_some_iff, Option.some.injEq] at ho
    obtain ⟨m, hm, rfl⟩ := ho
    exact frozen_hom n m hm hf
theorem frozen_homOps {cur env : Env} {g : List Var} {h : Var} : ∀ (ops ops' : Ops),
    homOps cur g h ops = some ops' → FrozenExponentsOps cur env ops → FrozenExponentsOps cur env ops'
  | .nil, ops', ho, hf => by simp only [homOps, Option.some.injEq] at ho; subst ho; exact hf
  | .cons s n r, ops', ho, hf => by
    simp only [homOps, Option.bind_eq_bind, Option.bind_eq_some_iff, Option.some.injEq] at ho
    obtain ⟨n', hn, r', hr, rfl⟩ := ho
    exact ⟨frozen_hom n n' hn hf.1, frozen_homOps r r' hr hf.2⟩
end

/-- The degree rules stay exact for another group `u`. -/
theorem exact_hom {cur : Env} {g u : List Var} {h : Var} (hu : h ∉ u) (n : Node) : ∀ n',
    Expanded cur n → hom cur g h n = some n' → ExactUnary cur u n → ExactUnary cur u n' := by
  induction n using Node.rec (motive_2 := fun ops => ∀ ops', ExpandedOps cur ops →
    homOps cur g h ops = some ops' → ExactUnaryOps cur u ops → ExactUnaryOps cur u ops') with
  | nil ops' _ ho _ => simp only [homOps, Option.some.injEq] at ho; subst ho; trivial
  | cons s n r ih1 ih2 ops' he ho hx =>
    simp only [homOps, Option.bind_eq_bind, Option.bind_eq_some_iff, Option.some.injEq] at ho
    obtain ⟨n', hn, r', hr, rfl⟩ := ho
    exact ⟨ih1 n' he.1 hn hx.1, ih2 r' he.2 hr hx.2⟩
  | sum ops ih =>
    intro n' he ho hx
    simp only [hom, Option.bind_eq_bind, Option.bind_eq_some_iff] at ho
    obtain ⟨ops', ho1, ho2⟩ := ho
    split_ifs at ho2 with hnn
    simp only [Option.some.injEq] at ho2
    subst ho2
    clear hnn
    have := ih ops' he ho1 hx
    simp only [ExactUnary]
    generalize maxDeg cur g ops' = D
    clear ho1 ih
    have hz : degG cur u (.var h) = (u.map fun v => degV cur v (.var h)).sum := by
      have : (u.map fun v => degV cur v (.var h)) = u.map fun _ => 0 :=
        List.map_congr_left fun v hv => by
          have : h ≠ v := fun e => hu (e ▸ hv)
          simp [degV, this]
      rw [this]
      simp [degG, hu]
    induction ops' using Ops.rec (motive_1 := fun _ => True) with
    | nil => trivial
    | cons s n r _ ih =>
      refine ⟨?_, ih this.2⟩
      unfold padTerm
      split_ifs
      · simp [ExactUnary, ExactUnaryOps, this.1]
      · exact ⟨⟨trivial, hz⟩, this.1, trivial⟩
      · exact this.1
    | _ => trivial
  | mult ops ih =>
    intro n' he ho hx
    simp only [hom, Option.bind_eq_bind, Option.bind_eq_some_iff, Option.some.injEq] at ho
    obtain ⟨ops', ho1, rfl⟩ := ho
    exact ih ops' he ho1 hx
  | fn n ih =>
    intro n' he ho hx
    simp only [hom, Option.bind_eq_bind, Option.bind_eq_some_iff, Option.some.injEq] at ho
    obtain ⟨m, hm, rfl⟩ := ho
    exact ih m he hm hx
  | _ =>
    intro n' he ho hx
    have hsf := he
    have e := hom_sumFree _ n' (by simpa only [Expanded, SumFree] using hsf) ho
    subst e
    exact hx

/-- A function as users write polynomials: negation, powers and elementary functions are applied to
sum-free trees, exponents of `^` are constants (integers when they look like integers), no degree
is negative and the group degrees of powers and negations are the sums of their degrees in the single
variables. -/
structure PlainPoly (cur : Env) (groups : List (List Var)) (n : Node) : Prop where
  expanded : Expanded cur n
  constant : ∀ env, FrozenExponents cur env n
  exact : ∀ g ∈ groups, ExactUnary cur g n
  nonneg : ∀ g ∈ groups, ∀ v ∈ g, 0 ≤ degV cur v n

theorem PlainPoly.hom {cur : Env} {gs : List (List Var)} {g : List Var} {h : Var} {n n' : Node}
    (hp : PlainPoly cur gs n) (hf : ∀ u ∈ gs, h ∉ u) (ho : B2.hom cur g h n = some n') :
    PlainPoly cur gs n' := by
  refine ⟨(hom_other (u := []) (by simp) n n' hp.expanded ho).2.2.2.1,
    fun env => frozen_hom n n' ho (hp.constant env),
    fun u hu => exact_hom (hf u hu) n n' hp.expanded ho (hp.exact u hu), ?_⟩
  intro u hu v hv
  have hvh : h ∉ [v] := by
    intro hc
    rw [List.mem_singleton] at hc
    exact hf u hu (hc ▸ hv)
  have := (hom_other hvh n n' hp.expanded ho).1
  rw [degG_singleton, degG_singleton] at this
  rw [this]
  exact hp.nonneg u hu v hv

/-- The effect of all groups on a value: a non-zero factor. -/
theorem homFold_value {cur : Env} : ∀ (args : List (List Var × Var)) (n n' : Node) (env env' : Env),
    homFold cur args n = some n' → PlainPoly cur (args.map Prod.fst) n → (∀ p ∈ args, p.2 ∉ n.vars) →
    (∀ p ∈ args, ∀ q ∈ args, p.2 ∉ q.1) → (args.map Prod.snd).Nodup →
    args.Pairwise (fun p q => ∀ v ∈ p.1, v ∉ q.1) →
    (∀ p ∈ args, env p.2 ≠ 0) → (∀ p ∈ args, ∀ v ∈ p.1, env' v = env v / env p.2) →
    (∀ v ∈ n.vars, (∀ p ∈ args, v ∉ p.1) → env' v = env v) →
    ∃ c : ℂ, c ≠ 0 ∧ eval env n' = c * eval env' n := by
  intro args
  induction args with
  | nil =>
    intro n n' env env' hf _ _ _ _ _ _ _ he
    simp only [homFold, Option.some.injEq] at hf
    subst hf
    refine ⟨1, one_ne_zero, ?_⟩
    rw [eval_congr n fun v hv => he v hv (by simp)]
    simp
  | cons p args ih =>
    obtain ⟨g, h⟩ := p
    intro n n' env env' hf hp hv hg hnd hdis hne hin hout
    simp only [homFold, Option.bind_eq_some_iff] at hf
    obtain ⟨n1, h1, h2⟩ := hf
    have hhg : h ∉ g := hg (g, h) (by simp) (g, h) (by simp)
    simp only [List.map_cons, List.nodup_cons, List.mem_map, not_exists, not_and] at hnd
    rw [List.pairwise_cons] at hdis
    have hp1 : PlainPoly cur (args.map Prod.fst) n1 := by
      have hq := hp.hom (h := h) (by
        intro u hu
        obtain ⟨q, hq, rfl⟩ := List.mem_map.1 hu
        exact hg (g, h) (by simp) q hq) h1
      exact ⟨hq.expanded, hq.constant, fun u hu => hq.exact u (by simp [hu]),
        fun u hu => hq.nonneg u (by simp [hu])⟩
    have hv1 := (hom_other (u := []) (by simp) n n1 hp.expanded h1).2.2.2.2
    let env1 : Env := fun v => if v ∈ h :: g then env v else env' v
    obtain ⟨c, hc, e1⟩ := ih n1 n' env env1 h2 hp1
      (fun q hq hm => by
        rcases hv1 _ hm with e | e
        · exact hnd.1 q hq e
        · exact hv q (by simp [hq]) e)
      (fun q hq r hr => hg q (by simp [hq]) r (by simp [hr])) hnd.2 hdis.2
      (fun q hq => hne q (by simp [hq]))
      (fun q hq v hvq => by
        have n1 : v ∉ h :: g := by
          intro hm
          rcases List.mem_cons.1 hm with rfl | hm
          · exact hg (g, v) (by simp) q (by simp [hq]) hvq
          · exact hdis.1 q hq v hm hvq
        simp only [env1, n1, if_false]
        exact hin q (by simp [hq]) v hvq)
      (fun v hvn hq => by
        by_cases hm : v ∈ h :: g
        · simp only [env1, hm, if_true]
        · simp only [env1, hm, if_false]
          simp only [List.mem_cons, not_or] at hm
          refine hout v ((hv1 v hvn).resolve_left hm.1) fun q hq' => ?_
          rcases List.mem_cons.1 hq' with rfl | hq'
          · exact hm.2
          · exact hq q hq')
    have hh0 : env h ≠ 0 := hne (g, h) (by simp)
    have e2 := hom_homogeneous (env := env1) hhg (inv_ne_zero hh0) n n1 h1 (hv (g, h) (by simp))
      (hp.constant env1) (hp.exact g (by simp)) (hp.nonneg g (by simp))
    have e3 : scale (env h)⁻¹ (h :: g) env1 h = 1 := by
      simp [scale, env1, hh0]
    rw [eval_hom e3 n n1 h1] at e2
    have e4 : eval (scale (env h)⁻¹ (h :: g) env1) n = eval env' n := by
      refine eval_congr n fun v hvn => ?_
      have hvh : v ≠ h := fun e => hv (g, h) (by simp) (e ▸ hvn)
      by_cases hvg : v ∈ g
      · have := hin (g, h) (by simp) v hvg
        simp only [scale, List.mem_cons, hvg, or_true, if_true, env1]
        rw [this]
        field_simp
      · simp [scale, env1, hvh, hvg]
    rw [e4] at e2
    refine ⟨c * ((env h)⁻¹ ^ degG cur g n)⁻¹, mul_ne_zero hc (inv_ne_zero (zpow_ne_zero _ (inv_ne_zero hh0))), ?_⟩
    rw [e1, e2]
    have := zpow_ne_zero (degG cur g n) (inv_ne_zero hh0)
    field_simp

/-! ### C142 -/

/-- `env'` is the point `env` with the variables of group `k` divided by the value of the `k`-th
homogenizing variable, all other variables being as they are. -/
structure IsAffinePoint (groups : List (List Var)) (fresh : ℕ → Var) (env env' : Env) : Prop where
  nonzero : ∀ k, k < groups.length → env (fresh k) ≠ 0
  divided : ∀ k g, groups[k]? = some g → ∀ v ∈ g, env' v = env v / env (fresh k)
  others : ∀ v, (∀ g ∈ groups, v ∉ g) → (∀ k, v ≠ fresh k) → env' v = env v

/-- **C142, full statement.** Homogenizing keeps the solutions: after any history, for every system of
polynomials (with constant exponents) in disjoint affine groups that can be homogenized, and every point
none of whose homogenizing coordinates is zero, the homogenized functions all vanish at the point exactly
when the functions as they were all vanish at the affine point. -/
def C142_full : Prop :=
  ∀ (simp : Node → Node) (ops : List SysOp) (w : World), run simp ops World.init = some w →
    ∀ (i : ℕ) (fresh : ℕ → Var) (w' : World), (w.objs i).vs.homVars = [] → (w.objs i).fns.Nodup →
      FreshFor w (w.objs i) fresh →
      ((w.objs i).vs.groups.Pairwise fun g g' => ∀ v ∈ g, v ∉ g') →
      (∀ n ∈ w.roots (w.objs i), (∀ env, FrozenExponents w.vals env n) ∧
        ∀ g ∈ (w.objs i).vs.groups, ∀ v ∈ g, 0 ≤ degV w.vals v n) →
      homogenize fresh w i = some w' → ∀ env env', IsAffinePoint (w.objs i).vs.groups fresh env env' →
        ((∀ z ∈ valuesOf w' (w'.objs i) env, z = 0) ↔ ∀ z ∈ valuesOf w (w.objs i) env', z = 0)

/-- **C142 (partial).** For polynomials as users write them (`PlainPoly`): each homogenized function has
at the point the value of the function as it was at the affine point, up to a non-zero factor. Missing:
negations and powers of sums, for which the claim is false. -/
theorem C142_partial (w w' : World) (i : ℕ) (fresh : ℕ → Var) (hno : (w.objs i).vs.homVars = [])
    (hnd : (w.objs i).fns.Nodup) (hfr : FreshFor w (w.objs i) fresh)
    (hdis : (w.objs i).vs.groups.Pairwise fun g g' => ∀ v ∈ g, v ∉ g')
    (hpoly : ∀ n ∈ w.roots (w.objs i), PlainPoly w.vals (w.objs i).vs.groups n)
    (h : homogenize fresh w i = some w') (env env' : Env)
    (haff : IsAffinePoint (w.objs i).vs.groups fresh env env') :
    List.Forall₂ (fun a b => ∃ c : ℂ, c ≠ 0 ∧ a = c * b) (valuesOf w' (w'.objs i) env)
      (valuesOf w (w.objs i) env') := by
  obtain ⟨vs, heap, h1, h2, h3, h4, rfl⟩ := homogenize_some h
  obtain ⟨hinj, hfr⟩ := hfr
  have hargs : homArgs fresh (w.objs i).vs =
      List.zipWith (fun g k => (g, fresh k)) (w.objs i).vs.groups
        (List.range (w.objs i).vs.groups.length) := by
    simp [homArgs, Vars.numHomVars, hno]
  rw [hargs] at h4
  generalize hgs : (w.objs i).vs.groups = gs at *
  have hmem : ∀ p ∈ List.zipWith (fun g k => (g, fresh k)) gs (List.range gs.length),
      ∃ k, gs[k]? = some p.1 ∧ p.2 = fresh k := by
    intro p hp
    rw [List.mem_iff_getElem] at hp
    obtain ⟨k, hk, rfl⟩ := hp
    simp only [List.length_zipWith, List.length_range, min_self] at hk
    simp only [List.getElem_zipWith, List.getElem_range]
    exact ⟨k, List.getElem?_eq_getElem hk, rfl⟩
  have hfst : (List.zipWith (fun g k => (g, fresh k)) gs (List.range gs.length)).map Prod.fst = gs := by
    rw [List.map_zipWith]
    apply List.ext_getElem <;> simp
  have hsnd : ((List.zipWith (fun g k => (g, fresh k)) gs (List.range gs.length)).map Prod.snd).Nodup := by
    have : (List.zipWith (fun g k => (g, fresh k)) gs (List.range gs.length)).map Prod.snd =
        (List.range gs.length).map fresh := by
      rw [List.map_zipWith]
      apply List.ext_getElem <;> simp
    rw [this]
    exact List.nodup_range.map hinj
  have hpw : (List.zipWith (fun g k => (g, fresh k)) gs (List.range gs.length)).Pairwise
      fun p q => ∀ v ∈ p.1, v ∉ q.1 := by
    rw [← hfst, List.pairwise_map] at hdis
    exact hdis
  have hone : ∀ f ∈ (w.objs i).fns, ∃ c : ℂ, c ≠ 0 ∧ eval env (heap f) = c * eval env' (w.heap f) := by
    intro f hf
    have hroot : w.heap f ∈ w.roots (w.objs i) := List.mem_map_of_mem hf
    refine homFold_value _ _ _ env env' (homGroupsLoop_on hnd _ _ _ h4 f hf) ?_ ?_ ?_ hsnd hpw ?_ ?_ ?_
    · rw [hfst]; exact hpoly _ hroot
    · intro p hp
      obtain ⟨k, _, e⟩ := hmem p hp
      rw [e]; exact (hfr k).2.2 _ hroot
    · intro p hp q hq
      obtain ⟨k, _, e⟩ := hmem p hp
      obtain ⟨l, e', _⟩ := hmem q hq
      rw [e]; exact (hfr k).1 _ (List.mem_of_getElem? e')
    · intro p hp
      obtain ⟨k, e', e⟩ := hmem p hp
      rw [e]; exact haff.nonzero k (List.getElem?_eq_some_iff.1 e').1
    · intro p hp v hv
      obtain ⟨k, e', e⟩ := hmem p hp
      rw [e]; exact haff.divided k _ e' v hv
    · intro v hvn hv
      refine haff.others v (fun g hg hvg => ?_) (fun k e => (hfr k).2.2 _ hroot (e ▸ hvn))
      rw [← hfst, List.mem_map] at hg
      obtain ⟨p, hp, rfl⟩ := hg
      exact hv p hp hvg
  simp only [valuesOf, World.roots, World.set, Function.update_self, List.forall₂_map_left_iff,
    List.forall₂_map_right_iff]
  rw [List.forall₂_same]
  exact hone

/-- **C142 (partial, zeros).** In particular one is a solution exactly when the other one is. -/
theorem C142_zeros_partial (w w' : World) (i : ℕ) (fresh : ℕ → Var) (hno : (w.objs i).vs.homVars = [])
    (hnd : (w.objs i).fns.Nodup) (hfr : FreshFor w (w.objs i) fresh)
    (hdis : (w.objs i).vs.groups.Pairwise fun g g' => ∀ v ∈ g, v ∉ g')
    (hpoly : ∀ n ∈ w.roots (w.objs i), PlainPoly w.vals (w.objs i).vs.groups n)
    (h : homogenize fresh w i = some w') (env env' : Env)
    (haff : IsAffinePoint (w.objs i).vs.groups fresh env env') :
    (∀ z ∈ valuesOf w' (w'.objs i) env, z = 0) ↔ ∀ z ∈ valuesOf w (w.objs i) env', z = 0 := by
  have := C142_partial w w' i fresh hno hnd hfr hdis hpoly h env env' haff
  generalize valuesOf w' (w'.objs i) env = l at this
  generalize valuesOf w (w.objs i) env' = l' at this
  induction this with
  | nil => simp
  | cons hab _ ih =>
    obtain ⟨c, hc, rfl⟩ := hab
    simp [ih, hc]

/-- `1 - (x + y)`, written with a negation. -/
def oneMinusSum : Node :=
  .sum (.cons true (.neg (.sum (.cons true (.var 0) (.cons true (.var 1) .nil)))) (.cons true (.int 1) .nil))

def oneMinusSum1 : Node :=
  .sum (.cons true (.neg (.sum (.cons true (.var 0) (.cons true (.var 1) .nil))))
    (.cons true (.mult (.cons true (.ipow (.var 2) 2) (.cons true (.int 1) .nil))) .nil))

def oXY : Obj := { Obj.new .slp with vs := Vars.empty.addGroup [0, 1], fns := [0] }

def wXY (n : Node) : World :=
  ({ World.init with heap := Function.update (fun _ => .int 0) 0 n, next := 1 }).set 0 oXY

theorem run_wXY (simp : Node → Node) (n : Node) :
    run simp [.varOp 0 (·.addGroup [0, 1]), .addFunction 0 n] World.init = some (wXY n) := by
  simp [run, step, wXY, World.set, World.init, oXY, Obj.new]

theorem homogenize_wXY {n n' : Node} (hp : isPoly (wXY n).vals [0, 1] n)
    (hh : hom (wXY n).vals [0, 1] 2 n = some n') :
    homogenize (· + 2) (wXY n) 0 = some
      ({ wXY n with heap := Function.update (wXY n).heap 0 n' }.set 0
        { oXY with vs := { Vars.empty.addGroup [0, 1] with homVars := [2] }, diffed := false }) := by
  have hz : (wXY n).heap 0 = n := by simp [wXY, World.set]
  have ho : (wXY n).objs 0 = oXY := by simp [wXY, World.set]
  simp only [homogenize, ho, World.roots]
  simp [oXY, Vars.homogenize, Vars.empty, Vars.addGroup, Obj.new, Vars.numHomVars, systemIsPoly,
    homGroupsLoop, homArgs, homRoots, World.roots, hz, hp, hh]

theorem fresh_wXY {n : Node} (hn : ∀ v ∈ n.vars, v < 2) : FreshFor (wXY n) ((wXY n).objs 0) (· + 2) := by
  refine ⟨fun a b => by simp, fun k => ⟨?_, ?_, ?_⟩⟩
  · simp [wXY, World.set, oXY, Vars.empty, Vars.addGroup]
  · simp [wXY, World.set, oXY, Vars.empty, Vars.addGroup]
  · intro m hm hk
    simp [World.roots, wXY, World.set, oXY] at hm
    subst hm
    have := hn _ hk
    simp at this

/-- **C142 refuted**: `1 - (x+y)` becomes `h^2 - (x+y)`, as the degree of `-(x+y)` is counted as 2. At
`h = 2`, `x = 4`, `y = 0` this vanishes, but `1 - (x+y)` does not at `x = 2`, `y = 0`. -/
theorem C142_refuted : ¬ C142_full := by
  intro hall
  have hh : hom (wXY oneMinusSum).vals [0, 1] 2 oneMinusSum = some oneMinusSum1 := by
    simp [oneMinusSum, oneMinusSum1, hom, homOps, allNonneg, degG, degV, degVSum, foldUnary, padOps,
      padTerm, maxDeg]
  have hp : isPoly (wXY oneMinusSum).vals [0, 1] oneMinusSum := by
    simp [isPoly, oneMinusSum, degG, degGSum, degV, degVSum, foldUnary]
  have := hall id _ _ (run_wXY id oneMinusSum) 0 (· + 2) _ rfl (by simp [wXY, World.set, oXY])
    (fresh_wXY (by simp [oneMinusSum, Node.vars, Ops.vars]))
    (by simp [wXY, World.set, oXY, Vars.empty, Vars.addGroup])
    (by simp [World.roots, wXY, World.set, oXY, oneMinusSum, FrozenExponents, FrozenExponentsOps,
      Vars.empty, Vars.addGroup, degV, degVSum])
    (homogenize_wXY hp hh) (fun v => if v = 0 then 4 else if v = 1 then 0 else 2)
    (fun v => if v = 0 then 2 else if v = 1 then 0 else 2)
    ⟨by simp, by
      intro k g hk v hv
      have : k = 0 ∧ g = [0, 1] := by
        simp [wXY, World.set, oXY, Vars.empty, Vars.addGroup, List.getElem?_singleton] at hk
        exact ⟨hk.1, hk.2.symm⟩
      obtain ⟨rfl, rfl⟩ := this
      simp at hv
      rcases hv with rfl | rfl <;> norm_num, by
      intro v hv _
      have := hv [0, 1] (by simp [wXY, World.set, oXY, Vars.empty, Vars.addGroup])
      simp at this
      simp [this.1, this.2]⟩
  have h2 := this.1 (by
    simp [valuesOf, World.roots, World.set, oXY, oneMinusSum1, eval, evalSum, evalMult]
    norm_num)
  simp [valuesOf, World.roots, wXY, World.set, oXY, oneMinusSum, eval, evalSum] at h2
  norm_num at h2

/-- `C142_partial` applies to `x^2 + y + 1`: with `h = 2`, `x = 4`, `y = 6` the homogenized function has
the value of `x^2 + y + 1` at `x = 2`, `y = 3` up to a non-zero factor. -/
example : ∃ n' c : _, hom (fun _ => 0) [0, 1] 2 (.sum (.cons true (.ipow (.var 0) 2)
      (.cons true (.var 1) (.cons true (.int 1) .nil)))) = some n' ∧ c ≠ (0 : ℂ) ∧
    eval (fun v => if v = 0 then 4 else if v = 1 then 6 else 2) n' = c * 8 := by
  have hh : hom (fun _ => 0) [0, 1] 2 (.sum (.cons true (.ipow (.var 0) 2)
      (.cons true (.var 1) (.cons true (.int 1) .nil)))) = some (.sum (.cons true (.ipow (.var 0) 2)
      (.cons true (.mult (.cons true (.var 2) (.cons true (.var 1) .nil)))
        (.cons true (.mult (.cons true (.ipow (.var 2) 2) (.cons true (.int 1) .nil))) .nil)))) := by
    simp [hom, homOps, allNonneg, degG, degV, degVSum, foldUnary, padOps, padTerm, maxDeg]
  have hp : isPoly (wXY (.sum (.cons true (.ipow (.var 0) 2)
      (.cons true (.var 1) (.cons true (.int 1) .nil))))).vals [0, 1] (.sum (.cons true (.ipow (.var 0) 2)
      (.cons true (.var 1) (.cons true (.int 1) .nil)))) := by
    simp [isPoly, degG, degGSum, degV, degVSum, foldUnary]
  have := C142_partial _ _ 0 (· + 2) rfl (by simp [wXY, World.set, oXY])
    (fresh_wXY (by simp [Node.vars, Ops.vars]))
    (by simp [wXY, World.set, oXY, Vars.empty, Vars.addGroup])
    (by
      intro n hn
      simp [World.roots, wXY, World.set, oXY] at hn
      subst hn
      refine ⟨by simp [Expanded, ExpandedOps, SumFree], by simp [FrozenExponents, FrozenExponentsOps], ?_, ?_⟩
      · simp [wXY, World.set, oXY, Vars.empty, Vars.addGroup, ExactUnary, ExactUnaryOps, degG, degV]
      · simp [wXY, World.set, oXY, Vars.empty, Vars.addGroup, degV, degVSum])
    (homogenize_wXY hp hh) (fun v => if v = 0 then 4 else if v = 1 then 6 else 2)
    (fun v => if v = 0 then 2 else if v = 1 then 3 else 2)
    ⟨by simp, by
      intro k g hk v hv
      have : k = 0 ∧ g = [0, 1] := by
        simp [wXY, World.set, oXY, Vars.empty, Vars.addGroup, List.getElem?_singleton] at hk
        exact ⟨hk.1, hk.2.symm⟩
      obtain ⟨rfl, rfl⟩ := this
      simp at hv
      rcases hv with rfl | rfl <;> norm_num, by
      intro v hv _
      have := hv [0, 1] (by simp [wXY, World.set, oXY, Vars.empty, Vars.addGroup])
      simp at this
      simp [this.1, this.2]⟩
  simp [valuesOf, World.roots, World.set, wXY, oXY] at this
  obtain ⟨c, hc, e⟩ := this
  refine ⟨_, c, hh, hc, ?_⟩
  rw [e]
  simp [eval, evalSum]
  norm_num

end B2.Sys
