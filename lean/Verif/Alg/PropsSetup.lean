import Verif.Alg.Setup
import Verif.Alg.PropsHomotopyStart
import Verif.System.PropsProject
import Verif.System.PropsVars
import Verif.Start.PolyDegree

/-!
# Properties C143 and C144: setting up a zero-dimensional solve

C143: homogenizing and patching the target never throws for polynomials. C144: the whole setup, from the
user's system to the homotopy, and what its paths lead from and to.
-/

namespace B2.Sys

theorem poly_plain {cur : Env} {gs : List (List Var)} {n : Node} (hn : PolyTree n)
    (hg : ∀ g ∈ gs, g.Nodup) : PlainPoly cur gs n :=
  ⟨poly_expanded n hn, fun _ => poly_frozen n hn, fun g h => poly_exact (hg g h) n hn,
    fun _ _ _ _ => poly_degV hn⟩

/-- Homogenizing for all groups never fails for polynomials. -/
theorem poly_homFold {cur : Env} : ∀ (args : List (List Var × Var)) (n : Node),
    (∀ p ∈ args, p.1.Nodup) → PolyTree n → ∃ n', homFold cur args n = some n' ∧ PolyTree n' := by
  intro args
  induction args with
  | nil => exact fun n _ hn => ⟨n, rfl, hn⟩
  | cons p args ih =>
    obtain ⟨g, h⟩ := p
    intro n hp hn
    obtain ⟨n1, e1, p1⟩ := poly_hom (cur := cur) (h := h) (hp (g, h) (by simp)) n hn
    obtain ⟨n', e2, p2⟩ := ih n1 (fun q hq => hp q (by simp [hq])) p1
    exact ⟨n', by simp [homFold, e1, e2], p2⟩

theorem homRoots_ok {cur : Env} {g : List Var} {h : Var} (hg : g.Nodup) : ∀ (ids : List ℕ) (heap : ℕ → Node),
    (∀ f ∈ ids, PolyTree (heap f)) → ∃ heap', homRoots cur g h ids heap = some heap' ∧
      ∀ f, PolyTree (heap f) → PolyTree (heap' f) := by
  intro ids
  induction ids with
  | nil => exact fun heap _ => ⟨heap, rfl, fun _ h => h⟩
  | cons f ids ih =>
    intro heap hp
    obtain ⟨n, e, pn⟩ := poly_hom (cur := cur) (h := h) hg _ (hp f (by simp))
    obtain ⟨heap', e', p'⟩ := ih (Function.update heap f n) (by
      intro f' hf'
      by_cases hc : f' = f
      · subst hc; simpa using pn
      · rw [Function.update_of_ne hc]; exact hp f' (by simp [hf']))
    refine ⟨heap', by simp [homRoots, e, e'], fun f' hf' => p' f' ?_⟩
    by_cases hc : f' = f
    · subst hc; simpa using pn
    · rw [Function.update_of_ne hc]; exact hf'

theorem homGroupsLoop_ok {cur : Env} {ids : List ℕ} : ∀ (args : List (List Var × Var)) (heap : ℕ → Node),
    (∀ p ∈ args, p.1.Nodup) → (∀ f ∈ ids, PolyTree (heap f)) →
    ∃ heap', homGroupsLoop cur ids args heap = some heap' ∧ ∀ f ∈ ids, PolyTree (heap' f) := by
  intro args
  induction args with
  | nil => exact fun heap _ hp => ⟨heap, rfl, hp⟩
  | cons p args ih =>
    obtain ⟨g, h⟩ := p
    intro heap hg hp
    obtain ⟨heap1, e1, p1⟩ := homRoots_ok (cur := cur) (h := h) (hg (g, h) (by simp)) ids heap hp
    obtain ⟨heap', e2, p2⟩ := ih heap1 (fun q hq => hg q (by simp [hq])) fun f hf => p1 f (hp f hf)
    exact ⟨heap', by simp [homGroupsLoop, e1, e2], p2⟩

open Classical in
theorem homogenize_negSum : homogenize (· + 1) (ww negSum) 0 = some
      ({ ww negSum with heap := Function.update (ww negSum).heap 0 negSum1 }.set 0
        { ow with vs := { Vars.empty.addGroup [0] with homVars := [1] }, diffed := false }) := by
    have hz : (ww negSum).heap 0 = negSum := by simp [ww, World.set]
    have hp : isPoly (ww negSum).vals [0] negSum := by
      simp [isPoly, negSum, degG, degGSum, degV, degVSum, foldUnary]
    have ho : (ww negSum).objs 0 = ow := by simp [ww, World.set]
    simp only [homogenize, ho, World.roots]
    simp [ow, Vars.homogenize, Vars.empty, Vars.addGroup, Obj.new, Vars.numHomVars, systemIsPoly,
      homGroupsLoop, homArgs, homRoots, World.roots, hz, hp, hom_negSum]

end B2.Sys

namespace B2.Alg.Htp

open B2.Sys B2.Start

/-! ### C143 -/

/-- **C143, full statement.** After any history: when a system without ungrouped variables, with its
functions listed once, has been homogenized, `AutoPatch` succeeds. -/
def C143_full : Prop :=
  ∀ (simp : Node → Node) (ops : List SysOp) (w : World), run simp ops World.init = some w →
    ∀ (i : ℕ) (hist : List (Op Var)) (fresh : ℕ → Var) (coef : ℕ → ℕ → ℂ) (w1 : World),
      (w.objs i).vs = Vars.run hist → (w.objs i).vs.homVars = [] → (w.objs i).vs.ungrouped = [] →
      (w.objs i).fns.Nodup → FreshFor w (w.objs i) fresh →
      homogenize fresh w i = some w1 → ∃ w2, autoPatch coef w1 i = some w2

/-- A system of polynomials over variable groups, ready to be homogenized: the homogenizing variables
to be made are new, and the functions are homogeneous in the homogeneous groups. -/
structure PolySystem (w : World) (i : ℕ) (hist : List (Op Var)) (fresh : ℕ → Var) : Prop where
  built : (w.objs i).vs = Vars.run hist
  unhomogenized : (w.objs i).vs.homVars = []
  grouped : (w.objs i).vs.ungrouped = []
  once : (w.objs i).fns.Nodup
  freshness : FreshFor w (w.objs i) fresh
  groups : ∀ g ∈ (w.objs i).vs.groups, g.Nodup
  homGroups : ∀ g ∈ (w.objs i).vs.homGroups, g.Nodup
  poly : ∀ n ∈ w.roots (w.objs i), PolyTree n
  homogeneous : ∀ n ∈ w.roots (w.objs i), ∀ g ∈ (w.objs i).vs.homGroups, isHom w.vals g n

/-- What `PrepareTarget` does to such a system. -/
theorem prepareTarget_spec {w : World} {i : ℕ} {hist : List (Op Var)} {fresh : ℕ → Var}
    (coef : ℕ → ℕ → ℂ) (hs : PolySystem w i hist fresh) :
    ∃ w1 sizes, homogenize fresh w i = some w1 ∧ w1.vals = w.vals ∧ w1.next = w.next ∧
      (∀ l, l ≠ i → w1.objs l = w.objs l) ∧
      w1.objs i = { w.objs i with
        vs := { (w.objs i).vs with homVars := (List.range (w.objs i).vs.groups.length).map fresh, cache := none }
        diffed := false } ∧
      (w1.objs i).vs.groupSizes = some sizes ∧
      prepareTarget fresh coef w i = some
        (w1.set i { w1.objs i with patch := randomPatch coef sizes, patched := true }) ∧
      systemIsHom w1 (w1.objs i) ∧
      ∀ f ∈ (w.objs i).fns, PolyTree (w1.heap f) ∧
        homFold w.vals (homArgs fresh (w.objs i).vs) (w.heap f) = some (w1.heap f) ∧
        ∀ k g, (w.objs i).vs.groups[k]? = some g →
          degG w.vals (fresh k :: g) (w1.heap f) = degG w.vals g (w.heap f) := by
  obtain ⟨hb, hno, hung, hnd, ⟨hinj, hfr⟩, hg, hhg, hpoly, hhom⟩ := hs
  have hroot : ∀ f ∈ (w.objs i).fns, w.heap f ∈ w.roots (w.objs i) := fun f hf =>
    List.mem_map_of_mem hf
  have hargs : homArgs fresh (w.objs i).vs =
      List.zipWith (fun g k => (g, fresh k)) (w.objs i).vs.groups
        (List.range (w.objs i).vs.groups.length) := by
    simp [homArgs, Vars.numHomVars, hno]
  set s := (w.objs i).vs with hsdef
  set args := homArgs fresh s with hargsdef
  have hmem : ∀ p ∈ args, ∃ k, s.groups[k]? = some p.1 ∧ p.2 = fresh k := by
    intro p hp
    rw [hargs, List.mem_iff_getElem] at hp
    obtain ⟨k, hk, rfl⟩ := hp
    simp only [List.length_zipWith, List.length_range, min_self] at hk
    simp only [List.getElem_zipWith, List.getElem_range]
    exact ⟨k, List.getElem?_eq_getElem hk, rfl⟩
  have hmem' : ∀ k g, s.groups[k]? = some g → (g, fresh k) ∈ args := by
    intro k g hk
    obtain ⟨hlt, rfl⟩ := List.getElem?_eq_some_iff.1 hk
    rw [hargs, List.mem_iff_getElem]
    exact ⟨k, by simp only [List.length_zipWith, List.length_range, min_self]; exact hlt, by simp⟩
  have hsnd : (args.map Prod.snd).Nodup := by
    have : args.map Prod.snd = (List.range s.groups.length).map fresh := by
      rw [hargs, List.map_zipWith]
      apply List.ext_getElem <;> simp
    rw [this]
    exact List.nodup_range.map hinj
  obtain ⟨heap, eh, ph⟩ := homGroupsLoop_ok (cur := w.vals) (ids := (w.objs i).fns) args w.heap
    (fun p hp => by obtain ⟨k, e, _⟩ := hmem p hp; exact hg _ (List.mem_of_getElem? e))
    (fun f hf => hpoly _ (hroot f hf))
  have hfold : ∀ f ∈ (w.objs i).fns, homFold w.vals args (w.heap f) = some (heap f) :=
    homGroupsLoop_on hnd _ _ _ eh
  have hspec := fun f (hf : f ∈ (w.objs i).fns) => homFold_spec args (w.heap f) (heap f) (hfold f hf)
    (poly_expanded _ (hpoly _ (hroot f hf)))
    (fun p hp => by obtain ⟨k, _, e⟩ := hmem p hp; rw [e]; exact (hfr k).2.2 _ (hroot f hf))
    (fun p hp q hq => by
      obtain ⟨k, _, e⟩ := hmem p hp
      obtain ⟨l, e', _⟩ := hmem q hq
      rw [e]; exact (hfr k).1 _ (List.mem_of_getElem? e')) hsnd
  have hhgf : ∀ g ∈ s.homGroups, ∀ p ∈ args, p.2 ∉ g := fun g hg p hp => by
    obtain ⟨k, _, e⟩ := hmem p hp; rw [e]; exact (hfr k).2.1 g hg
  let vs' : Vars Var := { s with homVars := (List.range s.groups.length).map fresh, cache := none }
  let w1 : World := { w with heap := heap }.set i { w.objs i with vs := vs', diffed := false }
  have h1 : homogenize fresh w i = some w1 := by
    unfold homogenize
    have hp : systemIsPoly w (w.objs i) := by
      intro n hn
      refine ⟨fun g hg' => ?_, fun g hg' => ?_⟩
      · simp only [← hsdef, Vars.numHomVars, hno, List.length_nil, if_true] at hg'
        exact poly_nonneg (hg g hg') n (hpoly n hn)
      · exact poly_nonneg (hhg g hg') n (hpoly n hn)
    rw [if_neg (not_not.2 hhom)]
    have hv : Vars.homogenize fresh (w.objs i).vs = some vs' := by
      simp [Vars.homogenize, Vars.numHomVars, ← hsdef, hno, vs']
    simp only [Option.bind_eq_bind, hv, Option.bind_some]
    rw [if_neg (not_not.2 hp)]
    simp only [← hsdef, ← hargsdef, eh, Option.bind_some]
    rfl
  have ho : w1.objs i = { w.objs i with vs := vs', diffed := false } := by simp [w1, World.set]
  have hvr : (Vars.run (hist ++ [.homogenize fresh])) = vs' := by
    rw [Vars.run, List.foldl_append, ← Vars.run, ← hb]
    simp [Vars.step, Vars.homogenize, Vars.numHomVars, hno, vs']
  have hc : Consistent (specRun (hist ++ [.homogenize fresh])) := by
    rw [consistent_iff]
    have hr := (rep_run (hist ++ [.homogenize fresh])).toRep
    rw [← hr.homVars, ← hr.groups, hvr]
    simp [vs']
  obtain ⟨hsz, _⟩ := C19_groupSizes _ hc
  rw [hvr] at hsz
  have hih : systemIsHom w1 (w1.objs i) := by
    rw [ho]
    refine ⟨by simp [vs', Vars.numHomVars], ?_⟩
    intro n hn
    obtain ⟨f, hf, rfl⟩ := List.mem_map.1 hn
    have hzip : List.zipWith (fun g h => h :: g) s.groups ((List.range s.groups.length).map fresh) =
        args.map fun p => p.2 :: p.1 := by
      rw [hargs, List.map_zipWith, List.zipWith_map_right]
    refine ⟨?_, ?_, ?_⟩
    · intro g hg'
      simp only [vs', Vars.numHomVars, List.length_map, List.length_range, List.length_eq_zero_iff] at hg'
      by_cases h0 : s.groups = []
      · simp [h0] at hg'
      · rw [if_neg h0, hzip] at hg'
        obtain ⟨p, hp, rfl⟩ := List.mem_map.1 hg'
        exact poly_isHom _ (ph f hf) ((hspec f hf).1 p hp).1
    · intro g hg'
      exact ((hspec f hf).2 g (hhgf g hg')).2.2 (hhom _ (hroot f hf) g hg')
    · intro hu
      exact absurd hung hu
  refine ⟨w1, _, h1, rfl, rfl, fun l hl => by simp [w1, World.set, Function.update_of_ne hl], ho,
    by rw [ho]; exact hsz, ?_, hih, fun f hf => ⟨ph f hf, hfold f hf, fun k g hk => ?_⟩⟩
  · unfold prepareTarget autoPatch
    rw [h1, Option.bind_some, if_neg (not_not.2 hih), ho]
    simp only [hsz, Option.map_some]
  · exact ((hspec f hf).1 _ (hmem' k g hk)).2

/-- **C143 (partial).** `PrepareTarget` never throws for polynomials (sums and products of monomials,
divided by constants only) in variable groups, whatever the random numbers; afterwards the system is
recognised as homogeneous, and is patched with one patch per group. Missing: other functions that can be
homogenized; for negated sums it is false. -/
theorem C143_partial (w : World) (i : ℕ) (hist : List (Op Var)) (fresh : ℕ → Var) (coef : ℕ → ℕ → ℂ)
    (hs : PolySystem w i hist fresh) :
    ∃ w2, prepareTarget fresh coef w i = some w2 ∧ systemIsHom w2 (w2.objs i) ∧
      (w2.objs i).patched = true ∧
      (w2.objs i).vs.groupSizes = some ((w2.objs i).patch.map List.length) ∧
      (w2.objs i).fns = (w.objs i).fns := by
  obtain ⟨w1, sizes, _, _, _, _, ho, hsz, hp, hih, _⟩ := prepareTarget_spec coef hs
  refine ⟨_, hp, ?_, ?_, ?_, ?_⟩
  · simp only [World.set, Function.update_self]
    exact hih
  · simp [World.set]
  · simp only [World.set, Function.update_self]
    rw [hsz]
    have : (randomPatch coef sizes).map List.length = sizes := by
      unfold randomPatch
      rw [List.map_map]
      apply List.ext_getElem <;> simp
    rw [this]
  · simp [World.set, ho]

theorem randomPatch_any (P : List (List ℂ)) :
    randomPatch (fun k j => ((P.getD k []).getD j 0)) (P.map List.length) = P := by
  refine List.ext_getElem (by simp [randomPatch]) fun k h1 h2 => ?_
  refine List.ext_getElem (by simp [randomPatch]) fun j h3 h4 => ?_
  simp [randomPatch, h2, h4]

/-- **C143 (any patch).** Every patch that fits the variable groups can be drawn: with suitable random numbers
`PrepareTarget` gives the system the coefficients `P`, one vector for each group, of its size. -/
theorem C143_any (w : World) (i : ℕ) (hist : List (Op Var)) (fresh : ℕ → Var) (hs : PolySystem w i hist fresh)
    (coef : ℕ → ℕ → ℂ) (w2 : World) (h2 : prepareTarget fresh coef w i = some w2) (P : List (List ℂ))
    (hP : (w2.objs i).vs.groupSizes = some (P.map List.length)) :
    ∃ coef' w3, prepareTarget fresh coef' w i = some w3 ∧ (w3.objs i).patch = P := by
  obtain ⟨w1, sizes, hw, _, _, _, _, hsz, hp, _⟩ := prepareTarget_spec coef hs
  obtain ⟨w1', sizes', hw', _, _, _, _, hsz', hp', _⟩ :=
    prepareTarget_spec (fun k j => ((P.getD k []).getD j 0)) hs
  rw [hw, Option.some.injEq] at hw'
  subst hw'
  rw [h2, Option.some.injEq] at hp
  have hs2 : (w2.objs i).vs.groupSizes = some sizes := by rw [hp]; simpa [World.set] using hsz
  rw [hsz, Option.some.injEq] at hsz'
  rw [hs2, Option.some.injEq] at hP
  refine ⟨_, _, hp', ?_⟩
  rw [← hsz', hP]
  simp only [World.set, Function.update_self]
  exact randomPatch_any P

/-- **C143 refuted**: `x - (x+1)`, written with a negation, becomes `x - (x+h)`; the degree of `-(x+h)`
is counted as 2, so the system is not recognised as homogeneous and `AutoPatch` throws. -/
theorem C143_refuted : ¬ C143_full := by
  intro hall
  obtain ⟨w2, h2⟩ := hall id _ _ (run_ww id negSum) 0 [.addGroup [0]] (· + 1) (fun _ _ => 1) _
    (by simp [ww, World.set, ow, Vars.run, Vars.step]) rfl rfl (by simp [ww, World.set, ow])
    ⟨fun a b => by simp, fun k => ⟨by simp [ww, World.set, ow, Vars.empty, Vars.addGroup],
      by simp [ww, World.set, ow, Vars.empty, Vars.addGroup],
      by simp [World.roots, ww, World.set, ow, negSum, Node.vars, Ops.vars]⟩⟩ homogenize_negSum
  unfold autoPatch at h2
  rw [if_pos] at h2
  · simp at h2
  · intro hc
    have := (hc.2 negSum1 (by simp [World.roots, World.set, ow])).1 [1, 0]
      (by simp [World.set, Vars.addGroup, Vars.empty, Vars.numHomVars])
    simp [negSum1, isHom, isHomOps, sumDegreesAgree, allDegreesEq, degG, degV, degVSum, degVMult,
      foldUnary] at this

/-! ### C144 -/

/-- One affine group makes one entry of `order`. -/
theorem order_of_group {hist : List (Op Var)} {g : List Var} (hg : (Vars.run hist).groups = [g])
    (hh : (Vars.run hist).homGroups = []) (hu : (Vars.run hist).ungrouped = []) :
    (Vars.run hist).order = [.affine] := by
  have hr := (rep_run hist).toRep
  rw [hr.groups] at hg
  rw [hr.homGroups] at hh
  rw [hr.ungrouped] at hu
  rw [hr.order]
  generalize specRun hist = bs at hg hh hu
  match bs with
  | [] => simp [affs] at hg
  | .homog _ :: r => simp [homs] at hh
  | .ungrouped _ :: r => simp [ungs] at hu
  | .affine _ vs :: r =>
    simp only [affs, List.cons.injEq] at hg
    simp only [homs] at hh
    simp only [ungs] at hu
    match r with
    | [] => simp [kinds]
    | .homog _ :: r => simp [homs] at hh
    | .ungrouped _ :: r => simp [ungs] at hu
    | .affine _ vs :: r => simp [affs] at hg

theorem block_ok {K : Type} (f : K → K) : ∀ (pre l : List K),
    block f (pre ++ l) pre.length l.length = some (l.map f) := by
  intro pre l
  induction l generalizing pre with
  | nil => simp [block]
  | cons a l ih =>
    have := ih (pre ++ [a])
    simp only [List.append_assoc, List.singleton_append, List.length_append, List.length_singleton] at this
    simp [block, this]

/-- What dehomogenizing does with one affine group. -/
theorem dehomogenize_group {s : Vars Var} {g : List Var} {z : Var} (hg : s.groups = [g])
    (hh : s.homGroups = []) (hu : s.ungrouped = []) (hz : s.homVars = [z]) (ho : s.order = [.affine])
    (c : ℂ) (xs : List ℂ) (hx : xs.length = g.length) :
    s.dehomogenize (c :: xs) = some (xs.map (· / c)) := by
  have hb := block_ok (· / c) [c] xs
  simp only [List.singleton_append, List.length_singleton, hx] at hb
  simp [Vars.dehomogenize, hz, hg, ho, Vars.dehomLoop, hb, Vars.numNatural, hh, hu, hx]

theorem tdFunctions_ok : ∀ (g : List Var) (ds : List ℤ) (rs : List (ℚ × ℚ)), g.length ≤ ds.length →
    g.length ≤ rs.length → ∃ fs, tdFunctions g ds rs = some fs := by
  intro g
  induction g with
  | nil => exact fun _ _ _ _ => ⟨[], rfl⟩
  | cons v g ih =>
    intro ds rs h1 h2
    cases ds with
    | nil => simp at h1
    | cons d ds =>
      cases rs with
      | nil => simp at h2
      | cons r rs =>
        obtain ⟨fs, h⟩ := ih ds rs (by simpa using h1) (by simpa using h2)
        exact ⟨_, by simp [tdFunctions, h]; rfl⟩

/-- Constructing the total degree start system does not throw when the checks pass. -/
theorem totalDegree_ok (rand : ℕ → ℚ × ℚ) (fresh : ℕ → Var) {w : World} {i : ℕ} (k : ℕ) {g : List Var}
    {z : Var} (ha : tdAccepts w (w.objs i)) (hd : DegreesOk w (w.objs i))
    (hg : (w.objs i).vs.groups = [g]) (hz : (w.objs i).vs.homVars = [z]) (hn : (z :: g).Nodup)
    (hl : g.length ≤ (w.objs i).fns.length) : ∃ w', totalDegree rand fresh w i k = some w' := by
  have hhg : (w.objs i).vs.homGroups = [] := by simpa using ha.1
  obtain ⟨fs, hfs⟩ := tdFunctions_ok g ((w.roots (w.objs i)).map (degT w.vals))
    ((List.range (w.objs i).fns.length).map rand) (by simpa [World.roots] using hl) (by simpa using hl)
  obtain ⟨m1, m2, m3⟩ := tdFunctions_mem _ _ _ _ hfs
  have hpoly : ∀ n ∈ fs, PolyTree n := by
    intro n hn
    obtain ⟨j, hj, rfl⟩ := m3 n hn
    have := (tdDegrees_getD hd j (by omega)).2
    simp only [mkSub, mkPow, PolyTree, PolySum, MonoTree, and_true]
    exact this
  unfold totalDegree
  simp only [ha, not_true_eq_false, if_false, hg, List.headD_cons, hfs, Option.bind_some]
  split
  swap
  · exact ⟨_, rfl⟩
  set o := w.objs i with ho
  set w1 := w.set k { Obj.new .slp with vs := o.vs, path := o.path } with hw1
  obtain ⟨a1, a2, a3, a4, a5, a6, a7, a8, a9⟩ := addFns_spec k fs w1
  have ek : w1.objs k = { Obj.new .slp with vs := o.vs, path := o.path } := by simp [hw1, World.set]
  rw [ek] at a1 a2
  simp only [Obj.new, List.nil_append] at a1
  set W := addFns k fs w1 with hW
  have hr : W.roots (W.objs k) = fs := by unfold World.roots; rw [a1, a9]
  have hargs : homArgs fresh (W.objs k).vs = [(z :: g, z)] := by
    simp [homArgs, Vars.numHomVars, a2, hz, hg]
  obtain ⟨heap, eh, _⟩ := homGroupsLoop_ok (cur := W.vals) (ids := (W.objs k).fns) [(z :: g, z)] W.heap
    (by simpa using hn) (fun f hf => hpoly _ (by rw [← hr]; exact List.mem_map_of_mem hf))
  have hp : systemIsPoly W (W.objs k) := by
    intro n hn'
    rw [hr] at hn'
    rw [a2, hhg]
    refine ⟨fun g' hg' => ?_, by simp⟩
    simp only [Vars.numHomVars, hz, hg, List.length_singleton, one_ne_zero, if_false,
      List.zipWith_cons_cons, List.zipWith_nil_left, List.mem_singleton] at hg'
    subst hg'
    exact poly_nonneg hn n (hpoly n hn')
  have hv : Vars.homogenize fresh (W.objs k).vs = some { o.vs with cache := none } := by
    simp [Vars.homogenize, Vars.numHomVars, a2, hz, hg]
  have : ∃ W2, homogenize fresh W k = some W2 := by
    unfold homogenize
    rw [if_neg (not_not.2 (by rw [a2, hhg]; simp))]
    simp only [Option.bind_eq_bind, hv, Option.bind_some]
    rw [if_neg (not_not.2 hp), hargs, eh]
    exact ⟨_, rfl⟩
  obtain ⟨W2, h2⟩ := this
  rw [h2]
  exact ⟨_, rfl⟩

/-- The systems C144 is about: as many polynomials as variables, in one group of variables; no path
variable, not homogenized, not patched. -/
structure SquareTarget (w : World) (i : ℕ) (hist : List (Op Var)) (fresh : ℕ → Var) (g : List Var) :
    Prop where
  system : PolySystem w i hist fresh
  group : (w.objs i).vs.groups = [g]
  noHomGroup : (w.objs i).vs.homGroups = []
  timeless : (w.objs i).path = none
  unpatched : (w.objs i).patched = false
  noPatch : (w.objs i).patch = []
  square : (w.objs i).fns.length = g.length
  closed : ∀ n ∈ w.roots (w.objs i), ∀ v ∈ n.vars, v ∈ g
  degrees : ∀ n ∈ w.roots (w.objs i), degG w.vals g n < 2 ^ 31

/-- After the target has been prepared. -/
theorem prepared_of {w : World} {i : ℕ} {hist : List (Op Var)} {fresh : ℕ → Var} {g : List Var}
    (coef : ℕ → ℕ → ℂ) (hs : SquareTarget w i hist fresh g) (hbd : ∀ f ∈ (w.objs i).fns, f < w.next) :
    ∃ w1 w2, homogenize fresh w i = some w1 ∧ prepareTarget fresh coef w i = some w2 ∧
      Prepared w2 i (fresh 0 :: g) ∧ tdAccepts w2 (w2.objs i) ∧
      w2.roots (w2.objs i) = w1.roots (w1.objs i) ∧ (w2.objs i).fns = (w.objs i).fns ∧
      (w2.objs i).path = none ∧ (w2.objs i).patched = true ∧
      (w2.objs i).patch = [(List.range (g.length + 1)).map (coef 0)] ∧
      (w2.objs i).vs = { (w.objs i).vs with homVars := [fresh 0], cache := none } ∧
      (w2.objs i).vs.order = [.affine] ∧
      tdDegrees w2 (w2.objs i) = (w.roots (w.objs i)).map fun n => (degG w.vals g n).toNat := by
  obtain ⟨hp, hg, hh, hpath, hup, hnp, hsq, hcl, hdeg⟩ := hs
  obtain ⟨w1, sizes, h1, hval, hnx, _, ho, hsz, h2, hih, hf⟩ := prepareTarget_spec coef hp
  rw [hg] at ho
  simp only [List.length_singleton, List.range_one, List.map_cons, List.map_nil] at ho
  have hord : (w.objs i).vs.order = [.affine] := by
    have := order_of_group (hist := hist) (g := g) (by rw [← hp.built, hg]) (by rw [← hp.built, hh])
      (by rw [← hp.built, hp.grouped])
    rw [← hp.built] at this
    exact this
  have hgn : g.Nodup := hp.groups g (by rw [hg]; simp)
  have hfg : fresh 0 ∉ g := (hp.freshness.2 0).1 g (by rw [hg]; simp)
  have hnd : (fresh 0 :: g).Nodup := List.nodup_cons.2 ⟨hfg, hgn⟩
  have hs1 : sizes = [g.length + 1] := by
    rw [ho] at hsz
    simpa [Vars.groupSizes, Vars.numHomVars, hord, Vars.sizesLoop, hg, eq_comm] using hsz
  subst hs1
  have hpatch : randomPatch coef [g.length + 1] = [(List.range (g.length + 1)).map (coef 0)] := by
    simp [randomPatch]
  rw [hpatch] at h2
  set cs := [(List.range (g.length + 1)).map (coef 0)] with hcs
  set w2 := w1.set i { w1.objs i with patch := cs, patched := true } with hw2
  have o2 : w2.objs i = { w1.objs i with patch := cs, patched := true } := by simp [hw2, World.set]
  have hfold : ∀ f ∈ (w.objs i).fns, hom w.vals g (fresh 0) (w.heap f) = some (w1.heap f) := by
    intro f hf'
    have := (hf f hf').2.1
    simpa [homArgs, Vars.numHomVars, hp.unhomogenized, hg, homFold] using this
  have hroot : ∀ f ∈ (w.objs i).fns, w.heap f ∈ w.roots (w.objs i) := fun f hf =>
    List.mem_map_of_mem hf
  have hvars : ∀ f ∈ (w.objs i).fns, ∀ v ∈ (w1.heap f).vars, v ∈ fresh 0 :: g := by
    intro f hf' v hv
    rcases hom_vars _ _ (hfold f hf') v hv with h | h
    · simp [h]
    · simp [hcl _ (hroot f hf') v h]
  have hdT : ∀ f ∈ (w.objs i).fns, degT w.vals (w1.heap f) = degG w.vals g (w.heap f) := by
    intro f hf'
    rw [poly_degT hnd _ (hf f hf').1 (hvars f hf')]
    exact (hf f hf').2.2 0 g (by rw [hg]; rfl)
  have hr2 : w2.roots (w2.objs i) = (w.objs i).fns.map w1.heap := by
    rw [o2]; simp only [World.roots, ho]; rfl
  have hfns : (w2.objs i).fns = (w.objs i).fns := by rw [o2]; simp only [ho]
  have hvs : (w2.objs i).vs = { (w.objs i).vs with homVars := [fresh 0], cache := none } := by
    rw [o2]; simp only [ho]
  have hv2 : w2.vals = w.vals := by rw [← hval]; rfl
  have hih2 : systemIsHom w2 (w2.objs i) := by
    rw [o2]; exact hih
  refine ⟨w1, w2, h1, h2, ⟨⟨by rw [hvs]; exact hp.grouped, Or.inr ⟨hih2, by rw [o2], ⟨_, by rw [o2]⟩, ?_⟩⟩,
    ?_, ⟨?_, ?_, by rw [hfns]; exact hp.once⟩, hnd, ?_, by rw [o2]; simp⟩, ?_, ?_, hfns,
    by rw [o2, ho]; exact hpath, by rw [o2], by rw [o2], hvs, by rw [hvs]; exact hord, ?_⟩
  · rw [hvs]
    simp only [hg, List.mem_singleton]
    rintro _ rfl _ rfl
    exact hnd
  · intro n hn
    rw [hr2] at hn
    obtain ⟨f, hf', rfl⟩ := List.mem_map.1 hn
    rw [hv2, hdT f hf']
    exact ⟨poly_nonneg hgn _ (hp.poly _ (hroot f hf')), hdeg _ (hroot f hf')⟩
  · simp [Obj.vars, hvs, Vars.ordering, Vars.numHomVars, Vars.numVariables, Vars.numNatural, hg, hh,
      hp.grouped, hord, Vars.orderingLoop, add_comm]
  · intro n hn v hv
    rw [hr2] at hn
    obtain ⟨f, hf', rfl⟩ := List.mem_map.1 hn
    exact Or.inl (hvars f hf' v hv)
  · intro f hf'
    rw [hfns] at hf'
    have : w2.next = w.next := by rw [← hnx]; rfl
    rw [this]
    exact hbd f hf'
  · refine ⟨by rw [hvs]; simp [hh], ?_, by rw [o2, ho]; exact hpath, by rw [hvs]; simp [hg],
      by rw [hvs]; simp [hg, Vars.numHomVars], ?_⟩
    · simp [Obj.total, hfns, o2, hvs, Vars.numVariables, Vars.numNatural, Vars.numHomVars, hg, hh,
        hp.grouped, hsq, ho, hcs, add_comm]
    · intro n hn
      rw [hr2] at hn
      obtain ⟨f, hf', rfl⟩ := List.mem_map.1 hn
      rw [hvs]
      refine ⟨fun g' hg' => ?_, by simp [hh]⟩
      simp only [Vars.numHomVars, hg, List.length_singleton, one_ne_zero, if_false,
        List.zipWith_cons_cons, List.zipWith_nil_left, List.mem_singleton] at hg'
      subst hg'
      exact poly_nonneg hnd _ (hf f hf').1
  · rw [hr2]; simp [World.roots, ho]
  · unfold tdDegrees
    rw [hr2, hv2]
    simp only [World.roots, List.map_map]
    refine List.map_congr_left fun f hf' => ?_
    simp only [Function.comp]
    rw [hdT f hf']
    have h0 := poly_nonneg (cur := w.vals) hgn _ (hp.poly _ (hroot f hf'))
    have h1 := hdeg _ (hroot f hf')
    rw [Int.emod_eq_of_lt h0 (by omega)]

/-- **C144.** `SystemSetup` with the total degree start system, for a square system of polynomials in one
variable group made by any history of evaluation-safe operations, whatever is drawn at random. It does not
throw. Every start point (the mixed-radix index running over the degrees the user's functions have) lies on
the homotopy at time 1, patch included. At time 0, at every point with nonzero homogenizing coordinate, the
homotopy vanishes exactly when the point is on the patch and the user's functions, as they were before the
setup, vanish at the dehomogenized point. -/
theorem C144 (simp : Node → Node) (ops : List SysOp) (w : World)
    (hsafe : SafeRun simp ops World.init) (hrun : run simp ops World.init = some w)
    (r : Choices) (t : Var) (i k a b c h : ℕ) (hist : List (Op Var)) (g : List Var)
    (hd : [i, k, a, b, c, h].Nodup) (ht : t ∉ r.fresh 0 :: g)
    (hs : SquareTarget w i hist r.fresh g) :
    ∃ w', systemSetup simp r t i k a b c h w = some w' ∧
      (∀ index x, startPoint (w'.objs k) ((w.roots (w.objs i)).map fun n => (degG w.vals g n).toNat)
          ((List.range g.length).map r.rand) index = some x →
        ∀ junk : List ℂ, junk.length = g.length + 1 →
          ∃ w'', evalAtTime simp w' h junk x 1 = some (List.replicate (g.length + 1) 0, w'')) ∧
      ∀ (x₀ : ℂ) (xs : List ℂ), x₀ ≠ 0 → xs.length = g.length →
        ∀ junk junk' : List ℂ, junk.length = g.length + 1 → junk'.length = g.length →
          ∃ y vals vals' p w3 w4, (w'.objs h).vs.dehomogenize (x₀ :: xs) = some y ∧
            evalAtTime simp w' h junk (x₀ :: xs) 0 = some (vals ++ [p], w3) ∧ vals.length = g.length ∧
            evalAt simp w i junk' y = some (vals', w4) ∧
            (∀ cf, (w'.objs h).patch = [cf] → p = Patch.value cf (x₀ :: xs)) ∧
            ((∀ v ∈ vals, v = 0) ↔ ∀ v ∈ vals', v = 0) := by
  obtain ⟨w1, w2, h1, h2, hpre, hacc, hroots, hfns, hpath, hptd, hpat, hvs, hord, htd⟩ :=
    prepared_of r.coef hs ((run_good ops _ _ (good_init simp) hsafe hrun).bound i)
  have hgs : (w2.objs i).vs.groups = [g] := by rw [hvs]; exact hs.group
  obtain ⟨w3, h3⟩ := totalDegree_ok r.rand r.fresh' k hacc hpre.degrees hgs (by rw [hvs]) hpre.distinct
    (by rw [hfns, hs.square])
  obtain ⟨w', h4, hstart⟩ := C141 simp r.rand r.fresh' r.γ t w2 w3 i k a b c h _ hd hpre ht h3
  have htot : (w2.objs i).total = g.length + 1 := by simp [Obj.total, hfns, hs.square, hpat]
  obtain ⟨hset, hal, ei, er⟩ := setup_totalDegree hd hpre h3
  obtain ⟨fr, -⟩ := formHomotopy_spec hset h4
  have ek : w'.objs k = w3.objs k := fr k (by simp at hd ⊢; omega)
  refine ⟨w', by simp [systemSetup, h2, h3, h4], ?_, ?_⟩
  · intro index x hx junk hj
    have := hstart index x (by rw [htd, hfns, hs.square, ← ek]; exact hx) junk (by rw [htot, hj])
    rw [htot] at this
    exact this
  intro x₀ xs hx0 hxl junk junk' hj hj'
  obtain ⟨g', fs, _, _, hfl, hpk, hpd, hpatch, -, -⟩ := totalDegree_spec h3
  have hv1 : (w3.objs k).vs.ordering = some (r.fresh 0 :: g) :=
    (C33_variables _ _ _ _ _ _ h3).1.trans hpre.evaluable.listed
  have heT : Evaluable w3 i (r.fresh 0 :: g) :=
    ⟨by rw [ei]; exact hpre.evaluable.listed, by rw [ei, er]; exact hpre.evaluable.closed,
      by rw [ei]; exact hpre.evaluable.nodup⟩
  have heS : Evaluable w3 k (r.fresh 0 :: g) :=
    ⟨hv1, by rw [hpk]; exact totalDegree_closed h3 hpre.usual hpre.evaluable.listed, hset.nodupS⟩
  obtain ⟨q1, -, q3, q4, hev⟩ := C140 simp r.γ t i k a b c h w3 w' _ hset h4 heT heS
    (by rw [ei]; exact hpath) hpk ht (by rw [ei, hpd]; exact id) (by rw [ei]; exact hpre.patchless)
  rw [ei] at q1 q3 q4
  set cf := (List.range (g.length + 1)).map (r.coef 0) with hcf
  have hcl : cf.length = (x₀ :: xs).length := by simp [hcf, hxl]
  have hb : Binds (r.fresh 0 :: g) (x₀ :: xs) (bind (r.fresh 0 :: g) (x₀ :: xs) fun _ => 0) :=
    binds_bind hpre.distinct (by simp [hxl])
  set env := bind (r.fresh 0 :: g) (x₀ :: xs) fun _ => 0 with henv
  have hpf : PatchFits w3 i (x₀ :: xs) := by
    unfold PatchFits
    rw [ei]
    intro _
    exact ⟨[x₀ :: xs], by simp, by rw [hpat]; exact List.Forall₂.cons hcl List.Forall₂.nil⟩
  obtain ⟨pv, w5, hout, hq1, -⟩ := hev (x₀ :: xs) env 0 junk hb hpf (by rw [ei, htot, hj])
  rw [ei] at hq1
  obtain ⟨bl, e3, e4, rfl⟩ := hq1 hptd
  rw [hpat] at e4
  have hbl : bl = [x₀ :: xs] := by
    cases e4 with
    | cons e5 e6 =>
      cases e6
      simp only [List.flatten_cons, List.flatten_nil, List.append_nil] at e3
      rw [e3]
  subst hbl
  -- the user's functions at the affine point
  have hgn : g.Nodup := (List.nodup_cons.1 hpre.distinct).2
  have hyl : (xs.map (· / x₀)).length = g.length := by simpa using hxl
  have hb' : Binds g (xs.map (· / x₀)) (bind g (xs.map (· / x₀)) env) := binds_bind hgn hyl
  set env' := bind g (xs.map (· / x₀)) env with henv'
  have heU : Evaluable w i g := by
    refine ⟨?_, fun n hn v hv => Or.inl (hs.closed n hn v hv), hs.system.once⟩
    have hord' : (w.objs i).vs.order = [.affine] := by rw [hvs] at hord; exact hord
    simp [Obj.vars, Vars.ordering, Vars.numHomVars, Vars.numVariables, Vars.numNatural, hs.group,
      hs.noHomGroup, hs.system.grouped, hord', Vars.orderingLoop, hs.system.unhomogenized]
  obtain ⟨out, w6, hout', hval⟩ := (C20_partial simp ops w hsafe hrun i g _ env' junk' heU hb'
    (by unfold PatchFits; rw [hs.unpatched]; simp) (fun _ => hs.noPatch)
    (by simp [Obj.total, hs.square, hs.noPatch, hj'])).1 hs.timeless
  obtain ⟨pv', rfl, -, hpv'⟩ := hval
  rw [hpv' hs.unpatched, List.append_nil] at hout'
  have hx : env (r.fresh 0) = x₀ ∧ g.map env = xs := by
    have := hb
    simpa [Binds] using this
  have hy : g.map env' = xs.map (· / x₀) := hb'
  have haff : IsAffinePoint (w.objs i).vs.groups r.fresh env env' := by
    rw [hs.group]
    refine ⟨?_, ?_, ?_⟩
    · intro j hj
      have : j = 0 := by simpa using hj
      subst this
      rw [hx.1]; exact hx0
    · intro j g' hj v hv
      obtain ⟨hlt, e⟩ := List.getElem?_eq_some_iff.1 hj
      have : j = 0 := by simpa using hlt
      subst this
      simp only [List.getElem_cons_zero] at e
      subst e
      rw [hx.1]
      rw [← hx.2, List.map_map] at hy
      exact List.map_inj_left.1 hy v hv
    · intro v hv _
      exact bind_notMem (hv g (by simp))
  have hz := C142_zeros_partial w w1 i r.fresh hs.system.unhomogenized hs.system.once
    hs.system.freshness (by rw [hs.group]; simp)
    (fun n hn => poly_plain (hs.system.poly n hn) hs.system.groups) h1 env env' haff
  have hsame : valuesOf w3 (w3.objs i) env = valuesOf w1 (w1.objs i) env := by
    unfold valuesOf
    rw [ei, er, hroots]
  refine ⟨xs.map (· / x₀), List.zipWith (straightLine r.γ 0) (valuesOf w3 (w3.objs i) env)
    (valuesOf w3 (w3.objs k) env), _, Patch.value cf (x₀ :: xs), w5, w6, ?_, ?_, ?_, hout', ?_, ?_⟩
  · rw [q1]
    refine dehomogenize_group (z := r.fresh 0) hgs (by rw [hvs]; exact hs.noHomGroup)
      (by rw [hvs]; exact hs.system.grouped) (by rw [hvs]) hord _ _ hxl
  · rw [hout, ei, hpat]
    rfl
  · have := hset.same
    simp only [ei, hfns, hs.square] at this
    simp [valuesOf, World.roots, ei, hfns, hs.square, ← this]
  · intro cf' hc
    rw [q4, hpat] at hc
    simp only [List.cons.injEq, and_true] at hc
    rw [hc]
  · rw [(straightLine_all_zero r.γ 0 _ _ (by simpa [valuesOf, World.roots] using hset.same)).1 rfl, hsame]
    exact hz

/-- **C144 (solutions).** Every solution of the user's system is an end of the homotopy: the patch of the
homotopy has one coefficient vector `cf`, and for each `y` at which the user's functions all vanish, unless
`cf` is orthogonal to `(1, y)`, there is a point that dehomogenizes to `y` at which the homotopy at time 0
is the zero vector. -/
theorem C144_solutions (simp : Node → Node) (ops : List SysOp) (w : World)
    (hsafe : SafeRun simp ops World.init) (hrun : run simp ops World.init = some w)
    (r : Choices) (t : Var) (i k a b c h : ℕ) (hist : List (Op Var)) (g : List Var)
    (hd : [i, k, a, b, c, h].Nodup) (ht : t ∉ r.fresh 0 :: g)
    (hs : SquareTarget w i hist r.fresh g) :
    ∃ w' cf, systemSetup simp r t i k a b c h w = some w' ∧ (w'.objs h).patch = [cf] ∧
      ∀ (y junk junk' vals : List ℂ) (w4 : World), junk.length = g.length + 1 → junk'.length = g.length →
        y.length = g.length → evalAt simp w i junk' y = some (vals, w4) → (∀ v ∈ vals, v = 0) →
        Patch.dot (1 :: y) cf ≠ 0 →
        ∃ x w3, (w'.objs h).vs.dehomogenize x = some y ∧
          evalAtTime simp w' h junk x 0 = some (List.replicate (g.length + 1) 0, w3) := by
  obtain ⟨w', hw, -, hall⟩ := C144 simp ops w hsafe hrun r t i k a b c h hist g hd ht hs
  have hp : (w'.objs h).patch = [(List.range (g.length + 1)).map (r.coef 0)] := by
    obtain ⟨w1, w2, h1, h2, hpre, hacc, hroots, hfns, hpath, hptd, hpat, hvs, hord, htd⟩ :=
      prepared_of r.coef hs ((run_good ops _ _ (good_init simp) hsafe hrun).bound i)
    simp only [systemSetup, h2, Option.bind_some, Option.bind_eq_some_iff] at hw
    obtain ⟨w3, h3, h4⟩ := hw
    obtain ⟨hset, hal, ei, er⟩ := setup_totalDegree hd hpre h3
    obtain ⟨-, g2, -⟩ := formHomotopy_spec hset h4
    rw [ei, if_neg (by rw [hptd]; simp)] at g2
    rw [g2, ← hpat]
    rfl
  refine ⟨w', _, hw, hp, ?_⟩
  intro y junk junk' vals w4 hj hj' hy hev hz hdot
  set cf := (List.range (g.length + 1)).map (r.coef 0) with hcf
  set d := Patch.dot (1 :: y) cf with hd'
  obtain ⟨y', vs, vs', p, w3, w5, e1, e2, el, e3, e4, e5⟩ := hall (1 / d) (y.map (· / d))
    (one_div_ne_zero hdot) (by simpa using hy) junk junk' hj hj'
  have hx : 1 / d :: y.map (· / d) = Patch.scaled cf (1 :: y) := by
    simp [Patch.scaled, hd']
  have hyy : y' = y := by
    have hord : (w'.objs h).vs.dehomogenize (1 / d :: y.map (· / d)) =
        some ((y.map (· / d)).map (· / (1 / d))) := by
      obtain ⟨w1, w2, h1, h2, hpre, hacc, hroots, hfns, hpath, hptd, hpat, hvs, hord, htd⟩ :=
        prepared_of r.coef hs ((run_good ops _ _ (good_init simp) hsafe hrun).bound i)
      simp only [systemSetup, h2, Option.bind_some, Option.bind_eq_some_iff] at hw
      obtain ⟨w3, h3, h4⟩ := hw
      obtain ⟨hset, hal, ei, er⟩ := setup_totalDegree hd hpre h3
      obtain ⟨-, g2, -⟩ := formHomotopy_spec hset h4
      rw [ei, if_neg (by rw [hptd]; simp)] at g2
      have e : (w'.objs h).vs = (w2.objs i).vs := by rw [g2]; rfl
      rw [e]
      exact dehomogenize_group (z := r.fresh 0) (by rw [hvs]; exact hs.group)
        (by rw [hvs]; exact hs.noHomGroup) (by rw [hvs]; exact hs.system.grouped) (by rw [hvs]) hord _ _
        (by simpa using hy)
    rw [hord, Option.some.injEq] at e1
    rw [← e1, List.map_map]
    conv_rhs => rw [← List.map_id y]
    refine List.map_congr_left fun v _ => ?_
    simp [hdot]
  subst hyy
  rw [hev, Option.some.injEq, Prod.mk.injEq] at e3
  obtain ⟨rfl, -⟩ := e3
  have hp0 : p = 0 := by
    rw [e4 cf hp, hx]
    simp [Patch.value, Patch.dot_scaled _ _ hdot]
  have hv0 := e5.2 hz
  refine ⟨_, w3, e1, ?_⟩
  rw [e2]
  congr 2
  rw [List.eq_replicate_iff]
  refine ⟨by simp [el], ?_⟩
  intro v hv
  rcases List.mem_append.1 hv with h | h
  · exact hv0 v h
  · simpa [hp0] using h

/-- `SquareTarget` holds for `x^2, y^3`. -/
theorem squareTarget_X : SquareTarget wX 0 [.addGroup [0, 1]] (· + 2) [0, 1] := by
  have ho : wX.objs 0 = oX := by simp [wX, World.set]
  have hr : wX.roots oX = [.ipow (.var 0) 2, .ipow (.var 1) 3] := by
    simp [World.roots, wX, World.set, oX]
  refine ⟨⟨by rw [ho]; rfl, by rw [ho]; rfl, by rw [ho]; rfl, by rw [ho]; simp [oX], ⟨fun a b => by simp,
    fun k => ⟨?_, ?_, ?_⟩⟩, ?_, ?_, ?_, ?_⟩, by rw [ho]; rfl, by rw [ho]; rfl, by rw [ho]; rfl, by rw [ho]; rfl,
    by rw [ho]; rfl, by rw [ho]; rfl, ?_, ?_⟩ <;> rw [ho]
  · simp [oX, Vars.addGroup, Vars.empty]
  · simp [oX, Vars.addGroup, Vars.empty]
  · rw [hr]; simp [Node.vars]
  · simp [oX, Vars.addGroup, Vars.empty]
  · simp [oX, Vars.addGroup, Vars.empty]
  · rw [hr]; simp [PolyTree, MonoTree]
  · simp [oX, Vars.addGroup, Vars.empty]
  · rw [hr]; simp [Node.vars]
  · rw [hr]; simp [degG, degV, foldUnary]

theorem run_wX (simp : Node → Node) : run simp [.varOp 0 (·.addGroup [0, 1]),
    .addFunction 0 (.ipow (.var 0) 2), .addFunction 0 (.ipow (.var 1) 3)] World.init = some wX := by
  simp [run, step, wX, World.set, World.init, oX, Obj.new]

example (simp : Node → Node) (coef : ℕ → ℕ → ℂ) (γ : ℚ × ℚ) :
    ∃ w', systemSetup simp ⟨(· + 2), coef, fun _ => (1, 2), id, γ⟩ 9 0 1 2 3 4 5 wX = some w' :=
  have h := C144 simp _ wX (by simp [SafeRun, Safe]) (run_wX simp) ⟨(· + 2), coef, fun _ => (1, 2), id, γ⟩ 9
    0 1 2 3 4 5 _ [0, 1] (by simp) (by simp) squareTarget_X
  h.elim fun w' h => ⟨w', h.1⟩

/-- `C143_partial` applies to `x^2, y^3`. -/
example (coef : ℕ → ℕ → ℂ) : ∃ w2, prepareTarget (· + 2) coef wX 0 = some w2 ∧ (w2.objs 0).patched = true :=
  have h := C143_partial wX 0 _ (· + 2) coef squareTarget_X.system
  h.elim fun w2 h => ⟨w2, h.1, h.2.2.1⟩

end B2.Alg.Htp
