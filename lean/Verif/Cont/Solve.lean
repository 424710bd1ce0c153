import Verif.Cont.Bridge
import Verif.Cont.TotalDeg

/-!
# The homotopy of a zero-dimensional solve, as a straight line between polynomials
-/

namespace B2.Cont

open MvPolynomial B2.Sys B2.Start B2.Alg.Htp

theorem tdFunctions_nth : ∀ (g : List Var) (ds : List ℤ) (rs : List (ℚ × ℚ)) (fs : List Node),
    tdFunctions g ds rs = some fs → ∀ (j : ℕ) (hj : j < g.length), fs[j]? = some
      (mkSub (mkPow (.var g[j]) (ds.getD j 0)) (.rat (rs.getD j (0, 0)).1 (rs.getD j (0, 0)).2)) := by
  intro g
  induction g with
  | nil => intro ds rs fs _ j hj; simp at hj
  | cons v g ih =>
    intro ds rs fs h j hj
    cases ds with
    | nil => simp [tdFunctions] at h
    | cons d ds =>
      cases rs with
      | nil => simp [tdFunctions] at h
      | cons r rs =>
        simp only [tdFunctions, Option.map_eq_some_iff] at h
        obtain ⟨a, h1, rfl⟩ := h
        cases j with
        | zero => simp
        | succ j => simpa using ih _ _ _ h1 j (by simpa using hj)

theorem dot_ofFn {m : ℕ} (x : Fin m → ℂ) (cf : ℕ → ℂ) :
    Patch.dot (List.ofFn x) ((List.range m).map cf) = (fun j : Fin m => cf j) ⬝ᵥ x := by
  have h : List.zipWith (· * ·) (List.ofFn x) ((List.range m).map cf) =
      List.ofFn fun j : Fin m => cf j * x j := by
    apply List.ext_getElem
    · simp
    · intro j h1 h2
      simp [mul_comm]
  unfold Patch.dot
  rw [h, List.sum_ofFn]
  rfl

theorem ofFn_line {n : ℕ} (F G : Fin n → MvPolynomial (Fin (n + 1)) ℂ) (v : Fin (n + 1) → ℂ) (γ : ℂ)
    (x : Fin (n + 1) → ℂ) (s : ℂ) : List.ofFn (line F G v γ (x, s)) =
    List.ofFn (fun j : Fin n => (1 - s) * MvPolynomial.eval x (F j) + γ * s * MvPolynomial.eval x (G j)) ++
      [v ⬝ᵥ x - 1] := by
  rw [List.ofFn_succ', List.concat_eq_append]
  simp [line]

/-- The degrees of the user's functions. -/
noncomputable def degsOf (w : World) (i : ℕ) (g : List Var) : List ℕ :=
  (w.roots (w.objs i)).map fun n => (degG w.vals g n).toNat

/-- The polynomials of a zero-dimensional solve. -/
theorem bridge (simp : Node → Node) (ops : List SysOp) (w : World)
    (hsafe : SafeRun simp ops World.init) (hrun : run simp ops World.init = some w)
    (r : Choices) (t : Var) (i k a b c h : ℕ) (hist : List (Op Var)) (g : List Var)
    (hd : [i, k, a, b, c, h].Nodup) (ht : t ∉ r.fresh 0 :: g)
    (hs : SquareTarget w i hist r.fresh g) (hpos : ∀ n ∈ w.roots (w.objs i), 0 < degG w.vals g n) :
    ∃ F : Fin g.length → MvPolynomial (Fin (g.length + 1)) ℂ,
      (∀ j : Fin g.length, (F j).IsHomogeneous ((degsOf w i g).getD j 0)) ∧
      (∀ (y : Fin g.length → ℂ) (junk : List ℂ), junk.length = g.length →
        ∃ w4, evalAt simp w i junk (List.ofFn y) = some (List.ofFn (affine F y), w4)) ∧
      ∀ γ : ℚ × ℚ, ∃ w', systemSetup simp { r with γ := γ } t i k a b c h w = some w' ∧
        (∀ (x : Fin (g.length + 1) → ℂ) (s : ℂ) (junk : List ℂ), junk.length = g.length + 1 →
          ∃ w3, evalAtTime simp w' h junk (List.ofFn x) s = some (List.ofFn (line F
            (startP (fun j => (degsOf w i g).getD j 0) fun j => ratValue (r.rand j))
            (fun j => r.coef 0 j) (gammaVal γ) (x, s)), w3)) ∧
        (∀ x : Fin (g.length + 1) → ℂ,
          (w'.objs h).vs.dehomogenize (List.ofFn x) = some (List.ofFn fun j : Fin g.length => x j.succ / x 0)) ∧
        ∀ index, startPoint (w'.objs k) (degsOf w i g) ((List.range g.length).map r.rand) index =
          (indexToSubscript index (degsOf w i g)).bind fun s =>
            Patch.rescale [(List.range (g.length + 1)).map (r.coef 0)]
              (1 :: rawPoint g.length s (degsOf w i g) r.rand) := by
  have hgood := run_good ops _ _ (good_init simp) hsafe hrun
  obtain ⟨w1, w2, h1, h2, hpre, hacc, hroots, hfns, hpath, hptd, hpat, hvs, hord, htd⟩ :=
    prepared_of r.coef hs (hgood.bound i)
  obtain ⟨w1', sizes, h1', hval, -, -, ho1, -, hpt, hih, hf⟩ := prepareTarget_spec r.coef hs.system
  obtain rfl : w1 = w1' := by rw [h1] at h1'; exact Option.some.inj h1'
  have hgs : (w2.objs i).vs.groups = [g] := by rw [hvs]; exact hs.group
  have hgn : g.Nodup := (List.nodup_cons.1 hpre.distinct).2
  have hfg : r.fresh 0 ∉ g := (List.nodup_cons.1 hpre.distinct).1
  have hroot : ∀ f ∈ (w.objs i).fns, w.heap f ∈ w.roots (w.objs i) := fun f hf => List.mem_map_of_mem hf
  have hfold : ∀ f ∈ (w.objs i).fns, hom w.vals g (r.fresh 0) (w.heap f) = some (w1.heap f) := by
    intro f hf'
    have := (hf f hf').2.1
    simpa [homArgs, Vars.numHomVars, hs.system.unhomogenized, hs.group, homFold] using this
  have hfn1 : (w1.objs i).fns = (w.objs i).fns := by rw [ho1]
  have hr1 : w1.roots (w1.objs i) = (w.objs i).fns.map w1.heap := by rw [World.roots, hfn1]
  set z := r.fresh 0 with hz
  set n := g.length with hn
  have hlen : (w.objs i).fns.length = n := hs.square
  -- the polynomials
  let fj : Fin n → ℕ := fun j => (w.objs i).fns[j.1]'(by rw [hlen]; exact j.2)
  have hfj : ∀ j, fj j ∈ (w.objs i).fns := fun j => List.getElem_mem _
  have hex : ∀ j : Fin n, ∃ P : MvPolynomial (Fin (n + 1)) ℂ,
      ∀ x, B2.eval (envOf z g x) (w1.heap (fj j)) = MvPolynomial.eval x P := fun j =>
    poly_mv (envOf_poly z g) _ (hf _ (hfj j)).1
  choose F hF using hex
  have hdget : ∀ j : Fin n, (degsOf w i g).getD j 0 = (degG w.vals g (w.heap (fj j))).toNat := by
    intro j
    have : j.1 < (w.objs i).fns.length := by rw [hlen]; exact j.2
    simp [degsOf, World.roots, List.getD, fj, List.getElem?_eq_getElem this]
  have hhomog : ∀ j : Fin n, (F j).IsHomogeneous ((degsOf w i g).getD j 0) := by
    intro j
    refine homogeneous_of_scaling fun c x hc => ?_
    have hn' := hs.system.poly _ (hroot _ (hfj j))
    have hfr := (hs.system.freshness.2 0).2.2 _ (hroot _ (hfj j))
    have h5 := C05_homogenize_partial w.vals g z _ _ hfg hfr (fun _ => poly_frozen _ hn')
      (fun v _ => poly_degV hn') (poly_exact hgn _ hn') (hfold _ (hfj j)) c (envOf z g x) hc
    rw [← hF, ← hF, envOf_scale, h5, hdget]
    congr 1
    have h0 := hpos _ (hroot _ (hfj j))
    conv_lhs => rw [← Int.toNat_of_nonneg h0.le]
    rw [zpow_natCast]
  have hvalues : ∀ x : Fin (n + 1) → ℂ, valuesOf w1 (w1.objs i) (envOf z g x) =
      List.ofFn fun j => MvPolynomial.eval x (F j) := by
    intro x
    unfold valuesOf
    rw [hr1]
    apply List.ext_getElem
    · simp [hlen]
    · intro j e1 e2
      simp only [List.length_ofFn] at e2
      simp only [List.getElem_map, List.getElem_ofFn]
      rw [← hF]
  refine ⟨F, hhomog, ?_, ?_⟩
  · -- the user's functions
    intro y junk hj
    have heU : Evaluable w i g := by
      refine ⟨?_, fun n hn v hv => Or.inl (hs.closed n hn v hv), hs.system.once⟩
      have hord' : (w.objs i).vs.order = [.affine] := by rw [hvs] at hord; exact hord
      simp [Obj.vars, Vars.ordering, Vars.numHomVars, Vars.numVariables, Vars.numNatural, hs.group,
        hs.noHomGroup, hs.system.grouped, hord', Vars.orderingLoop, hs.system.unhomogenized]
    have hb := envOf_binds hpre.distinct (Fin.cons 1 y : Fin (n + 1) → ℂ)
    have hb' : Binds g (List.ofFn y) (envOf z g (Fin.cons 1 y)) := by
      unfold Binds at hb ⊢
      rw [List.ofFn_succ, List.map_cons] at hb
      simp only [Fin.cons_zero, Fin.cons_succ, List.cons.injEq] at hb
      exact hb.2
    obtain ⟨out, w6, hout', hval'⟩ := (C20_partial simp ops w hsafe hrun i g _ _ junk heU hb'
      (by unfold PatchFits; rw [hs.unpatched]; simp) (fun _ => hs.noPatch)
      (by simp [Obj.total, hs.square, hs.noPatch, hj, hn])).1 hs.timeless
    obtain ⟨pv', rfl, -, hpv'⟩ := hval'
    rw [hpv' hs.unpatched, List.append_nil] at hout'
    refine ⟨w6, ?_⟩
    rw [hout']
    congr 2
    have hv := hvalues (Fin.cons 1 y)
    unfold affine
    rw [← hv]
    unfold valuesOf
    rw [hr1]
    unfold World.roots
    rw [List.map_map, List.map_map]
    refine List.map_congr_left fun f hf' => ?_
    exact (C04_homogenize_dehomogenize w.vals _ g z _ _ (hfold f hf') (by simp [envOf_zero])).symm
  · intro γ
    obtain ⟨w3, h3⟩ := totalDegree_ok r.rand r.fresh' k hacc hpre.degrees hgs (by rw [hvs]) hpre.distinct
      (by rw [hfns, hs.square])
    obtain ⟨hset, hal, ei, er⟩ := setup_totalDegree hd hpre h3
    obtain ⟨w', h4⟩ := C140_forms simp γ t i k a b c h w3 hset hal
    have htot : (w2.objs i).total = n + 1 := by simp [Obj.total, hfns, hs.square, hpat, hn]
    obtain ⟨fr, -⟩ := formHomotopy_spec hset h4
    have ek : w'.objs k = w3.objs k := fr k (by simp at hd ⊢; omega)
    obtain ⟨g', fs, hg', hfs, hfl, hpk, hpd, hpatch, hA, hB⟩ := totalDegree_spec h3
    obtain rfl : g = g' := by rw [hgs] at hg'; simpa using hg'
    have hih2 : systemIsHom w2 (w2.objs i) := by
      have := hpt.symm.trans h2
      rw [Option.some.injEq] at this
      rw [← this]
      simp only [World.set, Function.update_self]
      exact hih
    obtain ⟨z', ez, -, hall⟩ := hB hih2
    obtain rfl : z = z' := by rw [hvs] at ez; simpa using ez
    have hv1 : (w3.objs k).vs.ordering = some (z :: g) :=
      (C33_variables _ _ _ _ _ _ h3).1.trans hpre.evaluable.listed
    have heT : Evaluable w3 i (z :: g) :=
      ⟨by rw [ei]; exact hpre.evaluable.listed, by rw [ei, er]; exact hpre.evaluable.closed,
        by rw [ei]; exact hpre.evaluable.nodup⟩
    have heS : Evaluable w3 k (z :: g) :=
      ⟨hv1, by rw [hpk]; exact totalDegree_closed h3 hpre.usual hpre.evaluable.listed, hset.nodupS⟩
    obtain ⟨q1, -, q3, q4, hev⟩ := C140 simp γ t i k a b c h w3 w' _ hset h4 heT heS
      (by rw [ei]; exact hpath) hpk ht (by rw [ei, hpd]; exact id) (by rw [ei]; exact hpre.patchless)
    rw [ei] at q1 q3 q4
    set cf := (List.range (n + 1)).map (r.coef 0) with hcf
    have hdT : ∀ j : Fin n, ((w2.roots (w2.objs i)).map (degT w2.vals)).getD j 0 =
        ((degsOf w i g).getD j 0 : ℕ) := by
      intro j
      have hj : j.1 < (w2.objs i).fns.length := by rw [hfns, hlen]; exact j.2
      have := (tdDegrees_getD hpre.degrees j.1 hj).1
      rw [← this, htd]
      rfl
    have hdpos : ∀ j : Fin n, 0 < (degsOf w i g).getD j 0 := by
      intro j
      rw [hdget]
      have := hpos _ (hroot _ (hfj j))
      omega
    have hstart : ∀ x : Fin (n + 1) → ℂ, valuesOf w3 (w3.objs k) (envOf z g x) = List.ofFn fun j =>
        MvPolynomial.eval x (startP (fun j : Fin n => (degsOf w i g).getD j 0)
          (fun j => ratValue (r.rand j)) j) := by
      intro x
      unfold valuesOf
      apply List.ext_getElem
      · simp [World.roots, hfl, hn]
      · intro j e1 e2
        simp only [List.length_ofFn] at e2
        simp only [List.length_map] at e1
        have hjf : j < fs.length := by rw [hall.length_eq]; exact e1
        have hnth := tdFunctions_nth _ _ _ _ hfs j e2
        rw [List.getElem?_eq_getElem hjf, Option.some.injEq] at hnth
        have hg2 := hall.get hjf e1
        simp only [List.get_eq_getElem] at hg2
        rw [hnth, hdT ⟨j, e2⟩] at hg2
        have hrd : ((List.range (w2.objs i).fns.length).map r.rand).getD j (0, 0) = r.rand j := by
          have : j < (w2.objs i).fns.length := by rw [hfns, hlen]; exact e2
          simp [List.getD, this]
        rw [hrd] at hg2
        simp only [List.getElem_map, List.getElem_ofFn]
        rw [eval_hom_tdFunction _ _ _ _ _ _ _ _ (by exact_mod_cast hdpos ⟨j, e2⟩) (List.getElem_mem _)
          hpre.distinct hg2, eval_startP, envOf_zero]
        have hgj : envOf z g x g[j] = x (Fin.succ ⟨j, e2⟩) := envOf_get hpre.distinct x ⟨j, e2⟩
        rw [hgj]
        simp only [zpow_natCast]
        ring
    refine ⟨w', by simp [systemSetup, h2, h3, h4], ?_, ?_, ?_⟩
    · intro x s junk hj
      have hb := envOf_binds hpre.distinct x
      have hcl : cf.length = (List.ofFn x).length := by simp [hcf]
      have hpf : PatchFits w3 i (List.ofFn x) := by
        unfold PatchFits
        rw [ei]
        intro _
        exact ⟨[List.ofFn x], by simp, by rw [hpat]; exact List.Forall₂.cons hcl List.Forall₂.nil⟩
      obtain ⟨pv, w5, hout, hq1, -⟩ := hev (List.ofFn x) _ s junk hb hpf (by rw [ei, htot, hj])
      rw [ei] at hq1
      obtain ⟨bl, e3, e4, rfl⟩ := hq1 hptd
      rw [hpat] at e4
      have hbl : bl = [List.ofFn x] := by
        cases e4 with
        | cons e5 e6 =>
          cases e6
          simp only [List.flatten_cons, List.flatten_nil, List.append_nil] at e3
          rw [e3]
      subst hbl
      refine ⟨w5, ?_⟩
      rw [hout, ofFn_line]
      congr 3
      · have hsame : valuesOf w3 (w3.objs i) (envOf z g x) = valuesOf w1 (w1.objs i) (envOf z g x) := by
          unfold valuesOf
          rw [ei, er, hroots]
        rw [hsame, hvalues, hstart]
        apply List.ext_getElem
        · simp
        · intro j e1 e2
          simp [straightLine]
      · rw [hpat]
        simp only [List.zipWith_cons_cons, List.zipWith_nil_left, Patch.value]
        rw [dot_ofFn]
    · intro x
      rw [q1, List.ofFn_succ]
      rw [dehomogenize_group (z := z) hgs (by rw [hvs]; exact hs.noHomGroup)
        (by rw [hvs]; exact hs.system.grouped) (by rw [hvs]) hord _ _ (by simp [hn])]
      congr 1
      rw [List.map_ofFn]
      rfl
    · intro index
      have := startPoint_eq h3 hpre.usual index
      rw [htd, hfns, hlen, hptd, hpat, ← ek] at this
      exact this

end B2.Cont
