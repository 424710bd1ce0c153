import Verif.Alg.PropsHomotopy
import Verif.Start.PropsTotalDegree

/-!
# Property C141: the start points of the total degree start system lie on the paths of the homotopy

`CloneGiven::SystemSetup` (`policies.hpp:218-226`) after the target has been prepared: the start
system is constructed from the target, then the homotopy is formed. Put together from `totalDegree`,
`formHomotopy`, `startPoint` and `evalAtTime`.
-/

namespace B2.Alg.Htp

open B2.Sys B2.Start

/-- What constructing the start system leaves alone, and that its functions are new. -/
theorem totalDegree_frame {rand : ℕ → ℚ × ℚ} {fresh : ℕ → Var} {w w' : World} {i k : ℕ}
    (h : totalDegree rand fresh w i k = some w') :
    (∀ l, l ≠ k → w'.objs l = w.objs l) ∧ (∀ f, f < w.next → w'.heap f = w.heap f) ∧
    ∃ n, (w'.objs k).fns = List.range' w.next n := by
  unfold totalDegree at h
  by_cases ha : tdAccepts w (w.objs i)
  swap
  · simp [ha] at h
  simp only [ha, not_true_eq_false, if_false, Option.bind_eq_some_iff] at h
  obtain ⟨fs, hfs, w2, hw2, h⟩ := h
  simp only [Option.some.injEq] at h
  set o := w.objs i with ho
  set w1 := w.set k { Obj.new .slp with vs := o.vs, path := o.path } with hw1
  obtain ⟨a1, a2, a3, a4, a5, a6, a7, a8, a9⟩ := addFns_spec k fs w1
  have ek : w1.objs k = { Obj.new .slp with vs := o.vs, path := o.path } := by simp [hw1, World.set]
  rw [ek] at a1
  simp only [Obj.new, List.nil_append] at a1
  have hout : (∀ l, l ≠ k → w'.objs l = w2.objs l) ∧ w'.heap = w2.heap ∧
      (w'.objs k).fns = (w2.objs k).fns := by
    rw [← h]
    split
    · exact ⟨fun l hl => by simp [World.set, Function.update_of_ne hl], rfl, by simp [World.set]⟩
    · exact ⟨fun _ _ => rfl, rfl, rfl⟩
  obtain ⟨c1, c2, c3⟩ := hout
  have hl1 : ∀ l, l ≠ k → (addFns k fs w1).objs l = w.objs l := by
    intro l hl
    rw [a7 l hl]
    simp [hw1, World.set, Function.update_of_ne hl]
  by_cases hh : systemIsHom w o
  · rw [if_pos hh] at hw2
    obtain ⟨vs, heap, _, b2, _, b4, rfl⟩ := homogenize_some hw2
    refine ⟨fun l hl => ?_, fun f hf => ?_, fs.length, ?_⟩
    · rw [c1 l hl, ← hl1 l hl]
      simp [World.set, Function.update_of_ne hl]
    · rw [c2]
      change heap f = _
      rw [homGroupsLoop_off _ _ _ _ _ b4 f, a8 f hf]
      · rfl
      · rw [a1]
        intro hc
        have h1 : w1.next ≤ f := (List.mem_range'_1.1 hc).1
        exact absurd hf (not_lt.2 h1)
    · rw [c3]
      simp only [World.set, Function.update_self]
      rw [a1]
      rfl
  · rw [if_neg hh, Option.some.injEq] at hw2
    subst hw2
    exact ⟨fun l hl => by rw [c1 l hl, hl1 l hl], fun f hf => by rw [c2, a8 f hf]; rfl,
      fs.length, by rw [c3, a1]; rfl⟩

theorem vars_padTerm (h : Var) (d : ℤ) (n : Node) : ∀ v ∈ (padTerm h d n).vars, v = h ∨ v ∈ n.vars := by
  intro v hv
  unfold padTerm at hv
  split at hv
  · split at hv <;> simpa [Node.vars, Ops.vars] using hv
  · exact Or.inr hv

/-- The functions of the start system use only the variables of the target. -/
theorem totalDegree_closed {rand : ℕ → ℚ × ℚ} {fresh : ℕ → Var} {w w' : World} {i k : ℕ}
    (h : totalDegree rand fresh w i k = some w') (hus : Usual w (w.objs i)) {vars : List Var}
    (hv : (w.objs i).vs.ordering = some vars) : ∀ n ∈ w'.roots (w'.objs k), Closed vars none n := by
  obtain ⟨_, hh0, _, hsq, _⟩ := C33_rejects _ _ _ _ _ _ h
  obtain ⟨g, fs, hg, hfs, hl, _, hpd, hpatch, hA, hB⟩ := totalDegree_spec h
  obtain ⟨m1, m2, m3⟩ := tdFunctions_mem _ _ _ _ hfs
  obtain ⟨hu, hus⟩ := hus
  intro n hn v hvn
  left
  rcases hus with ⟨a, b⟩ | ⟨a, b, ⟨c, hc⟩, hnd⟩
  · have hnh : ¬ systemIsHom w (w.objs i) := by
      rintro ⟨q, _⟩
      simp [Vars.numHomVars, a, hg] at q
    obtain rfl := vars_affine hg hu hh0 a hv
    rw [(hA hnh).2] at hn
    obtain ⟨j, hj, rfl⟩ := m3 n hn
    simp only [mkSub, mkPow, Node.vars, Ops.vars, List.append_nil, List.mem_singleton] at hvn
    rw [hvn]
    exact List.getElem_mem _
  · obtain ⟨hz, ehv, _, hall⟩ := hB a
    obtain rfl := vars_hom hg hu hh0 ehv hv
    obtain ⟨f, hf, hfn⟩ : ∃ f ∈ fs, hom w.vals (hz :: g) hz f = some n := by
      obtain ⟨q, hq, rfl⟩ := List.mem_iff_getElem.1 hn
      have hq' : q < fs.length := by rw [hall.length_eq]; exact hq
      exact ⟨fs[q], List.getElem_mem _, hall.get hq' hq⟩
    obtain ⟨j, hj, rfl⟩ := m3 f hf
    simp only [mkSub, mkPow, hom, homOps, Option.bind_eq_bind, Option.bind_some] at hfn
    split at hfn
    · simp only [Option.some.injEq] at hfn
      subst hfn
      simp only [padOps, Node.vars, Ops.vars, List.append_nil, List.mem_append] at hvn
      rcases hvn with hvn | hvn
      · rcases vars_padTerm _ _ _ v hvn with rfl | hvn
        · simp
        · simp only [Node.vars, List.mem_singleton] at hvn
          rw [hvn]
          exact List.mem_cons_of_mem _ (List.getElem_mem _)
      · rcases vars_padTerm _ _ _ v hvn with rfl | hvn
        · simp
        · simp [Node.vars] at hvn
    · simp at hfn

/-- The prepared target: `bound` says that its functions exist (true after every history, see
`Good.bound`); `patchless` that an unpatched system has no left-over patch. -/
structure Prepared (w : World) (i : ℕ) (vars : List Var) : Prop where
  usual : Usual w (w.objs i)
  degrees : DegreesOk w (w.objs i)
  evaluable : Evaluable w i vars
  distinct : vars.Nodup
  bound : ∀ f ∈ (w.objs i).fns, f < w.next
  patchless : (w.objs i).patched = false → (w.objs i).patch = []

/-- A start system made from a prepared target can be joined with it. -/
theorem setup_totalDegree {rand : ℕ → ℚ × ℚ} {fresh : ℕ → Var} {w w1 : World} {i k a b c h : ℕ}
    {vars : List Var} (hd : [i, k, a, b, c, h].Nodup) (hp : Prepared w i vars)
    (h1 : totalDegree rand fresh w i k = some w1) :
    Setup w1 i k a b c h ∧ Alike (w1.objs i) (w1.objs k) ∧ w1.objs i = w.objs i ∧
      w1.roots (w.objs i) = w.roots (w.objs i) := by
  have hik : i ≠ k := by simp at hd; omega
  obtain ⟨f1, f2, n, f3⟩ := totalDegree_frame h1
  have ei := f1 i hik
  have er : w1.roots (w.objs i) = w.roots (w.objs i) := by
    unfold World.roots
    exact List.map_congr_left fun f hf => f2 f (hp.bound f hf)
  obtain ⟨_, hh0, _, hsq, _⟩ := C33_rejects _ _ _ _ _ _ h1
  obtain ⟨g, fs, hg, hfs, hl, _, hpd, hpatch, hA, hB⟩ := totalDegree_spec h1
  obtain ⟨m1, m2, m3⟩ := tdFunctions_mem _ _ _ _ hfs
  have hvs : (w1.objs k).vs = (w.objs i).vs ∨ (w1.objs k).vs = { (w.objs i).vs with cache := none } := by
    by_cases hh : systemIsHom w (w.objs i)
    · obtain ⟨_, _, e, _⟩ := hB hh
      exact Or.inr e
    · exact Or.inl (hA hh).1
  have hlen : (w.objs i).fns.length = g.length := by
    obtain ⟨hu, hus⟩ := hp.usual
    have hsq' : (w.objs i).fns.length + (w.objs i).patch.length =
        (w.objs i).vs.homVars.length + g.length := by
      rw [hsq]; simp [Vars.numVariables, Vars.numNatural, Vars.numHomVars, hg, hh0, hu]
    rcases hus with ⟨p, q⟩ | ⟨p, _, ⟨c, q⟩, _⟩
    · rw [p, hp.patchless q] at hsq'; simpa using hsq'
    · rw [q] at hsq'
      have := p.1
      simp only [Vars.numHomVars, hg, List.length_singleton] at this
      simp only [List.length_singleton] at hsq'
      omega
  refine ⟨⟨hd, by rw [ei]; exact hp.evaluable.nodup, by rw [f3]; exact List.nodup_range', ?_, ?_⟩,
    ?_, ei, er⟩
  · rintro ⟨f, hf, hf'⟩
    rw [f3, List.mem_range'_1] at hf
    rw [ei] at hf'
    have := hp.bound f hf'
    omega
  · rw [ei, hl, hlen]
  · rw [ei]
    have hpt : (w.objs i).patch = (w1.objs k).patch := by
      rw [hpatch]
      cases hc : (w.objs i).patched with
      | true => simp
      | false => simpa using hp.patchless hc
    rcases hvs with e | e
    · exact ⟨by rw [e], by rw [e], by rw [e], hpt⟩
    · exact ⟨by rw [e]; rfl, by rw [e]; rfl, by rw [e], hpt⟩

/-- The length of a start point, and that it has one block for the patch. -/
theorem startPoint_fits {rand : ℕ → ℚ × ℚ} {fresh : ℕ → Var} {w w1 : World} {i k : ℕ}
    {vars : List Var} (hp : Prepared w i vars) (h1 : totalDegree rand fresh w i k = some w1)
    {index : ℕ} {x : List ℂ} (hx : startPoint (w1.objs k) (tdDegrees w (w.objs i))
      ((List.range (w.objs i).fns.length).map rand) index = some x) :
    x.length = vars.length ∧ ((w.objs i).patched = true →
      ∃ c, (w.objs i).patch = [c] ∧ c.length = x.length) := by
  have hlen : vars.length = (w1.objs k).vs.numVariables := by
    rw [(C33_variables _ _ _ _ _ _ h1).2]
    exact vars_length hp.evaluable.listed
  obtain ⟨_, _, _, _, _, _, hpd, hpatch, -, -⟩ := totalDegree_spec h1
  unfold startPoint at hx
  simp only [Option.bind_eq_some_iff] at hx
  obtain ⟨s, _, cs, _, hx⟩ := hx
  rw [hpd, hpatch] at hx
  rw [hlen]
  by_cases hne : (if (w.objs i).patched = true then 1 :: cs else cs).length ≠
      (w1.objs k).vs.numVariables
  · rw [if_pos hne] at hx; simp at hx
  rw [if_neg hne] at hx
  rw [not_not] at hne
  obtain ⟨-, hus⟩ := hp.usual
  rcases hus with ⟨a, b⟩ | ⟨a, b, ⟨c, hc⟩, hnd⟩
  · simp only [b, Bool.false_eq_true, if_false, Option.some.injEq] at hx hne
    exact ⟨by rw [← hx]; exact hne, by simp [b]⟩
  · simp only [b, if_true, hc] at hx hne
    obtain ⟨e1, e2, rfl⟩ := rescale_one _ _ _ hx
    refine ⟨by rw [List.length_map]; exact hne, fun _ => ⟨c, hc, ?_⟩⟩
    rw [List.length_map, e1]

/-- **C141.** For every prepared target (affine and unpatched, or homogenized and patched), all random
constants of the total degree start system, every `γ` and every fresh path variable: the homotopy is
formed, and every start point the start system generates lies on it at time 1: evaluating the homotopy
there gives the zero vector, patch included. -/
theorem C141 (simp : Node → Node) (rand : ℕ → ℚ × ℚ) (fresh : ℕ → Var) (γ : ℚ × ℚ) (t : Var)
    (w w1 : World) (i k a b c h : ℕ) (vars : List Var) (hd : [i, k, a, b, c, h].Nodup)
    (hp : Prepared w i vars) (ht : t ∉ vars) (h1 : totalDegree rand fresh w i k = some w1) :
    ∃ w2, formHomotopy simp γ t i k a b c h w1 = some w2 ∧
      ∀ index x, startPoint (w1.objs k) (tdDegrees w (w.objs i))
          ((List.range (w.objs i).fns.length).map rand) index = some x →
        ∀ junk : List ℂ, junk.length = (w.objs i).total →
          ∃ w3, evalAtTime simp w2 h junk x 1 = some (List.replicate (w.objs i).total 0, w3) := by
  obtain ⟨hs, hal, ei, er⟩ := setup_totalDegree hd hp h1
  obtain ⟨w2, h2⟩ := formHomotopy_ok simp γ t hs hal
  refine ⟨w2, h2, ?_⟩
  intro index x hx junk hj
  obtain ⟨_, _, hpi, _, _⟩ := C33_rejects _ _ _ _ _ _ h1
  obtain ⟨g, fs, _, _, hfl, hpk, hpd, hpatch, -, -⟩ := totalDegree_spec h1
  obtain ⟨hxl, hxp⟩ := startPoint_fits hp h1 hx
  have hv1 : (w1.objs k).vs.ordering = some vars :=
    (C33_variables _ _ _ _ _ _ h1).1.trans hp.evaluable.listed
  have hb : Binds vars x (bind vars x fun _ => 0) := binds_bind hp.distinct hxl
  have heT : Evaluable w1 i vars := by
    refine ⟨?_, ?_, ?_⟩
    · rw [ei]; exact hp.evaluable.listed
    · rw [ei, er]; exact hp.evaluable.closed
    · rw [ei]; exact hp.evaluable.nodup
  have heS : Evaluable w1 k vars :=
    ⟨hv1, by rw [hpk]; exact totalDegree_closed h1 hp.usual hp.evaluable.listed, hs.nodupS⟩
  obtain ⟨-, -, -, -, hev⟩ := C140 simp γ t i k a b c h w1 w2 vars hs h2 heT heS (by rw [ei]; exact hpi)
    hpk ht (by rw [ei, hpd]; exact id) (by rw [ei]; exact hp.patchless)
  have hpf : PatchFits w1 i x := by
    unfold PatchFits
    rw [ei]
    intro hc
    obtain ⟨c, e1, e2⟩ := hxp hc
    exact ⟨[x], by simp, by rw [e1]; exact List.Forall₂.cons e2 List.Forall₂.nil⟩
  obtain ⟨pv, w3, hout, hq1, hq2⟩ := hev x _ 1 junk hb hpf (by rw [ei]; exact hj)
  obtain ⟨hz, hdot⟩ := C32_zero rand fresh w w1 i k h1 hp.usual hp.degrees index x hx vars hv1 _ hb
  have hzero : List.zipWith (straightLine γ 1) (valuesOf w1 (w1.objs i) (bind vars x fun _ => 0))
      (valuesOf w1 (w1.objs k) (bind vars x fun _ => 0)) = List.replicate (w.objs i).fns.length 0 := by
    rw [List.eq_replicate_iff]
    constructor
    · have := hs.same
      rw [ei] at this
      simp [valuesOf, World.roots, ei, ← this]
    · intro v hv
      rw [← List.map_uncurry_zip_eq_zipWith] at hv
      obtain ⟨⟨f, g⟩, hfg, rfl⟩ := List.mem_map.1 hv
      obtain ⟨n, hn, rfl⟩ := List.mem_map.1 (List.of_mem_zip hfg).2
      simp [straightLine, hz n hn]
  have hpv : pv = List.replicate (w.objs i).patch.length 0 := by
    rw [ei] at hq1 hq2
    cases hc : (w.objs i).patched with
    | false => rw [hq2 hc, hp.patchless hc]; rfl
    | true =>
      obtain ⟨c, e1, e2⟩ := hxp hc
      obtain ⟨xs, e3, e4, rfl⟩ := hq1 hc
      rw [e1] at e4 ⊢
      cases e4 with
      | cons e5 e6 =>
        cases e6
        rename_i y _
        simp only [List.flatten_cons, List.flatten_nil, List.append_nil] at e3
        subst e3
        have := hdot c (by rw [hpatch, hc, e1]; simp)
        simp [Patch.value, this]
  refine ⟨w3, ?_⟩
  rw [hout, hzero, hpv, Obj.total, List.replicate_append_replicate]

/-- The target `x^2, y^3` is prepared; its start point of index 4 lies on the homotopy. -/
example (simp : Node → Node) (γ : ℚ × ℚ) : ∃ w1 w2, totalDegree (fun _ => (1, 2)) id wX 0 1 = some w1 ∧
    formHomotopy simp γ 7 0 1 2 3 4 5 w1 = some w2 ∧
    ∃ x w3, startPoint (w1.objs 1) [2, 3] [(1, 2), (1, 2)] 4 = some x ∧
      evalAtTime simp w2 5 [9, 9] x 1 = some ([0, 0], w3) := by
  obtain ⟨⟨w1, h1⟩, hu, hd, hne, htd, -⟩ := exampleX
  have ho : wX.objs 0 = oX := by simp [wX, World.set]
  have hr : wX.roots oX = [.ipow (.var 0) 2, .ipow (.var 1) 3] := by
    simp [World.roots, wX, World.set, oX]
  have hp : Prepared wX 0 [0, 1] := by
    refine ⟨hu, hd, ⟨by rw [ho]; rfl, ?_, by rw [ho]; simp [oX]⟩, by simp, ?_, ?_⟩
    · rw [ho, hr]
      simp [Closed, Node.vars]
    · rw [ho]
      simp [oX, wX, World.set]
    · rw [ho]
      simp [oX, Obj.new]
  obtain ⟨w2, h2, hall⟩ := C141 simp (fun _ => (1, 2)) id γ 7 wX w1 0 1 2 3 4 5 [0, 1] (by simp) hp
    (by simp) h1
  obtain ⟨x, hx⟩ := (C32_total _ _ _ _ _ _ h1 hu hne 4).1 (by rw [htd]; simp) (by rw [ho]; simp [oX, Obj.new])
  obtain ⟨w3, hw3⟩ := hall 4 x hx [9, 9] (by rw [ho]; rfl)
  refine ⟨w1, w2, h1, h2, x, w3, ?_, ?_⟩
  · rw [htd, ho] at hx
    exact hx
  · rw [hw3, ho]
    rfl

end B2.Alg.Htp
