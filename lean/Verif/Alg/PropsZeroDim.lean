/-
C55, C56, C76: the zero-dimensional solver.
-/
import Verif.Alg.ZeroDimProof
import Mathlib.Analysis.InnerProductSpace.PiL2

set_option linter.unusedSectionVars false

namespace B2.Alg
open B2.Track (Code)

variable {d : ℕ}

/-! ### What one `Solve` does -/

theorem resize_of_length {α : Type} (n : ℕ) (x : α) (l : List α) (h : l.length = n) : resize n x l = l := by
  unfold resize; simp [h]

theorem resize_length {α : Type} (n : ℕ) (x : α) (l : List α) : (resize n x l).length = n := by
  unfold resize; simp; omega

theorem setup_sized {N : ℕ} (cfg : ZCfg) (s : ZSt d) (h : CheckerOk N s.checker) : Sized N (setup N cfg s) :=
  ⟨resize_length _ _ _, resize_length _ _ _, resize_length _ _ _, h⟩

/-- The Euclidean distance, from Mathlib. -/
noncomputable def eDist (a b : Pt d) : ℝ := dist (WithLp.toLp 2 a : EuclideanSpace ℂ (Fin d)) (WithLp.toLp 2 b)

theorem dist2_eq (a b : Pt d) : dist2 a b = eDist a b := by
  unfold dist2 eDist
  rw [EuclideanSpace.dist_eq]
  simp only [dist_eq_norm]

/-- `i` and `j` both ended successfully, with endpoints closer than `tol`. -/
def Coinc (tol : ℝ) (s : ZSt d) (i j : ℕ) : Prop :=
  ∃ mi mj xi xj, s.md[i]? = some mi ∧ s.md[j]? = some mj ∧ s.sols[i]? = some xi ∧ s.sols[j]? = some xj ∧
    mi.post = .success ∧ mj.post = .success ∧ eDist xi xj < tol

theorem coinc_iff (tol : ℝ) (s : ZSt d) (i j : ℕ) :
    (okAt s.md i && okAt s.md j && sameAt tol s.sols i j) = true ↔ Coinc tol s i j := by
  unfold okAt sameAt Coinc
  cases s.md[i]? <;> cases s.md[j]? <;> cases s.sols[i]? <;> cases s.sols[j]? <;> simp [and_assoc, dist2_eq]

open Classical in
/-- The number of other successful endpoints that coincide with endpoint `i`. -/
noncomputable def twins (N : ℕ) (tol : ℝ) (s : ZSt d) (i : ℕ) : ℕ :=
  ((Finset.range N).filter fun j => j ≠ i ∧ Coinc tol s i j).card

theorem solve_spec {N : ℕ} (E : ZEnv d) (cfg : ZCfg) (s : ZSt d) (h : CheckerOk N s.checker) :
    ∃ (s' : ZSt d) (rounds : List (List ℕ)), solve N E cfg s = s' ∧ Sized N s' ∧
      rounds.length ≤ cfg.maxAttempts ∧ (∀ L ∈ rounds, L.Nodup ∧ ∀ i ∈ L, i < N) ∧
      s'.log = s.log ++ (List.range N).map (fun i => .before i cfg.newtonBefore) ++
        retracks cfg.shrink cfg.newtonBefore rounds ++ (List.range N).filterMap (egEvent s'.bdry) ∧
      (∀ i, i < N → Tracked E s' i ∧ Finished E s' i) ∧
      (∀ i, i < N → ∃ m m0, s'.md[i]? = some m ∧ (resize N Meta.default s.md)[i]? = some m0 ∧
        m.mult = m0.mult + twins N cfg.postTol s' i ∧ (m.pre ≠ .success → m.post = m0.post)) := by
  obtain ⟨s1, e1, a1, a2, a3, a4, a5, a6, -⟩ := trackMany_spec E cfg.newtonBefore (List.range N) (setup N cfg s)
    (setup_sized cfg s h) (by simp)
  obtain ⟨s2, rounds, e2, b1, b2, b3, b4, b5, b6⟩ := resolveLoop_spec (N := N) E cfg cfg.maxAttempts (recheck E cfg s1)
    ⟨a1.md, a1.bdry, a1.sols, checkerOk_check a1.chk _ _ _ (le_of_eq a1.bdry)⟩
    (fun i hi => a6 i (List.mem_range.2 hi))
  obtain ⟨s3, e3, c1, c2, c3, c4, c5, c6, -, c8⟩ := during_spec E (List.range N) s2 List.nodup_range b1 (by simp) b3
  have e4 : solve N E cfg s = multiplicities N cfg s3 := by
    unfold solve trackDuring boundary trackBefore
    rw [e1, e2, e3]
  obtain ⟨R, hR⟩ : ∃ R : ℕ → ℕ → Bool, R = fun i j => okAt s3.md i && okAt s3.md j && sameAt cfg.postTol s3.sols i j :=
    ⟨_, rfl⟩
  have hmd : (multiplicities N cfg s3).md = (pairsOf N R).foldl (fun md p => bump (bump md p.1) p.2) s3.md := by
    unfold multiplicities
    rw [mult_fold, hR]
  have hrest : (multiplicities N cfg s3).md.map rest = s3.md.map rest := by rw [hmd, bumps_rest]
  have hRc : ∀ i j, R i j = R j i := by
    intro i j; rw [hR]; dsimp only; rw [sameAt_comm, Bool.and_comm (okAt s3.md i)]
  have hmul : ∀ i m, s3.md[i]? = some m → i < N → (multiplicities N cfg s3).md[i]? =
      some { m with mult := m.mult + ((Finset.range N).filter fun j => j ≠ i ∧ R i j = true).card } := by
    intro i m hm hi
    rw [hmd, bumps_mult _ _ i _ m hm, other_length N R hRc i hi]
    rintro ⟨a, b⟩ hp
    rw [mem_pairsOf] at hp
    exact Nat.ne_of_lt hp.1
  have hlen : (multiplicities N cfg s3).md.length = N := by
    have := congrArg List.length hrest
    simp only [List.length_map] at this
    rw [this, c1.md]
  have hsz : Sized N (multiplicities N cfg s3) := ⟨hlen, c1.bdry, c1.sols, c1.chk⟩
  refine ⟨multiplicities N cfg s3, rounds, e4, hsz, b4, b5, ?_, ?_, ?_⟩
  · show s3.log = _
    rw [c4, b6]
    show s1.log ++ retracks cfg.shrink s1.tol rounds ++ _ = _
    rw [a5, a4]
    show _ = s.log ++ _ ++ _ ++ (List.range N).filterMap (egEvent s3.bdry)
    rw [c3]
    rfl
  · intro i hi
    constructor
    · obtain ⟨m, b, h1, h2, h3, h4, h5⟩ := c2 i hi
      exact ⟨_, b, hmul i m h1 hi, h2, h3, h4, h5⟩
    · obtain ⟨m, b, x, h1, h2, h3, h4⟩ := c6 i (List.mem_range.2 hi)
      exact ⟨_, b, x, hmul i m h1 hi, h2, h3, h4⟩
  · intro i hi
    have hi3 : i < s3.md.length := by rw [c1.md]; exact hi
    have hi2 : i < s2.md.length := by rw [b1.md]; exact hi
    have hi0 : i < (resize N Meta.default s.md).length := by rw [resize_length]; exact hi
    have h3 := List.getElem?_eq_getElem hi3
    have h2 := List.getElem?_eq_getElem hi2
    have h0 := List.getElem?_eq_getElem hi0
    have hk : Keep (setup N cfg s) s2 := ⟨b2.core.trans a2.core, b2.sols.trans a2.sols⟩
    have g1 : (s3.md[i].pre, s3.md[i].mult) = (s2.md[i].pre, s2.md[i].mult) := by
      have := congrArg (fun l => l[i]?) c5
      simpa [h3, h2] using this
    have g2 : (s2.md[i].post, s2.md[i].mult) =
        ((resize N Meta.default s.md)[i].post, (resize N Meta.default s.md)[i].mult) := by
      have h4 := hk.core
      have h5 : (setup N cfg s).md = resize N Meta.default s.md := rfl
      rw [h5] at h4
      have := congrArg (fun l => l[i]?) h4
      simpa [h2, h0] using this
    simp only [Prod.mk.injEq] at g1 g2
    refine ⟨_, _, hmul i _ h3 hi, h0, ?_, ?_⟩
    · dsimp only
      rw [g1.2, g2.2]
      congr 2
      unfold twins
      congr 1
      ext j
      simp only [Finset.mem_filter, Finset.mem_range]
      have hj : R i j = true ↔ Coinc cfg.postTol (multiplicities N cfg s3) i j := by
        rw [← coinc_iff, hR]
        dsimp only
        rw [okAt_congr hrest.symm i, okAt_congr hrest.symm j]
        rfl
      rw [hj]
    · intro hp
      dsimp only at hp ⊢
      have h4 : s2.md[i].pre ≠ .success := by rw [← g1.1]; exact hp
      have h5 := (c8 i _ h2 h4).1
      rw [h3, h2, Option.some.injEq] at h5
      rw [h5, g2.1]

theorem reach_ok {N : ℕ} {s : ZSt d} (h : Reach N s) : CheckerOk N s.checker ∧ (s = ZSt.init d ∨ Sized N s) := by
  induction h with
  | init => exact ⟨checkerOk_fresh N, .inl rfl⟩
  | solve E cfg s _ ih =>
    obtain ⟨s', rounds, e, h1, -⟩ := solve_spec (N := N) E cfg s ih.1
    rw [e]
    exact ⟨h1.chk, .inr h1⟩

/-! ### C56 -/

/-- **C56**: in every call of `Solve`, on a new object or after earlier calls, whatever the tracker and the endgame
answer: every path is tracked once to the boundary, in order; there are at most the configured number of rounds of
re-tracking, each path at most once per round, with the tolerance shrunk once more each round; then the endgame is run, in
order, on exactly the paths whose boundary record is successful, from their boundary points.  There is one record per
start point, with its path number, the code of a tracker run on that path, and for successful ones the code and result of
an endgame run from the boundary point. -/
theorem C56 {N : ℕ} (E : ZEnv d) (cfg : ZCfg) (s : ZSt d) (h : Reach N s) :
    ∃ (s' : ZSt d) (rounds : List (List ℕ)), solve N E cfg s = s' ∧
      rounds.length ≤ cfg.maxAttempts ∧ (∀ L ∈ rounds, L.Nodup ∧ ∀ i ∈ L, i < N) ∧
      s'.log = s.log ++ (List.range N).map (fun i => .before i cfg.newtonBefore) ++
        retracks cfg.shrink cfg.newtonBefore rounds ++ (List.range N).filterMap (egEvent s'.bdry) ∧
      s'.md.length = N ∧ s'.bdry.length = N ∧ s'.sols.length = N ∧
      ∀ i, i < N → ∃ m b x, s'.md[i]? = some m ∧ s'.bdry[i]? = some b ∧ s'.sols[i]? = some x ∧ m.pathIndex = i ∧
        m.pre = b.code ∧ (∃ k tol, E.track k tol (E.start i) = (b.code, b.pt)) ∧
        (b.code = .success → ∃ k, E.endgame k b.pt = (m.post, x)) := by
  obtain ⟨s', rounds, e, h1, h2, h3, h4, h5, -⟩ := solve_spec (N := N) E cfg s (reach_ok h).1
  refine ⟨s', rounds, e, h2, h3, h4, h1.md, h1.bdry, h1.sols, ?_⟩
  intro i hi
  obtain ⟨⟨m, b, g1, g2, g3, g4, g5⟩, m', b', x, k1, k2, k3, k4⟩ := h5 i hi
  rw [g1] at k1; cases k1
  rw [g2] at k2; cases k2
  exact ⟨m, b, x, g1, g2, k3, g3, g4, g5, k4⟩

/-- Is this a tracker call for path `i`? -/
def isBefore (i : ℕ) : Ev d → Bool
  | .before j _ => j == i
  | .endgame _ _ => false

theorem count_retracks (shrink : ℝ) (i : ℕ) : ∀ (rounds : List (List ℕ)) (tol : ℝ),
    (∀ L ∈ rounds, L.Nodup) → (retracks (d := d) shrink tol rounds).countP (isBefore i) ≤ rounds.length := by
  intro rounds
  induction rounds with
  | nil => intro tol _; simp [retracks]
  | cons L Ls ih =>
    intro tol h
    rw [retracks, List.countP_append, List.length_cons]
    have h1 := ih (tol * shrink) fun L' hL' => h L' (by simp [hL'])
    have h2 : (L.map (fun j => (Ev.before j (tol * shrink) : Ev d))).countP (isBefore i) ≤ 1 := by
      rw [List.countP_map]
      have : (isBefore i ∘ fun j => (Ev.before j (tol * shrink) : Ev d)) = fun j => j == i := by funext j; rfl
      rw [this]
      exact List.nodup_iff_count_le_one.1 (h L (by simp)) i
    omega

/-- **C56, number of runs**: in one `Solve` the tracker is run on each path at least once and at most one more time than
the configured number of attempts, and on no other path. -/
theorem C56_count {N : ℕ} (E : ZEnv d) (cfg : ZCfg) (s : ZSt d) (h : Reach N s) :
    ∃ new, (solve N E cfg s).log = s.log ++ new ∧
      (∀ i, i < N → 1 ≤ new.countP (isBefore i) ∧ new.countP (isBefore i) ≤ 1 + cfg.maxAttempts) ∧
      ∀ i, N ≤ i → new.countP (isBefore i) = 0 := by
  obtain ⟨s', rounds, e, h2, h3, h4, -⟩ := C56 E cfg s h
  rw [e, h4, List.append_assoc, List.append_assoc]
  refine ⟨_, rfl, ?_⟩
  have heg : ∀ i, ((List.range N).filterMap (egEvent s'.bdry)).countP (isBefore i) = 0 := by
    intro i
    rw [List.countP_eq_zero]
    intro ev hev
    rw [List.mem_filterMap] at hev
    obtain ⟨j, -, hj⟩ := hev
    unfold egEvent at hj
    split at hj
    · split_ifs at hj
      cases hj; simp [isBefore]
    · cases hj
  have hfirst : ∀ i, ((List.range N).map (fun j => (Ev.before j cfg.newtonBefore : Ev d))).countP (isBefore i) =
      (List.range N).count i := by
    intro i
    rw [List.countP_map]
    rfl
  have hret := fun i => count_retracks (d := d) cfg.shrink i rounds cfg.newtonBefore fun L hL => (h3 L hL).1
  constructor
  · intro i hi
    rw [List.countP_append, List.countP_append, heg, hfirst, List.count_eq_one_of_mem List.nodup_range (List.mem_range.2 hi)]
    have := hret i
    omega
  · intro i hi
    rw [List.countP_append, List.countP_append, heg, hfirst, List.count_eq_zero_of_not_mem (by simpa using hi)]
    have hz : ∀ (rs : List (List ℕ)) (tol : ℝ), (∀ L ∈ rs, ∀ j ∈ L, j < N) →
        (retracks (d := d) cfg.shrink tol rs).countP (isBefore i) = 0 := by
      intro rs
      induction rs with
      | nil => intro tol _; simp [retracks]
      | cons L Ls ih =>
        intro tol hL
        rw [retracks, List.countP_append, ih _ fun L' h' => hL L' (by simp [h']), List.countP_map, Nat.add_zero,
          List.countP_eq_zero]
        intro j hj
        have := hL L (by simp) j hj
        simp only [Function.comp, isBefore, beq_iff_eq]
        omega
    rw [hz rounds _ fun L hL => (h3 L hL).2]

/-! ### C55 -/

/-- **C55, full statement**: after any number of calls of `Solve`, the multiplicity of each successful endpoint is one
plus the number of other successful endpoints closer than the tolerance. -/
def C55_full : Prop :=
  ∀ (d N : ℕ) (E : ZEnv d) (cfg : ZCfg) (s : ZSt d), Reach N s →
    ∀ i, i < N → ∀ m, (solve N E cfg s).md[i]? = some m → m.post = .success →
      m.mult = 1 + (twins N cfg.postTol (solve N E cfg s) i : ℤ)

/-- **C55, partial**: this holds after the first call (and coincidence is symmetric); each further call *adds* the number
of coinciding endpoints to the multiplicity already stored.  Missing: the statement for further calls, where it is false;
and that coincident endpoints name each other, since the solver discards the lists of partners it computes. -/
theorem C55_partial {N : ℕ} (E : ZEnv d) (cfg : ZCfg) :
    (∀ i, i < N → ∃ m, (solve N E cfg (ZSt.init d)).md[i]? = some m ∧
      m.mult = 1 + (twins N cfg.postTol (solve N E cfg (ZSt.init d)) i : ℤ)) ∧
    (∀ (s : ZSt d) (E0 : ZEnv d) (cfg0 : ZCfg), Reach N s → ∀ i, i < N →
      ∃ m m0, (solve N E0 cfg0 s).md[i]? = some m0 ∧ (solve N E cfg (solve N E0 cfg0 s)).md[i]? = some m ∧
        m.mult = m0.mult + (twins N cfg.postTol (solve N E cfg (solve N E0 cfg0 s)) i : ℤ)) ∧
    (∀ (tol : ℝ) (s : ZSt d) i j, Coinc tol s i j ↔ Coinc tol s j i) := by
  refine ⟨?_, ?_, ?_⟩
  · intro i hi
    obtain ⟨s', rounds, e, h1, -, -, -, -, h6⟩ := solve_spec (N := N) E cfg (ZSt.init d) (checkerOk_fresh N)
    obtain ⟨m, m0, g1, g2, g3, -⟩ := h6 i hi
    rw [e]
    refine ⟨m, g1, ?_⟩
    have : (resize N Meta.default (ZSt.init d).md)[i]? = some Meta.default := by
      simp [resize, ZSt.init, hi]
    rw [this] at g2
    cases g2
    exact g3
  · intro s E0 cfg0 hs i hi
    have hr := reach_ok (Reach.solve E0 cfg0 s hs)
    obtain ⟨s', rounds, e, h1, -, -, -, -, h6⟩ := solve_spec (N := N) E cfg (solve N E0 cfg0 s) hr.1
    obtain ⟨s0, -, e0, h0, -⟩ := solve_spec (N := N) E0 cfg0 s (reach_ok hs).1
    obtain ⟨m, m0, g1, g2, g3, -⟩ := h6 i hi
    rw [resize_of_length _ _ _ (by rw [e0, h0.md])] at g2
    exact ⟨m, m0, g2, by rw [e]; exact g1, by rw [e]; exact g3⟩
  · intro tol s i j
    rw [← coinc_iff, ← coinc_iff, sameAt_comm, Bool.and_comm (okAt s.md i)]

/-- Every path is tracked successfully, and every endgame ends at the origin with the given code. -/
noncomputable def meetEnv (c : Code) : ZEnv 1 where
  start := fun i _ => i
  track := fun k _ _ => (c, fun _ => (k : ℂ) + 1)
  endgame := fun _ _ => (.success, fun _ => 0)

/-- The default tolerances. -/
noncomputable def zcfgD : ZCfg :=
  { newtonBefore := 1 / 10 ^ 5, midTol := 1 / 10 ^ 5, postTol := 1 / 10 ^ 10, maxAttempts := 2, shrink := 1 / 2 }

theorem meetEnv_coinc (s : ZSt 1) (h : Reach 2 s) (i j : ℕ) (hi : i < 2) (hj : j < 2) :
    Coinc zcfgD.postTol (solve 2 (meetEnv .success) zcfgD s) i j := by
  obtain ⟨s', rounds, e, -, -, -, -, -, -, hall⟩ := C56 (meetEnv .success) zcfgD s h
  rw [e]
  have key : ∀ k, k < 2 → ∃ m, s'.md[k]? = some m ∧ s'.sols[k]? = some (fun _ => 0) ∧ m.post = .success := by
    intro k hk
    obtain ⟨m, b, x, h1, h2, h3, -, -, ⟨_, _, h6⟩, h7⟩ := hall k hk
    have hb : b.code = .success := by
      have := congrArg Prod.fst h6
      exact this.symm
    obtain ⟨_, h8⟩ := h7 hb
    have h9 : Code.success = m.post := congrArg Prod.fst h8
    have h10 : (fun _ => (0 : ℂ)) = x := congrArg Prod.snd h8
    exact ⟨m, h1, by rw [h3, ← h10], h9.symm⟩
  obtain ⟨mi, h1, h2, h3⟩ := key i hi
  obtain ⟨mj, h4, h5, h6⟩ := key j hj
  refine ⟨mi, mj, _, _, h1, h4, h2, h5, h3, h6, ?_⟩
  simp [eDist, zcfgD]

theorem meetEnv_twins (s : ZSt 1) (h : Reach 2 s) (i : ℕ) (hi : i < 2) :
    twins 2 zcfgD.postTol (solve 2 (meetEnv .success) zcfgD s) i = 1 := by
  classical
  unfold twins
  rw [Finset.card_eq_one]
  refine ⟨1 - i, ?_⟩
  ext j
  simp only [Finset.mem_filter, Finset.mem_range, Finset.mem_singleton]
  constructor
  · rintro ⟨h1, h2, -⟩; omega
  · rintro rfl
    exact ⟨by omega, by omega, meetEnv_coinc s h i (1 - i) hi (by omega)⟩

/-- **C55 fails**: two paths with the same endpoint have multiplicity 2 after the first `Solve` and 3 after the second. -/
theorem C55_refuted : ¬ C55_full ∧
    ∀ i, i < 2 → ∃ m m', (solve 2 (meetEnv .success) zcfgD (ZSt.init 1)).md[i]? = some m ∧ m.mult = 2 ∧
      (solve 2 (meetEnv .success) zcfgD (solve 2 (meetEnv .success) zcfgD (ZSt.init 1))).md[i]? = some m' ∧
      m'.mult = 3 := by
  have hr := Reach.solve (meetEnv .success) zcfgD (ZSt.init 1) (Reach.init (N := 2))
  have key : ∀ i, i < 2 → ∃ m m', (solve 2 (meetEnv .success) zcfgD (ZSt.init 1)).md[i]? = some m ∧ m.mult = 2 ∧
      (solve 2 (meetEnv .success) zcfgD (solve 2 (meetEnv .success) zcfgD (ZSt.init 1))).md[i]? = some m' ∧
      m'.mult = 3 := by
    intro i hi
    obtain ⟨h1, h2, -⟩ := C55_partial (N := 2) (meetEnv .success) zcfgD
    obtain ⟨m, g1, g2⟩ := h1 i hi
    obtain ⟨m', m0, k1, k2, k3⟩ := h2 (ZSt.init 1) (meetEnv .success) zcfgD Reach.init i hi
    rw [g1] at k1; cases k1
    rw [meetEnv_twins _ Reach.init i hi] at g2
    rw [meetEnv_twins _ hr i hi] at k3
    exact ⟨m, m', g1, by rw [g2]; norm_num, k2, by rw [k3, g2]; norm_num⟩
  refine ⟨fun h => ?_, key⟩
  obtain ⟨m, m', g1, g2, g3, g4⟩ := key 0 (by norm_num)
  have hc := meetEnv_coinc _ hr 0 0 (by norm_num) (by norm_num)
  obtain ⟨mi, -, -, -, h1, -, -, -, h5, -⟩ := hc
  rw [g3] at h1; cases h1
  have := h 1 2 (meetEnv .success) zcfgD _ hr 0 (by norm_num) m' g3 h5
  rw [meetEnv_twins _ hr 0 (by norm_num), g4] at this
  norm_num at this

/-! ### C76 -/

/-- **C76, full statement**: after any call of `Solve`, a path that did not arrive at the boundary in that call is not
reported as finished successfully. -/
def C76_full : Prop :=
  ∀ (d N : ℕ) (E : ZEnv d) (cfg : ZCfg) (s : ZSt d), Reach N s →
    ∀ i, i < N → ∀ m, (solve N E cfg s).md[i]? = some m → m.pre ≠ .success → m.post ≠ .success

/-- **C76, partial**: it holds for the first call.  In later calls such a path keeps the endgame code of the call
before.  Missing: later calls, where it is false. -/
theorem C76_partial {N : ℕ} (E : ZEnv d) (cfg : ZCfg) :
    (∀ i, i < N → ∀ m, (solve N E cfg (ZSt.init d)).md[i]? = some m → m.pre ≠ .success → m.post = .neverStarted) ∧
    (∀ (s : ZSt d) (E0 : ZEnv d) (cfg0 : ZCfg), Reach N s → ∀ i, i < N →
      ∃ m m0, (solve N E0 cfg0 s).md[i]? = some m0 ∧ (solve N E cfg (solve N E0 cfg0 s)).md[i]? = some m ∧
        (m.pre ≠ .success → m.post = m0.post)) := by
  constructor
  · intro i hi m hm hp
    obtain ⟨s', rounds, e, h1, -, -, -, -, h6⟩ := solve_spec (N := N) E cfg (ZSt.init d) (checkerOk_fresh N)
    obtain ⟨m', m0, g1, g2, -, g4⟩ := h6 i hi
    rw [e, g1] at hm; cases hm
    have : (resize N Meta.default (ZSt.init d).md)[i]? = some Meta.default := by
      simp [resize, ZSt.init, hi]
    rw [this] at g2
    cases g2
    exact g4 hp
  · intro s E0 cfg0 hs i hi
    have hr := reach_ok (Reach.solve E0 cfg0 s hs)
    obtain ⟨s', rounds, e, h1, -, -, -, -, h6⟩ := solve_spec (N := N) E cfg (solve N E0 cfg0 s) hr.1
    obtain ⟨s0, -, e0, h0, -⟩ := solve_spec (N := N) E0 cfg0 s (reach_ok hs).1
    obtain ⟨m, m0, g1, g2, -, g4⟩ := h6 i hi
    rw [resize_of_length _ _ _ (by rw [e0, h0.md])] at g2
    exact ⟨m, m0, g2, by rw [e]; exact g1, g4⟩

/-- **C76 fails**: solve once with every path succeeding, then again with the tracker failing on every path: the failed
paths still carry the successful endgame code. -/
theorem C76_refuted : ¬ C76_full ∧
    ∀ i, i < 2 → ∃ m, (solve 2 (meetEnv .minStepSizeReached) zcfgD
      (solve 2 (meetEnv .success) zcfgD (ZSt.init 1))).md[i]? = some m ∧
      m.pre = .minStepSizeReached ∧ m.post = .success := by
  have hr := Reach.solve (meetEnv .success) zcfgD (ZSt.init 1) (Reach.init (N := 2))
  have key : ∀ i, i < 2 → ∃ m, (solve 2 (meetEnv .minStepSizeReached) zcfgD
      (solve 2 (meetEnv .success) zcfgD (ZSt.init 1))).md[i]? = some m ∧
      m.pre = .minStepSizeReached ∧ m.post = .success := by
    intro i hi
    obtain ⟨s', rounds, e, -, -, -, -, -, -, hall⟩ := C56 (meetEnv .minStepSizeReached) zcfgD _ hr
    obtain ⟨m, b, x, h1, -, -, -, h4, ⟨_, _, h6⟩, -⟩ := hall i hi
    have hb : b.code = .minStepSizeReached := (congrArg Prod.fst h6).symm
    obtain ⟨m', m0, k1, k2, k3⟩ := (C76_partial (N := 2) (meetEnv .minStepSizeReached) zcfgD).2 (ZSt.init 1)
      (meetEnv .success) zcfgD Reach.init i hi
    rw [e, h1] at k2; cases k2
    obtain ⟨mi, -, -, -, g1, -, -, -, g5, -⟩ := meetEnv_coinc _ Reach.init i i hi hi
    rw [k1] at g1; cases g1
    refine ⟨m, by rw [e]; exact h1, by rw [h4, hb], ?_⟩
    rw [k3 (by rw [h4, hb]; simp), g5]
  refine ⟨fun h => ?_, key⟩
  obtain ⟨m, g1, g2, g3⟩ := key 0 (by norm_num)
  exact h 1 2 _ zcfgD _ hr 0 (by norm_num) m g1 (by rw [g2]; simp) g3

end B2.Alg
