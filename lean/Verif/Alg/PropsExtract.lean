/-
C112: extraction of the nonsingular solutions.  C113: extraction of all solutions.  C114: printed endpoints.
-/
import Verif.Alg.Extract
import Verif.Alg.PropsZeroDim

namespace B2.Alg
open B2.Track (Code)

variable {d : ℕ} {β : Type}

/-! ### Specification -/

/-- Path `i` ended successfully and no other successful endpoint is closer to its own than `tol`. -/
def Isolated (N : ℕ) (tol : ℝ) (s : ZSt d) (i : ℕ) : Prop :=
  (∃ m, s.md[i]? = some m ∧ m.post = .success) ∧ ∀ j, j < N → j ≠ i → ¬ Coinc tol s i j

open Classical in
/-- The isolated endpoints, dehomogenized, in the order of the paths. -/
noncomputable def isolatedList (N : ℕ) (tol : ℝ) (dehom : Pt d → β) (s : ZSt d) : List β :=
  (List.range N).filterMap fun i => if Isolated N tol s i then s.sols[i]?.map dehom else none

theorem twins_zero (N : ℕ) (tol : ℝ) (s : ZSt d) (i : ℕ) :
    twins N tol s i = 0 ↔ ∀ j, j < N → j ≠ i → ¬ Coinc tol s i j := by
  classical
  unfold twins
  rw [Finset.card_eq_zero, Finset.filter_eq_empty_iff]
  constructor
  · intro h j hj hne hc
    exact h (Finset.mem_range.2 hj) ⟨hne, hc⟩
  · intro h j hj hc
    exact h j (Finset.mem_range.1 hj) hc.1 hc.2

/-- Multiplicities are positive in every reachable state. -/
theorem mult_pos {N : ℕ} {s : ZSt d} (h : Reach N s) : ∀ m ∈ s.md, 1 ≤ m.mult := by
  induction h with
  | init => simp [ZSt.init]
  | solve E cfg s hs ih =>
    obtain ⟨s', rounds, e, h1, -, -, -, -, h6⟩ := solve_spec (N := N) E cfg s (reach_ok hs).1
    rw [e]
    intro m hm
    obtain ⟨i, hi, hget⟩ := List.getElem_of_mem hm
    rw [h1.md] at hi
    obtain ⟨m', m0, g1, g2, g3, -⟩ := h6 i hi
    have hmm : m' = m := by
      rw [List.getElem?_eq_getElem (by rw [h1.md]; exact hi), hget] at g1
      exact (Option.some.inj g1).symm
    subst hmm
    have hm0 : 1 ≤ m0.mult := by
      have hmem := List.mem_of_getElem? g2
      unfold resize at hmem
      rcases List.mem_append.1 hmem with h' | h'
      · exact ih m0 (List.mem_of_mem_take h')
      · rw [List.eq_of_mem_replicate h']
        simp [Meta.default]
    rw [g3]
    omega

/-! ### C112 -/

/-- **C112, full statement**: after any call of `Solve`, the extracted nonsingular solutions are exactly the isolated
successful endpoints, in the order of the paths. -/
def C112_full : Prop :=
  ∀ (d N : ℕ) (β : Type) (dehom : Pt d → β) (E : ZEnv d) (cfg : ZCfg) (s : ZSt d), Reach N s →
    nonsingular dehom (solve N E cfg s) = isolatedList N cfg.postTol dehom (solve N E cfg s)

/-- **C112, partial**: it holds after the first call of `Solve`.  After any call, the extracted solutions are endpoints of
pairwise different successful paths, in order, none closer to another than the tolerance, and all of them are isolated.
Missing: that after further calls no isolated endpoint is left out, which is false. -/
theorem C112_partial {N : ℕ} (dehom : Pt d → β) (E : ZEnv d) (cfg : ZCfg) :
    nonsingular dehom (solve N E cfg (ZSt.init d)) = isolatedList N cfg.postTol dehom (solve N E cfg (ZSt.init d)) ∧
    ∀ s, Reach N s → ∃ L : List ℕ, L.Sublist (List.range N) ∧
      nonsingular dehom (solve N E cfg s) = L.filterMap (fun i => (solve N E cfg s).sols[i]?.map dehom) ∧
      (nonsingular dehom (solve N E cfg s)).length = L.length ∧
      (∀ i ∈ L, Isolated N cfg.postTol (solve N E cfg s) i) ∧
      (∀ i ∈ L, ∀ j ∈ L, i ≠ j → ∀ x y, (solve N E cfg s).sols[i]? = some x → (solve N E cfg s).sols[j]? = some y →
        cfg.postTol ≤ eDist x y) := by
  constructor
  · obtain ⟨s', rounds, e, h1, -⟩ := solve_spec (N := N) E cfg (ZSt.init d) (checkerOk_fresh N)
    have hm := (C55_partial (N := N) E cfg).1
    rw [e] at hm ⊢
    unfold nonsingular isolatedList
    rw [h1.sols]
    apply List.filterMap_congr
    intro i hi
    rw [List.mem_range] at hi
    obtain ⟨m, g1, g2⟩ := hm i hi
    have hx : i < s'.sols.length := by rw [h1.sols]; exact hi
    rw [g1, List.getElem?_eq_getElem hx]
    dsimp only [Option.map_some]
    have : (m.post = .success ∧ m.mult = 1) ↔ Isolated N cfg.postTol s' i := by
      unfold Isolated
      rw [← twins_zero, g1, g2]
      constructor
      · rintro ⟨a, b⟩
        exact ⟨⟨m, rfl, a⟩, by omega⟩
      · rintro ⟨⟨m', a, b⟩, c⟩
        cases a
        exact ⟨b, by omega⟩
    by_cases hc : m.post = .success ∧ m.mult = 1
    · rw [if_pos hc, if_pos (this.1 hc)]
    · rw [if_neg hc, if_neg (fun h => hc (this.2 h))]
  · intro s hs
    obtain ⟨s', rounds, e, h1, -, -, -, -, h6⟩ := solve_spec (N := N) E cfg s (reach_ok hs).1
    have hpos := mult_pos hs
    rw [e]
    refine ⟨(List.range N).filter fun i => match s'.md[i]? with
      | some m => decide (m.post = .success ∧ m.mult = 1) | none => false, List.filter_sublist, ?_, ?_, ?_⟩
    · unfold nonsingular
      rw [h1.sols, List.filterMap_filter]
      apply List.filterMap_congr
      intro i hi
      rw [List.mem_range] at hi
      have hx : i < s'.sols.length := by rw [h1.sols]; exact hi
      have hmm : i < s'.md.length := by rw [h1.md]; exact hi
      rw [List.getElem?_eq_getElem hx, List.getElem?_eq_getElem hmm]
      simp
    · unfold nonsingular
      rw [h1.sols]
      have gen : ∀ L : List ℕ, (∀ i ∈ L, i < N) → (L.filterMap fun i =>
          match s'.md[i]?, s'.sols[i]? with
          | some m, some x => if m.post = .success ∧ m.mult = 1 then some (dehom x) else none
          | _, _ => none).length = (L.filter fun i => match s'.md[i]? with
            | some m => decide (m.post = .success ∧ m.mult = 1) | none => false).length := by
        intro L
        induction L with
        | nil => intro _; rfl
        | cons i L ih =>
          intro hL
          have hi := hL i (by simp)
          have ih' := ih fun j hj => hL j (by simp [hj])
          have hx : i < s'.sols.length := by rw [h1.sols]; exact hi
          have hmm : i < s'.md.length := by rw [h1.md]; exact hi
          rw [List.filterMap_cons, List.filter_cons]
          rw [List.getElem?_eq_getElem hx, List.getElem?_eq_getElem hmm]
          dsimp only
          by_cases hc : s'.md[i].post = .success ∧ s'.md[i].mult = 1
          · rw [if_pos hc, if_pos (by simpa using hc)]
            simp only [List.length_cons]
            rw [ih']
          · rw [if_neg hc, if_neg (by simpa using hc)]
            exact ih'
      exact gen _ (by simp)
    · have iso : ∀ i ∈ (List.range N).filter (fun i => match s'.md[i]? with
          | some m => decide (m.post = .success ∧ m.mult = 1) | none => false), Isolated N cfg.postTol s' i := by
        intro i hi
        obtain ⟨hi1, hi2⟩ := List.mem_filter.1 hi
        rw [List.mem_range] at hi1
        obtain ⟨m, m0, g1, g2, g3, -⟩ := h6 i hi1
        rw [g1] at hi2
        simp only [decide_eq_true_eq] at hi2
        refine ⟨⟨m, g1, hi2.1⟩, ?_⟩
        rw [← twins_zero]
        have hm0 : 1 ≤ m0.mult := by
          have hmem := List.mem_of_getElem? g2
          unfold resize at hmem
          rcases List.mem_append.1 hmem with h' | h'
          · exact hpos m0 (List.mem_of_mem_take h')
          · rw [List.eq_of_mem_replicate h']
            simp [Meta.default]
        have := hi2.2
        omega
      refine ⟨iso, ?_⟩
      intro i hi j hj hne x y hx hy
      obtain ⟨⟨mi, a1, a2⟩, a3⟩ := iso i hi
      obtain ⟨⟨mj, b1, b2⟩, -⟩ := iso j hj
      by_contra hlt
      push Not at hlt
      exact a3 j (List.mem_range.1 (List.mem_filter.1 hj).1) (Ne.symm hne)
        ⟨mi, mj, x, y, a1, b1, hx, hy, a2, b2, hlt⟩

/-- Every path is tracked successfully and stays where it started. -/
noncomputable def stayEnv : ZEnv 1 where
  start := fun i _ => i
  track := fun _ _ x => (.success, x)
  endgame := fun _ x => (.success, x)

theorem stay_apart (s : ZSt 1) (h : Reach 2 s) (i : ℕ) (hi : i < 2) :
    Isolated 2 zcfgD.postTol (solve 2 stayEnv zcfgD s) i ∧
    (solve 2 stayEnv zcfgD s).sols[i]? = some (fun _ => (i : ℂ)) := by
  obtain ⟨s', rounds, e, -, -, -, -, -, -, hall⟩ := C56 stayEnv zcfgD s h
  rw [e]
  have key : ∀ k : ℕ, k < 2 → ∃ m, s'.md[k]? = some m ∧ s'.sols[k]? = some (fun _ => (k : ℂ)) ∧ m.post = .success := by
    intro k hk
    obtain ⟨m, b, x, h1, h2, h3, -, -, ⟨_, _, h6⟩, h7⟩ := hall k hk
    have hb : b.code = .success := (congrArg Prod.fst h6).symm
    have hp : (fun _ => (k : ℂ)) = b.pt := congrArg Prod.snd h6
    obtain ⟨_, h8⟩ := h7 hb
    have h9 : Code.success = m.post := congrArg Prod.fst h8
    have h10 : b.pt = x := congrArg Prod.snd h8
    exact ⟨m, h1, by rw [h3, ← h10, ← hp], h9.symm⟩
  obtain ⟨m, h1, h2, h3⟩ := key i hi
  refine ⟨⟨⟨m, h1, h3⟩, ?_⟩, h2⟩
  intro j hj hne hc
  obtain ⟨mi, mj, xi, xj, -, -, c3, c4, -, -, c7⟩ := hc
  obtain ⟨_, -, h5, -⟩ := key j hj
  rw [h2] at c3; cases c3
  rw [h5] at c4; cases c4
  have : dist2 (fun _ => (i : ℂ) : Pt 1) (fun _ => (j : ℂ)) = 1 := by
    unfold dist2
    have hij : (i = 0 ∧ j = 1) ∨ (i = 1 ∧ j = 0) := by omega
    rcases hij with ⟨rfl, rfl⟩ | ⟨rfl, rfl⟩ <;> simp
  rw [← dist2_eq, this] at c7
  norm_num [zcfgD] at c7

/-- **C112 fails**: solve once with both paths ending at the same point, then again with the endpoints a distance of 1
apart: no solution is extracted, although both are isolated. -/
theorem C112_refuted : ¬ C112_full ∧
    nonsingular id (solve 2 stayEnv zcfgD (solve 2 (meetEnv .success) zcfgD (ZSt.init 1))) = [] ∧
    isolatedList 2 zcfgD.postTol id (solve 2 stayEnv zcfgD (solve 2 (meetEnv .success) zcfgD (ZSt.init 1))) =
      [fun _ => 0, fun _ => 1] := by
  classical
  have hr := Reach.solve (meetEnv .success) zcfgD (ZSt.init 1) (Reach.init (N := 2))
  have h1 : nonsingular id (solve 2 stayEnv zcfgD (solve 2 (meetEnv .success) zcfgD (ZSt.init 1))) = [] := by
    unfold nonsingular
    rw [List.filterMap_eq_nil_iff]
    intro i hi
    obtain ⟨s', -, e, h1, -⟩ := solve_spec (N := 2) stayEnv zcfgD _ (reach_ok hr).1
    rw [List.mem_range, e, h1.sols] at hi
    obtain ⟨m', m0, k1, k2, k3⟩ := (C55_partial (N := 2) stayEnv zcfgD).2.1 (ZSt.init 1) (meetEnv .success) zcfgD
      Reach.init i hi
    obtain ⟨m1, -, g1, g2, -⟩ := C55_refuted.2 i hi
    rw [k1] at g1; cases g1
    rw [k2, (stay_apart _ hr i hi).2]
    dsimp only
    rw [if_neg]
    rintro ⟨-, hc⟩
    rw [k3, g2] at hc
    omega
  have h2 : isolatedList 2 zcfgD.postTol id (solve 2 stayEnv zcfgD (solve 2 (meetEnv .success) zcfgD (ZSt.init 1))) =
      [fun _ => 0, fun _ => 1] := by
    unfold isolatedList
    have r2 : List.range 2 = [0, 1] := by decide
    have a := stay_apart _ hr 0 (by norm_num)
    have b := stay_apart _ hr 1 (by norm_num)
    rw [r2, List.filterMap_cons, List.filterMap_cons, if_pos a.1, if_pos b.1, a.2, b.2]
    simp
  refine ⟨fun h => ?_, h1, h2⟩
  have := h 1 2 _ id stayEnv zcfgD _ hr
  rw [h1, h2] at this
  cases this

/-- Two paths with different endpoints: both are extracted after one solve. -/
example : nonsingular id (solve 2 stayEnv zcfgD (ZSt.init 1)) = [fun _ => 0, fun _ => 1] := by
  classical
  rw [(C112_partial id stayEnv zcfgD).1]
  unfold isolatedList
  have r2 : List.range 2 = [0, 1] := by decide
  have a := stay_apart _ Reach.init 0 (by norm_num)
  have b := stay_apart _ Reach.init 1 (by norm_num)
  rw [r2, List.filterMap_cons, List.filterMap_cons, if_pos a.1, if_pos b.1, a.2, b.2]
  simp

/-! ### C113 -/

/-- **C113, full statement**: after any call of `Solve`, extracting all solutions gives one point per start point. -/
def C113_full : Prop :=
  ∀ (d N : ℕ) (β : Type) (dehom : Pt d → β) (E : ZEnv d) (cfg : ZCfg) (s : ZSt d), Reach N s →
    ∃ L, allSolutions dehom (solve N E cfg s) = some L ∧ L.length = N

theorem stored_solve {N : ℕ} (E : ZEnv d) (cfg : ZCfg) (s : ZSt d) (h : Reach N s) (i : ℕ) (hi : i < N) :
    stored (solve N E cfg s) i = true ↔
      stored s i = true ∨ ∃ m, (solve N E cfg s).md[i]? = some m ∧ m.pre = .success := by
  obtain ⟨s', rounds, e, -, -, h4, h5, h6, h7, h8⟩ := C56 E cfg s h
  rw [e]
  obtain ⟨m, b, x, g1, g2, g3, -, g5, -, -⟩ := h8 i hi
  have hretr : ∀ (rounds : List (List ℕ)) (t : ℝ), (retracks (d := d) cfg.shrink t rounds).any
      (isEg i) = false := by
    intro rounds
    induction rounds with
    | nil => intro t; simp [retracks]
    | cons L rounds ih =>
      intro t
      simp only [retracks, List.any_append, ih, Bool.or_false]
      simp [List.any_map, isEg]
  have hbef : ((List.range N).map (fun i => (Ev.before i cfg.newtonBefore : Ev d))).any
      (isEg i) = false := by
    simp [List.any_map, isEg]
  have heg : ((List.range N).filterMap (egEvent s'.bdry)).any
      (isEg i) = true ↔ b.code = .success := by
    rw [List.any_eq_true]
    constructor
    · rintro ⟨ev, hev, hm⟩
      obtain ⟨j, hj, hje⟩ := List.mem_filterMap.1 hev
      unfold egEvent at hje
      cases hb : s'.bdry[j]? with
      | none => rw [hb] at hje; cases hje
      | some b' =>
        rw [hb] at hje
        dsimp only at hje
        by_cases hc : b'.code = .success
        · rw [if_pos hc] at hje
          cases hje
          simp only [isEg, beq_iff_eq] at hm
          subst hm
          rw [g2] at hb; cases hb
          exact hc
        · rw [if_neg hc] at hje; cases hje
    · intro hc
      refine ⟨.endgame i b.pt, List.mem_filterMap.2 ⟨i, List.mem_range.2 hi, ?_⟩, by simp [isEg]⟩
      unfold egEvent
      rw [g2]
      dsimp only
      rw [if_pos hc]
  unfold stored
  rw [h4, List.any_append, List.any_append, List.any_append, hbef, hretr, Bool.or_false, Bool.or_false,
    Bool.or_eq_true, heg]
  rw [g1]
  constructor
  · rintro (a | a)
    · exact .inl a
    · exact .inr ⟨m, rfl, by rw [g5]; exact a⟩
  · rintro (a | ⟨m', a, b⟩)
    · exact .inl a
    · cases a; exact .inr (by rw [← g5]; exact b)

/-- **C113, partial**: extraction of all solutions succeeds exactly when every path has reached the endgame boundary in
this or in an earlier call of `Solve`, and then gives one point per start point, in order, the `i`-th being the stored
endpoint of path `i`.  Missing: it throws as soon as one path never got that far. -/
theorem C113_partial {N : ℕ} (dehom : Pt d → β) (E : ZEnv d) (cfg : ZCfg) (s : ZSt d) (h : Reach N s) :
    ((∀ i, i < N → stored s i = true ∨ ∃ m, (solve N E cfg s).md[i]? = some m ∧ m.pre = .success) →
      ∃ L, allSolutions dehom (solve N E cfg s) = some L ∧ L.length = N ∧
        ∀ i, i < N → ∃ x, (solve N E cfg s).sols[i]? = some x ∧ L[i]? = some (dehom x)) ∧
    ((∃ i, i < N ∧ stored s i = false ∧ ∃ m, (solve N E cfg s).md[i]? = some m ∧ m.pre ≠ .success) →
      allSolutions dehom (solve N E cfg s) = none) := by
  have hst := fun i hi => stored_solve (N := N) E cfg s h i hi
  obtain ⟨s', rounds, e, -, -, -, -, -, h7, h8⟩ := C56 E cfg s h
  rw [e] at hst ⊢
  have gen : ∀ n, n ≤ N → (∀ i, i < n → stored s' i = true) →
      ∃ L, ((List.range n).mapM fun i => match s'.sols[i]? with
        | some x => if stored s' i then some (dehom x) else none | none => none) = some L ∧ L.length = n ∧
        ∀ i, i < n → ∃ x, s'.sols[i]? = some x ∧ L[i]? = some (dehom x) := by
    intro n
    induction n with
    | zero => intro _ _; exact ⟨[], rfl, rfl, by omega⟩
    | succ n ih =>
      intro hn ha
      obtain ⟨L, l1, l2, l3⟩ := ih (by omega) fun i hi => ha i (by omega)
      have hx : n < s'.sols.length := by omega
      refine ⟨L ++ [dehom s'.sols[n]], ?_, by simp [l2], ?_⟩
      · rw [List.range_succ, List.mapM_append, l1]
        simp [List.getElem?_eq_getElem hx, ha n (by omega)]
      · intro i hi
        by_cases hin : i = n
        · subst hin
          exact ⟨s'.sols[i], List.getElem?_eq_getElem hx, by rw [List.getElem?_append_right (by omega), l2]; simp⟩
        · obtain ⟨x, x1, x2⟩ := l3 i (by omega)
          exact ⟨x, x1, by rw [List.getElem?_append_left (by omega)]; exact x2⟩
  constructor
  · intro ha
    unfold allSolutions
    rw [h7]
    exact gen N le_rfl fun i hi => (hst i hi).2 (ha i hi)
  · rintro ⟨i, hi, hs, m, hm, hp⟩
    have hns : stored s' i = false := by
      cases hb : stored s' i with
      | false => rfl
      | true =>
        rcases (hst i hi).1 hb with h1 | ⟨m', h1, h2⟩
        · rw [hs] at h1; cases h1
        · rw [hm] at h1; cases h1; exact absurd h2 hp
    unfold allSolutions
    rw [h7]
    have bad : ∀ L : List ℕ, i ∈ L → (L.mapM fun i => match s'.sols[i]? with
        | some x => if stored s' i then some (dehom x) else none | none => none) = none := by
      intro L
      induction L with
      | nil => simp
      | cons a L ih =>
        intro hmem
        rw [List.mapM_cons]
        by_cases hai : a = i
        · subst hai
          cases s'.sols[a]? <;> simp [hns]
        · have := ih (by rcases List.mem_cons.1 hmem with h' | h'; exact absurd h'.symm hai; exact h')
          rw [this]
          cases (match s'.sols[a]? with
            | some x => if stored s' a then some (dehom x) else none | none => none) <;> rfl
    exact bad _ (List.mem_range.2 hi)

/-- **C113 fails**: when the tracker fails on a path of a first solve, nothing can be extracted. -/
theorem C113_refuted : ¬ C113_full ∧
    ∀ (β : Type) (dehom : Pt 1 → β),
      allSolutions dehom (solve 2 (meetEnv .minStepSizeReached) zcfgD (ZSt.init 1)) = none := by
  have key : ∀ (β : Type) (dehom : Pt 1 → β),
      allSolutions dehom (solve 2 (meetEnv .minStepSizeReached) zcfgD (ZSt.init 1)) = none := by
    intro β dehom
    refine (C113_partial (N := 2) dehom _ zcfgD _ Reach.init).2 ⟨0, by norm_num, rfl, ?_⟩
    obtain ⟨s', rounds, e, -, -, -, -, -, -, hall⟩ := C56 (N := 2) (meetEnv .minStepSizeReached) zcfgD _ Reach.init
    obtain ⟨m, b, x, h1, -, -, -, h4, ⟨_, _, h6⟩, -⟩ := hall 0 (by norm_num)
    have hb : b.code = .minStepSizeReached := (congrArg Prod.fst h6).symm
    exact ⟨m, by rw [e]; exact h1, by rw [h4, hb]; simp⟩
  refine ⟨fun h => ?_, key⟩
  obtain ⟨L, h1, -⟩ := h 1 2 _ id (meetEnv .minStepSizeReached) zcfgD _ Reach.init
  rw [key] at h1
  cases h1

/-- With every path successful, both points are extracted. -/
example : ∃ L, allSolutions id (solve 2 stayEnv zcfgD (ZSt.init 1)) = some L ∧ L.length = 2 := by
  obtain ⟨L, h1, h2, -⟩ := (C113_partial (N := 2) id stayEnv zcfgD _ Reach.init).1 (by
    intro i hi
    right
    obtain ⟨s', rounds, e, -, -, -, -, -, -, hall⟩ := C56 (N := 2) stayEnv zcfgD _ Reach.init
    obtain ⟨m, b, x, h1, -, -, -, h4, ⟨_, _, h6⟩, -⟩ := hall i hi
    exact ⟨m, by rw [e]; exact h1, by rw [h4]; exact (congrArg Prod.fst h6).symm⟩)
  exact ⟨L, h1, h2⟩

/-! ### C114 -/

/-- States after any number of calls of `Solve` with endgames that never answer `NeverStarted`. -/
inductive ReachE (N : ℕ) : ZSt d → Prop
  | init : ReachE N (ZSt.init d)
  | solve (E : ZEnv d) (cfg : ZCfg) (s : ZSt d) (hE : ∀ k x, (E.endgame k x).1 ≠ .neverStarted) :
      ReachE N s → ReachE N (solve N E cfg s)

theorem ReachE.reach {N : ℕ} {s : ZSt d} (h : ReachE N s) : Reach N s := by
  induction h with
  | init => exact .init
  | solve E cfg s _ _ ih => exact .solve E cfg s ih

/-- **C114**: after any number of calls of `Solve`, the report prints, in order and once each, exactly the paths for which
some endgame run stored an endpoint; it never prints an endpoint that does not exist. -/
theorem C114 {N : ℕ} (s : ZSt d) (h : ReachE N s) :
    (printed s).Pairwise (· < ·) ∧
    ∀ i, i ∈ printed s ↔ i < N ∧ ∃ x, Ev.endgame i x ∈ s.log := by
  have hst : ∀ (s : ZSt d) i, stored s i = true ↔ ∃ x, Ev.endgame i x ∈ s.log := by
    intro s i
    unfold stored
    rw [List.any_eq_true]
    constructor
    · rintro ⟨ev, h1, h2⟩
      cases ev with
      | before j t => cases h2
      | endgame j x =>
        simp only [isEg, beq_iff_eq] at h2
        subst h2
        exact ⟨x, h1⟩
    · rintro ⟨x, h1⟩
      exact ⟨_, h1, by simp [isEg]⟩
  refine ⟨List.Pairwise.filter _ List.pairwise_lt_range, ?_⟩
  have main : (s = ZSt.init d ∨ s.sols.length = N) ∧
      ∀ i, i < N → (stored s i = true ↔ ∃ m, s.md[i]? = some m ∧ m.post ≠ .neverStarted) := by
    induction h with
    | init =>
      refine ⟨.inl rfl, ?_⟩
      intro i _
      simp [stored, ZSt.init]
    | solve E cfg s hE hs ih =>
      obtain ⟨s', rounds, e, h1, -, -, -, h5, h6⟩ := solve_spec (N := N) E cfg s (reach_ok hs.reach).1
      refine ⟨.inr (by rw [e, h1.sols]), ?_⟩
      intro i hi
      rw [stored_solve E cfg s hs.reach i hi, e, ih.2 i hi]
      obtain ⟨m, m0, g1, g2, -, g4⟩ := h6 i hi
      obtain ⟨⟨mt, bt, t1, t2, -, t4, -⟩, mf, bf, x, f1, f2, -, f4⟩ := h5 i hi
      rw [g1] at t1 f1; cases t1; cases f1
      rw [t2] at f2; cases f2
      rw [g1]
      by_cases hp : m.pre = .success
      · obtain ⟨k, hk⟩ := f4 (by rw [← t4]; exact hp)
        have := hE k bt.pt
        rw [hk] at this
        constructor
        · intro _; exact ⟨m, rfl, this⟩
        · intro _; exact .inr ⟨m, rfl, hp⟩
      · have hg4 := g4 hp
        have hold : (∃ m, s.md[i]? = some m ∧ m.post ≠ .neverStarted) ↔ m0.post ≠ .neverStarted := by
          rcases (reach_ok hs.reach).2 with hinit | hsz
          · subst hinit
            have : (resize N Meta.default (ZSt.init d).md)[i]? = some Meta.default := by
              simp [resize, ZSt.init, hi]
            rw [this] at g2; cases g2
            simp [ZSt.init, Meta.default]
          · rw [resize_of_length _ _ _ hsz.md] at g2
            rw [g2]
            simp
        rw [hold]
        constructor
        · rintro (a | ⟨m', a, b⟩)
          · exact ⟨m, rfl, by rw [hg4]; exact a⟩
          · cases a; exact absurd b hp
        · rintro ⟨m', a, b⟩
          cases a
          rw [hg4] at b
          exact .inl b
  intro i
  rw [← hst]
  unfold printed
  rw [List.mem_filter, List.mem_range]
  constructor
  · rintro ⟨h1, h2⟩
    have hN : i < N := by
      rcases main.1 with h3 | h3
      · subst h3; simp [ZSt.init] at h1
      · omega
    refine ⟨hN, (main.2 i hN).2 ?_⟩
    cases hm : s.md[i]? with
    | none => rw [hm] at h2; cases h2
    | some m => rw [hm] at h2; exact ⟨m, rfl, by simpa using h2⟩
  · rintro ⟨hN, h2⟩
    obtain ⟨m, hm, hne⟩ := (main.2 i hN).1 h2
    constructor
    · rcases main.1 with h3 | h3
      · subst h3; simp [ZSt.init] at hm
      · omega
    · rw [hm]; simpa using hne

/-- After a solve in which both paths succeed, both are printed. -/
example : 1 ∈ printed (solve 2 stayEnv zcfgD (ZSt.init 1)) := by
  rw [(C114 _ (.solve stayEnv zcfgD _ (by intro k x; simp [stayEnv]) (.init (N := 2)))).2]
  refine ⟨by norm_num, ?_⟩
  have h := (stored_solve (N := 2) stayEnv zcfgD _ Reach.init 1 (by norm_num)).2 (.inr (by
    obtain ⟨s', rounds, e, -, -, -, -, -, -, hall⟩ := C56 (N := 2) stayEnv zcfgD _ Reach.init
    obtain ⟨m, b, x, h1, -, -, -, h4, ⟨_, _, h6⟩, -⟩ := hall 1 (by norm_num)
    exact ⟨m, by rw [e]; exact h1, by rw [h4]; exact (congrArg Prod.fst h6).symm⟩))
  unfold stored at h
  rw [List.any_eq_true] at h
  obtain ⟨ev, h1, h2⟩ := h
  cases ev with
  | before j t => cases h2
  | endgame j x =>
    simp only [isEg, beq_iff_eq] at h2
    subst h2
    exact ⟨x, h1⟩

end B2.Alg
