/-
Lemmas about the solver's phases.
-/
import Verif.Alg.ZeroDim
import Verif.Alg.MidpathProof
import Mathlib.Data.Finset.Card
import Mathlib.Data.Finset.Range
import Mathlib.Data.List.Nodup
import Mathlib.Tactic.Linarith

set_option linter.unusedSectionVars false

namespace B2.Alg
open B2.Track (Code)

variable {d : ℕ}

/-- The checker holds records of paths below `N` only. -/
def CheckerOk (N : ℕ) (c : Checker) : Prop :=
  ∃ ps, Agree ps c ∧ ∀ p ∈ ps, p.1 < N ∧ p.2.1 < N

theorem checkerOk_fresh (N : ℕ) : CheckerOk N Checker.fresh := ⟨[], fresh_agree, by simp⟩

theorem checkerOk_check {N : ℕ} {c : Checker} (h : CheckerOk N c) (tol : ℝ) (data : List (Bdry d)) (start : ℕ → Pt d)
    (hl : data.length ≤ N) : CheckerOk N (check tol data start c) := by
  obtain ⟨ps, h1, h2⟩ := h
  refine ⟨_, check_agree tol data start h1, ?_⟩
  rintro ⟨i, j, b⟩ hp
  rcases List.mem_append.1 hp with hp | hp
  · exact h2 _ hp
  · rw [mem_crossPairs] at hp
    dsimp only
    omega

theorem checkerOk_rerun {N : ℕ} {c : Checker} (h : CheckerOk N c) :
    ((c.crossed.filter Crossed.rerun).map Crossed.index).Nodup ∧
    ∀ i ∈ (c.crossed.filter Crossed.rerun).map Crossed.index, i < N := by
  obtain ⟨ps, h1, h2⟩ := h
  constructor
  · exact List.Nodup.sublist (List.Sublist.map _ List.filter_sublist) h1.nodup
  · intro i hi
    rw [List.mem_map] at hi
    obtain ⟨v, hv, rfl⟩ := hi
    have hv' := (List.mem_filter.1 hv).1
    have hs : (c.crossed.find? fun w => w.index == v.index).isSome = true := by
      rw [List.find?_isSome]; exact ⟨v, hv', by simp⟩
    rw [h1.find] at hs
    unfold specRec at hs
    split at hs
    · cases hs
    · rename_i l hl
      cases hq : ps.filterMap (partner v.index) with
      | nil => exact absurd hq hl
      | cons q qs =>
        have : q ∈ ps.filterMap (partner v.index) := by rw [hq]; simp
        rw [List.mem_filterMap] at this
        obtain ⟨p, hp, he⟩ := this
        obtain ⟨h3, h4⟩ := h2 p hp
        unfold partner at he
        split_ifs at he with g1 g2
        · rw [← g1]; exact h3
        · rw [← g2]; exact h4

/-- All lists have the right length. -/
structure Sized (N : ℕ) (s : ZSt d) : Prop where
  md : s.md.length = N
  bdry : s.bdry.length = N
  sols : s.sols.length = N
  chk : CheckerOk N s.checker

/-- The record of path `i` is what the tracker returned at some call. -/
def Tracked (E : ZEnv d) (s : ZSt d) (i : ℕ) : Prop :=
  ∃ m b, s.md[i]? = some m ∧ s.bdry[i]? = some b ∧ m.pathIndex = i ∧ m.pre = b.code ∧
    ∃ k tol, E.track k tol (E.start i) = (b.code, b.pt)

/-- What tracking before the endgame leaves alone. -/
structure Keep (s s' : ZSt d) : Prop where
  core : s'.md.map (fun m => (m.post, m.mult)) = s.md.map (fun m => (m.post, m.mult))
  sols : s'.sols = s.sols

theorem Keep.refl (s : ZSt d) : Keep s s := ⟨rfl, rfl⟩
theorem Keep.trans {a b c : ZSt d} (h1 : Keep a b) (h2 : Keep b c) : Keep a c :=
  ⟨h2.core.trans h1.core, h2.sols.trans h1.sols⟩

theorem map_modify_same {α β : Type} (f : α → β) (g : α → α) (h : ∀ a, f (g a) = f a) :
    ∀ (l : List α) (i : ℕ), (l.modify i g).map f = l.map f := by
  intro l
  induction l with
  | nil => intro i; cases i <;> simp
  | cons a l ih =>
    intro i
    cases i with
    | zero => simp [h]
    | succ i => simp [ih]

theorem trackSingle_spec {N : ℕ} (E : ZEnv d) (tol : ℝ) (s : ZSt d) (i : ℕ) (h : Sized N s) (hi : i < N) :
    Sized N (trackSingle E tol s i) ∧ Keep s (trackSingle E tol s i) ∧
    (trackSingle E tol s i).checker = s.checker ∧ (trackSingle E tol s i).tol = s.tol ∧
    (trackSingle E tol s i).log = s.log ++ [.before i tol] ∧
    Tracked E (trackSingle E tol s i) i ∧ ∀ j, Tracked E s j → Tracked E (trackSingle E tol s i) j := by
  have hT : Tracked E (trackSingle E tol s i) i := by
    have h1 : i < s.md.length := by rw [h.md]; exact hi
    have h2 : i < s.bdry.length := by rw [h.bdry]; exact hi
    refine ⟨{ s.md[i] with pathIndex := i, pre := (E.track s.k tol (E.start i)).1 },
      ⟨(E.track s.k tol (E.start i)).2, (E.track s.k tol (E.start i)).1⟩, ?_, ?_, rfl, rfl, s.k, tol, rfl⟩
    · simp [trackSingle, List.getElem?_modify, List.getElem?_eq_getElem h1]
    · simp [trackSingle, List.getElem?_set, h2]
  refine ⟨⟨?_, ?_, ?_, ?_⟩, ⟨?_, rfl⟩, rfl, rfl, rfl, hT, ?_⟩
  · simp [trackSingle, h.md]
  · simp [trackSingle, h.bdry]
  · simp [trackSingle, h.sols]
  · exact h.chk
  · exact map_modify_same (fun m : Meta => (m.post, m.mult)) _ (by intro m; rfl) _ _
  · intro j hj
    by_cases hij : i = j
    · rw [← hij]; exact hT
    · obtain ⟨m, b, h1, h2, h3, h4, h5⟩ := hj
      refine ⟨m, b, ?_, ?_, h3, h4, h5⟩
      · simp [trackSingle, List.getElem?_modify, hij, h1]
      · simp [trackSingle, List.getElem?_set, hij, h2]

theorem trackMany_spec {N : ℕ} (E : ZEnv d) (tol : ℝ) : ∀ (L : List ℕ) (s : ZSt d), Sized N s → (∀ i ∈ L, i < N) →
    ∃ s', L.foldl (trackSingle E tol) s = s' ∧ Sized N s' ∧ Keep s s' ∧ s'.checker = s.checker ∧ s'.tol = s.tol ∧
      s'.log = s.log ++ L.map (fun i => .before i tol) ∧
      (∀ i ∈ L, Tracked E s' i) ∧ ∀ j, Tracked E s j → Tracked E s' j := by
  intro L
  induction L with
  | nil => intro s h _; exact ⟨s, rfl, h, Keep.refl s, rfl, rfl, by simp, by simp, fun _ h => h⟩
  | cons i L ih =>
    intro s h hL
    obtain ⟨h1, h2, h3, h4, h5, h6, h7⟩ := trackSingle_spec E tol s i h (hL i (by simp))
    obtain ⟨s', e, g1, g2, g3, g4, g5, g6, g7⟩ := ih (trackSingle E tol s i) h1 fun j hj => hL j (by simp [hj])
    refine ⟨s', by rw [List.foldl_cons, e], g1, h2.trans g2, g3.trans h3, g4.trans h4, ?_, ?_, fun j hj => g7 j (h7 j hj)⟩
    · rw [g5, h5]; simp
    · intro j hj
      rcases List.mem_cons.1 hj with rfl | hj
      · exact g7 _ h6
      · exact g6 j hj

/-- The calls of successive rounds of re-tracking, each with a smaller tolerance. -/
noncomputable def retracks (shrink : ℝ) : ℝ → List (List ℕ) → List (Ev d)
  | _, [] => []
  | tol, L :: Ls => L.map (fun i => .before i (tol * shrink)) ++ retracks shrink (tol * shrink) Ls

theorem resolveLoop_spec {N : ℕ} (E : ZEnv d) (cfg : ZCfg) : ∀ n (s : ZSt d), Sized N s → (∀ i, i < N → Tracked E s i) →
    ∃ (s' : ZSt d) (rounds : List (List ℕ)), resolveLoop E cfg n s = s' ∧ Sized N s' ∧ Keep s s' ∧
      (∀ i, i < N → Tracked E s' i) ∧ rounds.length ≤ n ∧ (∀ L ∈ rounds, L.Nodup ∧ ∀ i ∈ L, i < N) ∧
      s'.log = s.log ++ retracks cfg.shrink s.tol rounds := by
  intro n
  induction n with
  | zero => intro s h hT; exact ⟨s, [], rfl, h, Keep.refl s, hT, by simp, by simp, by simp [retracks]⟩
  | succ n ih =>
    intro s h hT
    rw [resolveLoop]
    split_ifs with hp
    · exact ⟨s, [], rfl, h, Keep.refl s, hT, by simp, by simp, by simp [retracks]⟩
    · obtain ⟨hr1, hr2⟩ := checkerOk_rerun h.chk
      obtain ⟨s1, e, g1, g2, g3, g4, g5, g6, g7⟩ := trackMany_spec E (s.tol * cfg.shrink) _
        { s with tol := s.tol * cfg.shrink } ⟨h.md, h.bdry, h.sols, h.chk⟩ hr2
      have hres : resolve E cfg s = s1 := e
      rw [hres]
      obtain ⟨s', rounds, e', k1, k2, k3, k4, k5, k6⟩ := ih (recheck E cfg s1)
        ⟨g1.md, g1.bdry, g1.sols, checkerOk_check g1.chk _ _ _ (le_of_eq g1.bdry)⟩ (fun i hi => g7 i (hT i hi))
      refine ⟨s', ((s.checker.crossed.filter Crossed.rerun).map Crossed.index) :: rounds, e', k1, ⟨k2.core.trans g2.core, k2.sols.trans g2.sols⟩, k3,
        by simp only [List.length_cons]; omega, ?_, ?_⟩
      · intro L hL
        rcases List.mem_cons.1 hL with rfl | hL
        · exact ⟨hr1, hr2⟩
        · exact k5 L hL
      · rw [k6]
        show s1.log ++ _ = _
        rw [g5]
        have : (recheck E cfg s1).tol = s.tol * cfg.shrink := g4
        rw [this, retracks, ← List.append_assoc]

/-- The endgame calls: for every path that arrived, in order, with its boundary point. -/
def egEvent (bdry : List (Bdry d)) (i : ℕ) : Option (Ev d) :=
  match bdry[i]? with
  | some b => if b.code = .success then some (.endgame i b.pt) else none
  | none => none

/-- The result of the endgame for path `i`. -/
def Finished (E : ZEnv d) (s : ZSt d) (i : ℕ) : Prop :=
  ∃ m b x, s.md[i]? = some m ∧ s.bdry[i]? = some b ∧ s.sols[i]? = some x ∧
    (b.code = .success → ∃ k, E.endgame k b.pt = (m.post, x))

theorem duringSingle_spec {N : ℕ} (E : ZEnv d) (s : ZSt d) (i : ℕ) (h : Sized N s) (hi : i < N)
    (hT : ∀ j, j < N → Tracked E s j) :
    ∃ s', duringSingle E s i = s' ∧ Sized N s' ∧ (∀ j, j < N → Tracked E s' j) ∧ s'.bdry = s.bdry ∧
      s'.log = s.log ++ (egEvent s.bdry i).toList ∧
      s'.md.map (fun m => (m.pre, m.mult)) = s.md.map (fun m => (m.pre, m.mult)) ∧
      Finished E s' i ∧ (∀ j, j ≠ i → s'.md[j]? = s.md[j]? ∧ s'.sols[j]? = s.sols[j]?) ∧
      (∀ m, s.md[i]? = some m → m.pre ≠ .success → s'.md[i]? = s.md[i]? ∧ s'.sols[i]? = s.sols[i]?) := by
  obtain ⟨m, b, h1, h2, h3, h4, h5⟩ := hT i hi
  have hx : i < s.sols.length := by rw [h.sols]; exact hi
  unfold duringSingle
  rw [h1, h2]
  dsimp only
  by_cases hp : m.pre = .success
  · rw [if_neg (by simpa using hp)]
    refine ⟨_, rfl, ⟨by simp [h.md], h.bdry, by simp [h.sols], h.chk⟩, ?_, rfl, ?_, ?_, ?_, ?_, ?_⟩
    · intro j hj
      obtain ⟨m', b', k1, k2, k3, k4, k5⟩ := hT j hj
      by_cases hij : i = j
      · subst hij
        rw [h1] at k1; cases k1
        refine ⟨{ m with post := (E.endgame s.k b.pt).1 }, b', ?_, k2, k3, k4, k5⟩
        simp [List.getElem?_modify, h1]
      · exact ⟨m', b', by simp [List.getElem?_modify, hij, k1], k2, k3, k4, k5⟩
    · simp only [egEvent, h2]
      rw [if_pos (by rw [← h4]; exact hp)]
      rfl
    · exact map_modify_same (fun m : Meta => (m.pre, m.mult)) _ (by intro m; rfl) _ _
    · refine ⟨{ m with post := (E.endgame s.k b.pt).1 }, b, (E.endgame s.k b.pt).2, ?_, h2, ?_, fun _ => ⟨s.k, rfl⟩⟩
      · simp [List.getElem?_modify, h1]
      · simp [List.getElem?_set, hx]
    · intro j hj
      exact ⟨by simp [List.getElem?_modify, Ne.symm hj], by simp [List.getElem?_set, Ne.symm hj]⟩
    · intro m' hm' hne
      cases hm'
      exact absurd hp hne
  · rw [if_pos (by simpa using hp)]
    refine ⟨s, rfl, h, hT, rfl, ?_, rfl, ?_, fun _ _ => ⟨rfl, rfl⟩, fun _ _ _ => ⟨h1, rfl⟩⟩
    · simp only [egEvent, h2]
      rw [if_neg (by rw [← h4]; exact hp)]
      simp
    · exact ⟨m, b, s.sols[i], h1, h2, List.getElem?_eq_getElem hx, fun hc => absurd (h4.trans hc) hp⟩

theorem during_spec {N : ℕ} (E : ZEnv d) : ∀ (L : List ℕ) (s : ZSt d), L.Nodup → Sized N s → (∀ i ∈ L, i < N) →
    (∀ j, j < N → Tracked E s j) →
    ∃ s', L.foldl (duringSingle E) s = s' ∧ Sized N s' ∧ (∀ j, j < N → Tracked E s' j) ∧ s'.bdry = s.bdry ∧
      s'.log = s.log ++ L.filterMap (egEvent s.bdry) ∧
      s'.md.map (fun m => (m.pre, m.mult)) = s.md.map (fun m => (m.pre, m.mult)) ∧
      (∀ i ∈ L, Finished E s' i) ∧ (∀ j : ℕ, j ∉ L → s'.md[j]? = s.md[j]? ∧ s'.sols[j]? = s.sols[j]?) ∧
      (∀ (j : ℕ) (m : Meta), s.md[j]? = some m → m.pre ≠ .success → s'.md[j]? = s.md[j]? ∧ s'.sols[j]? = s.sols[j]?) := by
  intro L
  induction L with
  | nil => intro s _ h _ hT; exact ⟨s, rfl, h, hT, rfl, by simp, rfl, by simp, fun _ _ => ⟨rfl, rfl⟩, fun _ _ _ _ => ⟨rfl, rfl⟩⟩
  | cons i L ih =>
    intro s hn h hL hT
    rw [List.nodup_cons] at hn
    obtain ⟨s1, e1, a1, a2, a3, a4, a5, a6, a7, a8⟩ := duringSingle_spec E s i h (hL i (by simp)) hT
    obtain ⟨s2, e2, b1, b2, b3, b4, b5, b6, b7, b8⟩ := ih s1 hn.2 a1 (fun j hj => hL j (by simp [hj])) a2
    refine ⟨s2, by rw [List.foldl_cons, e1, e2], b1, b2, b3.trans a3, ?_, b5.trans a5, ?_, ?_, ?_⟩
    · rw [b4, a4, a3, List.append_assoc, List.filterMap_cons]
      congr 1
      cases egEvent s.bdry i <;> simp
    · intro j hj
      rcases List.mem_cons.1 hj with rfl | hj
      · obtain ⟨m, b, x, c1, c2, c3, c4⟩ := a6
        obtain ⟨d1, d2⟩ := b7 j hn.1
        exact ⟨m, b, x, d1.trans c1, by rw [b3]; exact c2, d2.trans c3, c4⟩
      · exact b6 j hj
    · intro j hj
      simp only [List.mem_cons, not_or] at hj
      obtain ⟨d1, d2⟩ := b7 j hj.2
      obtain ⟨c1, c2⟩ := a7 j hj.1
      exact ⟨d1.trans c1, d2.trans c2⟩
    · intro j m hm hne
      have hc : s1.md[j]? = s.md[j]? ∧ s1.sols[j]? = s.sols[j]? := by
        by_cases hij : j = i
        · subst hij; exact a8 m hm hne
        · exact a7 j hij
      obtain ⟨d1, d2⟩ := b8 j m (hc.1.trans hm) hne
      exact ⟨d1.trans hc.1, d2.trans hc.2⟩

/-! ### Multiplicities -/

/-- The pairs `i < j < N` with `R i j`, in the order of the loops. -/
def pairsOf (N : ℕ) (R : ℕ → ℕ → Bool) : List (ℕ × ℕ) :=
  (List.range N).flatMap fun i => ((List.range' (i + 1) (N - (i + 1))).filter (R i)).map fun j => (i, j)

theorem mem_pairsOf (N : ℕ) (R : ℕ → ℕ → Bool) (i j : ℕ) : (i, j) ∈ pairsOf N R ↔ i < j ∧ j < N ∧ R i j = true := by
  unfold pairsOf
  simp only [List.mem_flatMap, List.mem_range, List.mem_map, List.mem_filter, List.mem_range'_1, Prod.mk.injEq]
  constructor
  · rintro ⟨i', h1, j', ⟨⟨h2, h3⟩, h4⟩, rfl, rfl⟩
    exact ⟨by omega, by omega, h4⟩
  · rintro ⟨h1, h2, h3⟩
    exact ⟨i, by omega, j, ⟨⟨by omega, by omega⟩, h3⟩, rfl, rfl⟩

theorem nodup_pairsOf (N : ℕ) (R : ℕ → ℕ → Bool) : (pairsOf N R).Nodup := by
  unfold pairsOf
  rw [List.nodup_flatMap]
  constructor
  · intro i _
    exact ((List.nodup_range').filter _).map fun a b h => by simpa using h
  · refine List.nodup_range.imp fun {a b} hab => ?_
    rw [Function.onFun, List.disjoint_left]
    rintro ⟨i, j⟩ h1 h2
    simp only [List.mem_map, Prod.mk.injEq] at h1 h2
    obtain ⟨_, _, rfl, _⟩ := h1
    obtain ⟨_, _, rfl, _⟩ := h2
    exact hab rfl

/-- The other end. -/
def other (k : ℕ) (p : ℕ × ℕ) : Option ℕ := if p.1 = k then some p.2 else if p.2 = k then some p.1 else none

theorem other_length (N : ℕ) (R : ℕ → ℕ → Bool) (hR : ∀ i j, R i j = R j i) (k : ℕ) (hk : k < N) :
    ((pairsOf N R).filterMap (other k)).length =
      ((Finset.range N).filter fun j => j ≠ k ∧ R k j = true).card := by
  have hn : ((pairsOf N R).filterMap (other k)).Nodup := by
    unfold List.Nodup
    rw [List.pairwise_filterMap]
    refine (nodup_pairsOf N R).imp_of_mem ?_
    rintro ⟨a, b⟩ ⟨a', b'⟩ h1 h2 hne x hx y hy hxy
    rw [mem_pairsOf] at h1 h2
    unfold other at hx hy
    dsimp only at hx hy
    subst hxy
    apply hne
    split_ifs at hx hy <;> simp only [Option.some.injEq] at hx hy <;> simp only [Prod.mk.injEq] <;> omega
  rw [← List.toFinset_card_of_nodup hn]
  congr 1
  ext j
  rw [List.mem_toFinset, List.mem_filterMap, Finset.mem_filter, Finset.mem_range]
  constructor
  · rintro ⟨⟨a, b⟩, h1, h2⟩
    rw [mem_pairsOf] at h1
    unfold other at h2
    dsimp only at h2
    split_ifs at h2 with g1 g2
    · simp only [Option.some.injEq] at h2
      subst h2; subst g1
      exact ⟨h1.2.1, by omega, h1.2.2⟩
    · simp only [Option.some.injEq] at h2
      subst h2; subst g2
      exact ⟨by omega, by omega, by rw [hR]; exact h1.2.2⟩
  · rintro ⟨h1, h2, h3⟩
    rcases Nat.lt_or_gt_of_ne h2 with h | h
    · exact ⟨(j, k), (mem_pairsOf _ _ _ _).2 ⟨h, hk, by rw [hR]; exact h3⟩, by unfold other; simp [h2]⟩
    · exact ⟨(k, j), (mem_pairsOf _ _ _ _).2 ⟨h, h1, h3⟩, by unfold other; simp⟩

/-- Everything but the multiplicity. -/
def rest (m : Meta) : ℕ × Code × Code := (m.pathIndex, m.pre, m.post)

theorem bump_rest (md : List Meta) (i : ℕ) : (bump md i).map rest = md.map rest :=
  map_modify_same rest _ (by intro m; rfl) _ _

theorem okAt_congr {a b : List Meta} (h : a.map rest = b.map rest) (i : ℕ) : okAt a i = okAt b i := by
  have h1 : (a[i]?).map rest = (b[i]?).map rest := by rw [← List.getElem?_map, ← List.getElem?_map, h]
  unfold okAt
  cases ha : a[i]? with
  | none =>
    rw [ha] at h1
    cases hb : b[i]? with
    | none => rfl
    | some y => rw [hb] at h1; cases h1
  | some x =>
    rw [ha] at h1
    cases hb : b[i]? with
    | none => rw [hb] at h1; cases h1
    | some y =>
      rw [hb] at h1
      simp only [Option.map_some, Option.some.injEq, rest, Prod.mk.injEq] at h1
      simp [h1.2.2]

theorem bumps_rest (ps : List (ℕ × ℕ)) : ∀ md : List Meta,
    (ps.foldl (fun md p => bump (bump md p.1) p.2) md).map rest = md.map rest := by
  induction ps with
  | nil => intro md; rfl
  | cons p ps ih => intro md; rw [List.foldl_cons, ih, bump_rest, bump_rest]

/-- The two loops bump both ends of every pair. -/
theorem mult_fold (N : ℕ) (S : ℕ → ℕ → Bool) (md : List Meta) :
    (List.range N).foldl (fun md i =>
      if okAt md i then
        (List.range' (i + 1) (N - (i + 1))).foldl (fun md j =>
          if okAt md j then if S i j then bump (bump md i) j else md else md) md
      else md) md =
    (pairsOf N fun i j => okAt md i && okAt md j && S i j).foldl (fun md p => bump (bump md p.1) p.2) md := by
  obtain ⟨md0, hmd0⟩ : ∃ m, m = md := ⟨_, rfl⟩
  have inner : ∀ (i : ℕ), okAt md0 i = true → ∀ (js : List ℕ) (m : List Meta), m.map rest = md0.map rest →
      js.foldl (fun md j => if okAt md j then if S i j then bump (bump md i) j else md else md) m =
      ((js.filter fun j => okAt md0 i && okAt md0 j && S i j).map fun j => (i, j)).foldl
        (fun md p => bump (bump md p.1) p.2) m := by
    intro i hi js
    induction js with
    | nil => intro m _; rfl
    | cons j js ih =>
      intro m hm
      rw [List.foldl_cons, okAt_congr hm j]
      by_cases hj : okAt md0 j = true
      · by_cases hS : S i j = true
        · rw [if_pos hj, if_pos hS, ih _ (by rw [bump_rest, bump_rest, hm]),
            List.filter_cons_of_pos (by simp [hi, hj, hS])]
          rfl
        · rw [if_pos hj, if_neg hS, ih _ hm, List.filter_cons_of_neg (by simp [hS])]
      · rw [if_neg hj, ih _ hm, List.filter_cons_of_neg (by simp [hj])]
  unfold pairsOf
  rw [← hmd0]
  have outer : ∀ (is : List ℕ) (m : List Meta), m.map rest = md0.map rest →
      is.foldl (fun md i =>
        if okAt md i then
          (List.range' (i + 1) (N - (i + 1))).foldl (fun md j =>
            if okAt md j then if S i j then bump (bump md i) j else md else md) md
        else md) m =
      (is.flatMap fun i => ((List.range' (i + 1) (N - (i + 1))).filter fun j =>
        okAt md0 i && okAt md0 j && S i j).map fun j => (i, j)).foldl (fun md p => bump (bump md p.1) p.2) m := by
    intro is
    induction is with
    | nil => intro m _; rfl
    | cons i is ih =>
      intro m hm
      rw [List.foldl_cons, List.flatMap_cons, List.foldl_append, okAt_congr hm i]
      by_cases hi : okAt md0 i = true
      · rw [if_pos hi, inner i hi _ m hm]
        exact ih _ (by rw [bumps_rest, hm])
      · rw [if_neg hi, ih m hm]
        have : ((List.range' (i + 1) (N - (i + 1))).filter fun j => okAt md0 i && okAt md0 j && S i j) = [] := by
          rw [List.filter_eq_nil_iff]; intro j _; simp [hi]
        rw [this]; rfl
  exact outer _ _ rfl

theorem bumps_mult (ps : List (ℕ × ℕ)) (hp : ∀ p ∈ ps, p.1 ≠ p.2) (k : ℕ) : ∀ (md : List Meta) (m : Meta),
    md[k]? = some m →
    (ps.foldl (fun md p => bump (bump md p.1) p.2) md)[k]? =
      some { m with mult := m.mult + (ps.filterMap (other k)).length } := by
  induction ps with
  | nil => intro md m h; simpa using h
  | cons p ps ih =>
    intro md m h
    rw [List.foldl_cons]
    have hne := hp p (by simp)
    have hstep : (bump (bump md p.1) p.2)[k]? = some { m with mult := m.mult + (other k p).toList.length } := by
      unfold bump other
      by_cases h1 : p.1 = k
      · have h2 : p.2 ≠ k := fun h' => hne (h1.trans h'.symm)
        simp [List.getElem?_modify, h1, h2, h]
      · by_cases h2 : p.2 = k
        · simp [List.getElem?_modify, h1, h2, h]
        · simp [List.getElem?_modify, h1, h2, h]
    rw [ih (fun q hq => hp q (by simp [hq])) _ _ hstep, List.filterMap_cons]
    congr 1
    cases other k p with
    | none => simp
    | some q => simp only [Option.toList_some, List.length_cons, List.length_nil]; push_cast; congr 1; ring

theorem dist2_comm (a b : Pt d) : dist2 a b = dist2 b a := by
  unfold dist2; congr 1; exact Finset.sum_congr rfl fun i _ => by rw [norm_sub_rev]

theorem sameAt_comm (tol : ℝ) (sols : List (Pt d)) (i j : ℕ) : sameAt tol sols i j = sameAt tol sols j i := by
  unfold sameAt
  cases sols[i]? <;> cases sols[j]? <;> simp [dist2_comm]

end B2.Alg
