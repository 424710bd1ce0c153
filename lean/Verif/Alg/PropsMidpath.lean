/-
C54: the midpath check.
-/
import Verif.Alg.MidpathProof
import Mathlib.Tactic.Linarith
import Mathlib.Tactic.IntervalCases

namespace B2.Alg
open B2.Track (Code)

/-- Paths `i` before `j` both arrived, and their points differ by less than `tol` relative to the size of the first. -/
def Meet {d : ℕ} (tol : ℝ) (data : List (Bdry d)) (i j : ℕ) : Prop :=
  i < j ∧ ∃ a b, data[i]? = some a ∧ data[j]? = some b ∧ a.code = .success ∧ b.code = .success ∧
    ‖a.pt - b.pt‖ < tol * ‖a.pt‖

/-- Path `k` is one of the two. -/
def In (k i j : ℕ) : Prop := k = i ∨ k = j

/-- The checker after a history of checks. -/
noncomputable def after {d : ℕ} (tol : ℝ) (start : ℕ → Pt d) (hist : List (List (Bdry d))) : Checker :=
  hist.foldl (fun c D => check tol D start c) Checker.fresh

/-- **C54, full statement**: whatever was checked before, a check of `data` passes iff no two paths with different start
points meet, and exactly the members of such pairs are marked for re-running. -/
def C54_full : Prop :=
  ∀ (d : ℕ) (tol : ℝ) (start : ℕ → Pt d) (hist : List (List (Bdry d))) (data : List (Bdry d)), 0 < tol →
    let c := check tol data start (after tol start hist)
    (c.passed = true ↔ ¬ ∃ i j, Meet tol data i j ∧ tol < ‖start i - start j‖) ∧
    ∀ k, (∃ v ∈ c.crossed, v.index = k ∧ v.rerun = true) ↔
      ∃ i j, Meet tol data i j ∧ tol < ‖start i - start j‖ ∧ In k i j

theorem coincide_iff {d : ℕ} (tol : ℝ) (data : List (Bdry d)) (i j : ℕ) (h : i < j) :
    coincide tol data i j = true ↔ Meet tol data i j := by
  unfold coincide Meet
  cases h1 : data[i]? with
  | none => simp
  | some a =>
    cases h2 : data[j]? with
    | none => simp
    | some b =>
      simp only [Bool.and_eq_true, decide_eq_true_eq, Option.some.injEq, relClose]
      constructor
      · rintro ⟨⟨h3, h4⟩, h5, h6⟩
        have h0 : 0 < ‖a.pt‖ := lt_of_le_of_ne (norm_nonneg _) (Ne.symm h5)
        rw [div_lt_iff₀ h0] at h6
        exact ⟨h, a, b, rfl, rfl, h3, h4, h6⟩
      · rintro ⟨-, a', b', rfl, rfl, h3, h4, h6⟩
        have h5 : ‖a.pt‖ ≠ 0 := by
          intro h5
          rw [h5, mul_zero] at h6
          exact absurd (norm_nonneg _) (not_le.2 h6)
        have h0 : 0 < ‖a.pt‖ := lt_of_le_of_ne (norm_nonneg _) (Ne.symm h5)
        exact ⟨⟨h3, h4⟩, h5, by rwa [div_lt_iff₀ h0]⟩

theorem meet_lt {d : ℕ} {tol : ℝ} {data : List (Bdry d)} {i j : ℕ} (h : Meet tol data i j) : j < data.length := by
  obtain ⟨-, a, b, -, h2, -⟩ := h
  exact (List.getElem?_eq_some_iff.1 h2).1

theorem mem_pairs_iff {d : ℕ} (tol : ℝ) (data : List (Bdry d)) (start : ℕ → Pt d) (i j : ℕ) (b : Bool) :
    (i, j, b) ∈ crossPairs tol data start ↔ Meet tol data i j ∧ b = sameStart tol (start i) (start j) := by
  rw [mem_crossPairs]
  constructor
  · rintro ⟨h1, h2, h3, h4⟩
    exact ⟨(coincide_iff tol data i j h1).1 h3, h4⟩
  · rintro ⟨h1, h2⟩
    exact ⟨h1.1, meet_lt h1, (coincide_iff tol data i j h1.1).2 h1, h2⟩

theorem after_agree {d : ℕ} (tol : ℝ) (start : ℕ → Pt d) (hist : List (List (Bdry d))) :
    Agree (hist.flatMap fun D => crossPairs tol D start) (after tol start hist) := by
  induction hist using List.reverseRecOn with
  | nil => exact fresh_agree
  | append_singleton hist D ih =>
    unfold after at ih ⊢
    rw [List.foldl_append, List.flatMap_append, List.flatMap_cons, List.flatMap_nil, List.append_nil]
    exact check_agree tol D start ih

/-- **C54, partial**: what the check does compute, after any history of checks of boundary data `hist`.  It passes iff no
two paths met in *any* of them, whatever their start points; one record is kept for exactly the paths which met another
in any of them; a record lists exactly the partners; and it is marked for re-running iff one of the meetings was with a
path whose start point is *not* different (at most `tol` away).  Missing: independence of the history, and the marking of
the pairs with different start points, which are false. -/
theorem C54_partial {d : ℕ} (tol : ℝ) (start : ℕ → Pt d) (hist : List (List (Bdry d))) :
    ((after tol start hist).passed = true ↔ ∀ D ∈ hist, ∀ i j, ¬ Meet tol D i j) ∧
    ((after tol start hist).crossed.map Crossed.index).Nodup ∧
    (∀ k, (∃ v ∈ (after tol start hist).crossed, v.index = k) ↔ ∃ D ∈ hist, ∃ i j, Meet tol D i j ∧ In k i j) ∧
    (∀ v ∈ (after tol start hist).crossed, ∀ l b, (l, b) ∈ v.with_ ↔
      (b = true ↔ tol < ‖start v.index - start l‖) ∧
        ∃ D ∈ hist, Meet tol D v.index l ∨ Meet tol D l v.index) ∧
    (∀ v ∈ (after tol start hist).crossed, v.rerun = true ↔
      ∃ D ∈ hist, ∃ i j, Meet tol D i j ∧ In v.index i j ∧ ‖start i - start j‖ ≤ tol) := by
  have hA := after_agree tol start hist
  have hmem : ∀ i j b, (i, j, b) ∈ (hist.flatMap fun D => crossPairs tol D start) ↔
      ∃ D ∈ hist, Meet tol D i j ∧ b = sameStart tol (start i) (start j) := by
    intro i j b
    rw [List.mem_flatMap]
    simp only [mem_pairs_iff]
  generalize (hist.flatMap fun D => crossPairs tol D start) = ps at hA hmem
  have hfind : ∀ v ∈ (after tol start hist).crossed,
      specRec ps v.index = some v := by
    intro v hv
    rw [← hA.find]
    have hn := hA.nodup
    revert hv hn
    generalize (after tol start hist).crossed = l
    intro hv hn
    induction l with
    | nil => cases hv
    | cons a l ih =>
      rw [List.find?_cons]
      rw [List.map_cons, List.nodup_cons] at hn
      rcases List.mem_cons.1 hv with rfl | h
      · simp
      · have hne : (a.index == v.index) = false := by
          simp only [beq_eq_false_iff_ne, ne_eq]
          intro h'
          exact hn.1 (List.mem_map.2 ⟨v, h, h'.symm⟩)
        rw [hne]
        exact ih h hn.2
  have hwith : ∀ v ∈ (after tol start hist).crossed, v.with_ = ps.filterMap (partner v.index) ∧
      v.rerun = v.with_.any fun q => !q.2 := by
    intro v hv
    have h := hfind v hv
    unfold specRec at h
    split at h
    · cases h
    · rename_i l hl
      simp only [Option.some.injEq] at h
      constructor
      · rw [← h]
      · rw [← h]
  have hpart : ∀ k l b, (l, b) ∈ ps.filterMap (partner k) ↔ (k, l, b) ∈ ps ∨ (l, k, b) ∈ ps ∧ l ≠ k := by
    intro k l b
    rw [List.mem_filterMap]
    constructor
    · rintro ⟨⟨i, j, b'⟩, h1, h2⟩
      unfold partner at h2
      dsimp only at h2
      by_cases hik : i = k
      · rw [if_pos hik] at h2
        simp only [Option.some.injEq, Prod.mk.injEq] at h2
        obtain ⟨rfl, rfl⟩ := h2
        subst hik
        exact .inl h1
      · rw [if_neg hik] at h2
        by_cases hjk : j = k
        · rw [if_pos hjk] at h2
          simp only [Option.some.injEq, Prod.mk.injEq] at h2
          obtain ⟨rfl, rfl⟩ := h2
          subst hjk
          exact .inr ⟨h1, hik⟩
        · rw [if_neg hjk] at h2; cases h2
    · rintro (h | ⟨h, hne⟩)
      · exact ⟨_, h, by simp [partner]⟩
      · exact ⟨_, h, by simp [partner, hne]⟩
  have hsame : ∀ x y : Pt d, sameStart tol x y = true ↔ tol < ‖x - y‖ := by
    intro x y; simp [sameStart]
  have hcomm : ∀ x y : Pt d, sameStart tol x y = sameStart tol y x := by
    intro x y; unfold sameStart; rw [norm_sub_rev]
  have hbool : ∀ (b : Bool) (x y : Pt d), b = sameStart tol x y ↔ (b = true ↔ tol < ‖x - y‖) := by
    intro b x y
    rw [← hsame]
    cases b <;> cases sameStart tol x y <;> simp
  have hW : ∀ v ∈ (after tol start hist).crossed, ∀ l b, (l, b) ∈ v.with_ ↔
      (b = true ↔ tol < ‖start v.index - start l‖) ∧
        ∃ D ∈ hist, Meet tol D v.index l ∨ Meet tol D l v.index := by
    intro v hv l b
    rw [(hwith v hv).1, hpart, hmem, hmem, ← hbool]
    constructor
    · rintro (⟨D, h1, h2, h3⟩ | ⟨⟨D, h1, h2, h3⟩, -⟩)
      · exact ⟨h3, D, h1, .inl h2⟩
      · exact ⟨by rw [h3, hcomm], D, h1, .inr h2⟩
    · rintro ⟨h3, D, h1, h2 | h2⟩
      · exact .inl ⟨D, h1, h2, h3⟩
      · exact .inr ⟨⟨D, h1, h2, by rw [h3, hcomm]⟩, by have := h2.1; omega⟩
  refine ⟨?_, hA.nodup, ?_, hW, ?_⟩
  · rw [hA.passed, List.isEmpty_iff, List.eq_nil_iff_forall_not_mem]
    constructor
    · intro h D hD i j hm
      exact h (i, j, sameStart tol (start i) (start j)) ((hmem _ _ _).2 ⟨D, hD, hm, rfl⟩)
    · rintro h ⟨i, j, b⟩ hp
      obtain ⟨D, h1, h2, -⟩ := (hmem _ _ _).1 hp
      exact h D h1 i j h2
  · intro k
    constructor
    · rintro ⟨v, hv, rfl⟩
      have h := hfind v hv
      unfold specRec at h
      split at h
      · cases h
      · rename_i l hl
        cases hq : ps.filterMap (partner v.index) with
        | nil => exact absurd hq hl
        | cons q qs =>
          have : (q.1, q.2) ∈ ps.filterMap (partner v.index) := by rw [hq]; simp
          rw [hpart, hmem, hmem] at this
          rcases this with ⟨D, h1, h2, -⟩ | ⟨⟨D, h1, h2, -⟩, -⟩
          · exact ⟨D, h1, _, _, h2, .inl rfl⟩
          · exact ⟨D, h1, _, _, h2, .inr rfl⟩
    · rintro ⟨D, hD, i, j, hm, hk⟩
      have hp : (i, j, sameStart tol (start i) (start j)) ∈ ps := (hmem _ _ _).2 ⟨D, hD, hm, rfl⟩
      obtain ⟨q, hq⟩ : ∃ q : ℕ × Bool, q ∈ ps.filterMap (partner k) := by
        rcases hk with rfl | rfl
        · exact ⟨(j, _), (hpart _ _ _).2 (.inl hp)⟩
        · exact ⟨(i, _), (hpart _ _ _).2 (.inr ⟨hp, by have := hm.1; omega⟩)⟩
      have hs : ∃ v, specRec ps k = some v := by
        unfold specRec
        split
        · rename_i h; rw [h] at hq; cases hq
        · exact ⟨_, rfl⟩
      obtain ⟨v, hv⟩ := hs
      refine ⟨v, ?_, specRec_index hv⟩
      rw [← hA.find] at hv
      exact List.mem_of_find?_eq_some hv
  · intro v hv
    rw [(hwith v hv).2, List.any_eq_true]
    constructor
    · rintro ⟨⟨l, b⟩, h1, h2⟩
      have hb : b = false := by simpa using h2
      subst hb
      obtain ⟨h3, D, h4, h5⟩ := (hW v hv l false).1 h1
      have h6 : ‖start v.index - start l‖ ≤ tol := not_lt.1 fun h => by simpa using h3.2 h
      rcases h5 with h5 | h5
      · exact ⟨D, h4, _, _, h5, .inl rfl, h6⟩
      · exact ⟨D, h4, _, _, h5, .inr rfl, by rwa [norm_sub_rev]⟩
    · rintro ⟨D, h1, i, j, h2, h3, h4⟩
      rcases h3 with h3 | h3
      · refine ⟨(j, false), (hW v hv j false).2 ⟨?_, D, h1, .inl (h3 ▸ h2)⟩, rfl⟩
        rw [h3]; simpa using h4
      · refine ⟨(i, false), (hW v hv i false).2 ⟨?_, D, h1, .inr (h3 ▸ h2)⟩, rfl⟩
        rw [h3, norm_sub_rev]; simpa using h4

/-- Two paths which arrive at the same point. -/
noncomputable def jumped : List (Bdry 1) := [⟨fun _ => 1, .success⟩, ⟨fun _ => 1, .success⟩]

/-- Two paths which arrive at different points. -/
noncomputable def apart : List (Bdry 1) := [⟨fun _ => 1, .success⟩, ⟨fun _ => 3, .success⟩]

/-- Start points `0` and `5`, and so on. -/
noncomputable def starts : ℕ → Pt 1 := fun i _ => 5 * i

theorem norm1 (c : ℂ) : ‖(fun _ => c : Pt 1)‖ = ‖c‖ := by
  rw [pi_norm_const]

theorem jumped_meet : Meet (1 / 10 ^ 5) jumped 0 1 := by
  refine ⟨by norm_num, _, _, rfl, rfl, rfl, rfl, ?_⟩
  simp only [sub_self, norm_zero, norm1]
  norm_num

theorem apart_not_meet (i j : ℕ) : ¬ Meet (1 / 10 ^ 5) apart i j := by
  intro h
  have h1 := meet_lt h
  have h0 := h.1
  simp only [apart, List.length_cons, List.length_nil] at h1
  have hi : i = 0 := by omega
  have hj : j = 1 := by omega
  subst hi; subst hj
  obtain ⟨-, a, b, ha, hb, -, -, h2⟩ := h
  simp only [apart, List.getElem?_cons_zero, List.getElem?_cons_succ, Option.some.injEq] at ha hb
  subst ha; subst hb
  have h3 : ((fun _ => 1 : Pt 1) - fun _ => 3) = fun _ => -2 := by funext; norm_num
  simp only [h3, norm1] at h2
  norm_num at h2

theorem starts_far : (1 / 10 ^ 5 : ℝ) < ‖starts 0 - starts 1‖ := by
  have h3 : (starts 0 - starts 1) = fun _ => -5 := by funext; simp [starts]
  rw [h3, norm1]
  norm_num

/-- **C54 fails** with the default tolerance.  When two paths with different start points meet, neither is marked for
re-running; and a check of data without any meeting fails if an earlier one failed, so that the loop which re-runs crossed
paths always uses up all its attempts. -/
theorem C54_refuted : ¬ C54_full ∧
    (∀ v ∈ (check (1 / 10 ^ 5) jumped starts Checker.fresh).crossed, v.rerun = false) ∧
    (check (1 / 10 ^ 5) apart starts (check (1 / 10 ^ 5) jumped starts Checker.fresh)).passed = false := by
  have hp1 := C54_partial (1 / 10 ^ 5) starts [jumped]
  have hp2 := C54_partial (1 / 10 ^ 5) starts [jumped, apart]
  have hjlen : ∀ i j, Meet (1 / 10 ^ 5) jumped i j → i = 0 ∧ j = 1 := by
    intro i j h
    have h1 := meet_lt h
    have h0 := h.1
    simp only [jumped, List.length_cons, List.length_nil] at h1
    omega
  have key1 : ∀ v ∈ (check (1 / 10 ^ 5) jumped starts Checker.fresh).crossed, v.rerun = false := by
    intro v hv
    by_contra hr
    rw [Bool.not_eq_false] at hr
    obtain ⟨D, hD, i, j, hm, -, hle⟩ := (hp1.2.2.2.2 v hv).1 hr
    simp only [List.mem_singleton] at hD
    subst hD
    obtain ⟨rfl, rfl⟩ := hjlen i j hm
    exact absurd starts_far (not_lt.2 hle)
  have key2 : (check (1 / 10 ^ 5) apart starts (check (1 / 10 ^ 5) jumped starts Checker.fresh)).passed = false := by
    by_contra h
    rw [Bool.not_eq_false] at h
    exact hp2.1.1 h jumped (by simp) 0 1 jumped_meet
  refine ⟨fun h => ?_, key1, key2⟩
  have h1 := (h 1 (1 / 10 ^ 5) starts [] jumped (by norm_num)).2 0
  obtain ⟨v, hv, -, hr⟩ := h1.2 ⟨0, 1, jumped_meet, starts_far, .inl rfl⟩
  rw [key1 v hv] at hr
  cases hr

/-- The two jumped paths are both recorded, with each other as partner. -/
example : ∃ v ∈ (after (1 / 10 ^ 5) starts [apart, jumped]).crossed, v.index = 1 ∧ (0, true) ∈ v.with_ := by
  obtain ⟨-, -, h3, h4, -⟩ := C54_partial (1 / 10 ^ 5) starts [apart, jumped]
  obtain ⟨v, hv, h1⟩ := (h3 1).2 ⟨jumped, by simp, 0, 1, jumped_meet, .inr rfl⟩
  refine ⟨v, hv, h1, (h4 v hv 0 true).2 ⟨?_, jumped, by simp, .inr (by rw [h1]; exact jumped_meet)⟩⟩
  rw [h1, norm_sub_rev]
  simpa using starts_far

end B2.Alg
