/-
Lemmas about the midpath check: the stored records are a function of the list of coinciding pairs seen so far.
-/
import Verif.Alg.Midpath

namespace B2.Alg
open B2.Track (Code)

/-- The other end of a pair, if `k` is in it. -/
def partner (k : ℕ) (p : ℕ × ℕ × Bool) : Option (ℕ × Bool) :=
  if p.1 = k then some (p.2.1, p.2.2) else if p.2.1 = k then some (p.1, p.2.2) else none

/-- The record that belongs to path `k` after the pairs `ps`. -/
def specRec (ps : List (ℕ × ℕ × Bool)) (k : ℕ) : Option Crossed :=
  match ps.filterMap (partner k) with
  | [] => none
  | l => some { index := k, with_ := l, rerun := l.any fun q => !q.2 }

/-- All pairs treated one after the other. -/
def addAll (ps : List (ℕ × ℕ × Bool)) (c : Checker) : Checker :=
  ps.foldl (fun c p => addPair p.1 p.2.1 p.2.2 c) c

/-- State and list of pairs agree. -/
structure Agree (ps : List (ℕ × ℕ × Bool)) (c : Checker) : Prop where
  nodup : (c.crossed.map Crossed.index).Nodup
  find : ∀ k, c.crossed.find? (fun v => v.index == k) = specRec ps k
  passed : c.passed = ps.isEmpty

theorem note_index (i j : ℕ) (b : Bool) (v : Crossed) : (note i j b v).index = v.index := by
  unfold note
  dsimp only
  split_ifs <;> rfl

theorem find_map_note (i j : ℕ) (b : Bool) (l : List Crossed) (k : ℕ) :
    (l.map (note i j b)).find? (fun v => v.index == k) =
      (l.find? (fun v => v.index == k)).map (note i j b) := by
  induction l with
  | nil => rfl
  | cons a l ih =>
    simp only [List.map_cons, List.find?_cons, note_index]
    split
    · rfl
    · exact ih

theorem any_index (l : List Crossed) (k : ℕ) :
    l.any (fun v => v.index == k) = (l.find? (fun v => v.index == k)).isSome := by
  induction l with
  | nil => rfl
  | cons a l ih =>
    simp only [List.any_cons, List.find?_cons]
    cases h : a.index == k
    · simpa using ih
    · simp

theorem specRec_concat (ps : List (ℕ × ℕ × Bool)) (p : ℕ × ℕ × Bool) (k : ℕ) :
    specRec (ps ++ [p]) k = match partner k p with
      | none => specRec ps k
      | some q => some (match specRec ps k with
        | none => { index := k, with_ := [q], rerun := !q.2 }
        | some v => { index := k, with_ := v.with_ ++ [q], rerun := v.rerun || !q.2 }) := by
  unfold specRec
  rw [List.filterMap_append]
  cases hq : partner k p with
  | none => simp [hq]
  | some q =>
    simp only [List.filterMap_cons, hq, List.filterMap_nil]
    cases ps.filterMap (partner k) with
    | nil => simp
    | cons a l => simp [List.any_append, Bool.or_assoc]

theorem specRec_index {ps : List (ℕ × ℕ × Bool)} {k : ℕ} {v : Crossed} (h : specRec ps k = some v) : v.index = k := by
  unfold specRec at h
  split at h
  · cases h
  · cases h; rfl

theorem addPair_agree {ps : List (ℕ × ℕ × Bool)} {c : Checker} (h : Agree ps c) (i j : ℕ) (b : Bool) (hij : i ≠ j) :
    Agree (ps ++ [(i, j, b)]) (addPair i j b c) := by
  have hidx : ∀ k, (c.crossed.any fun v => v.index == k) = (specRec ps k).isSome := by
    intro k; rw [any_index, h.find]
  have hmem : ∀ k, k ∈ c.crossed.map Crossed.index ↔ (specRec ps k).isSome = true := by
    intro k
    rw [← hidx, List.any_eq_true, List.mem_map]
    constructor
    · rintro ⟨v, h1, h2⟩; exact ⟨v, h1, by simpa using h2⟩
    · rintro ⟨v, h1, h2⟩; exact ⟨v, h1, by simpa using h2⟩
  have hmap : (c.crossed.map (note i j b)).map Crossed.index = c.crossed.map Crossed.index := by
    rw [List.map_map]
    refine List.map_congr_left fun v _ => ?_
    exact note_index i j b v
  constructor
  · unfold addPair
    dsimp only
    rw [hidx, hidx]
    have hn := h.nodup
    rw [← hmap] at hn
    have hi : (specRec ps i).isSome = false → i ∉ (c.crossed.map (note i j b)).map Crossed.index := by
      intro h1 h2; rw [hmap, hmem] at h2; rw [h1] at h2; cases h2
    have hj : (specRec ps j).isSome = false → j ∉ (c.crossed.map (note i j b)).map Crossed.index := by
      intro h1 h2; rw [hmap, hmem] at h2; rw [h1] at h2; cases h2
    cases h1 : (specRec ps i).isSome <;> cases h2 : (specRec ps j).isSome <;>
      simp only [Bool.false_eq_true, if_false, if_true, List.map_append, List.map_cons, List.map_nil]
    · rw [List.append_assoc, List.nodup_append]
      refine ⟨hn, by simp [hij], ?_⟩
      intro a ha b' hb
      simp only [List.singleton_append, List.mem_cons, List.not_mem_nil, or_false] at hb
      rcases hb with rfl | rfl
      · rintro rfl; exact hi h1 ha
      · rintro rfl; exact hj h2 ha
    · rw [List.nodup_append]
      refine ⟨hn, by simp, ?_⟩
      intro a ha b' hb
      simp only [List.mem_singleton] at hb
      subst hb; rintro rfl; exact hi h1 ha
    · rw [List.nodup_append]
      refine ⟨hn, by simp, ?_⟩
      intro a ha b' hb
      simp only [List.mem_singleton] at hb
      subst hb; rintro rfl; exact hj h2 ha
    · exact hn
  · intro k
    rw [specRec_concat]
    unfold addPair
    dsimp only
    rw [hidx, hidx]
    have hf := h.find k
    have hfm := find_map_note i j b c.crossed k
    rw [hf] at hfm
    by_cases hki : i = k
    · subst hki
      have hp : partner i (i, j, b) = some (j, b) := by simp [partner]
      rw [hp]
      have hji : (j == i) = false := by simpa using fun h => hij h.symm
      cases h1 : specRec ps i with
      | none =>
        rw [h1] at hfm
        cases h2 : (specRec ps j).isSome <;>
          simp [hfm, List.find?_append, hji]
      | some v =>
        have hv := specRec_index h1
        rw [h1] at hfm
        have hnote : note i j b v = { index := i, with_ := v.with_ ++ [(j, b)], rerun := v.rerun || !b } := by
          unfold note; simp [hv, hij]
        cases h2 : (specRec ps j).isSome <;>
          simp [hfm, List.find?_append, hji, hnote]
    · by_cases hkj : j = k
      · subst hkj
        have hp : partner j (i, j, b) = some (i, b) := by simp [partner, hij]
        rw [hp]
        have hji : (i == j) = false := by simpa using hij
        cases h1 : specRec ps j with
        | none =>
          rw [h1] at hfm
          cases h2 : (specRec ps i).isSome <;>
            simp [hfm, List.find?_append, hji]
        | some v =>
          have hv := specRec_index h1
          rw [h1] at hfm
          have hnote : note i j b v = { index := j, with_ := v.with_ ++ [(i, b)], rerun := v.rerun || !b } := by
            unfold note; simp [hv, Ne.symm hij]
          cases h2 : (specRec ps i).isSome <;>
            simp [hfm, List.find?_append, hji, hnote]
      · have hp : partner k (i, j, b) = none := by simp [partner, hki, hkj]
        rw [hp]
        have hik : (i == k) = false := by simpa using hki
        have hjk : (j == k) = false := by simpa using hkj
        dsimp only
        have hres : (specRec ps k).map (note i j b) = specRec ps k := by
          cases h1 : specRec ps k with
          | none => rfl
          | some v =>
            have hv := specRec_index h1
            have : note i j b v = v := by
              unfold note; simp [hv, Ne.symm hki, Ne.symm hkj]
            simp [this]
        rw [hres] at hfm
        cases h1 : (specRec ps i).isSome <;> cases h2 : (specRec ps j).isSome <;>
          simp [hfm, List.find?_append, hik, hjk]
  · simp [addPair]

/-- The coinciding pairs of one check, in the order of the loops. -/
noncomputable def crossPairs {d : ℕ} (tol : ℝ) (data : List (Bdry d)) (start : ℕ → Pt d) : List (ℕ × ℕ × Bool) :=
  (List.range data.length).flatMap fun i =>
    ((List.range' (i + 1) (data.length - (i + 1))).filter fun j => coincide tol data i j).map fun j =>
      (i, j, sameStart tol (start i) (start j))

theorem inner_eq {d : ℕ} (tol : ℝ) (data : List (Bdry d)) (start : ℕ → Pt d) (i : ℕ) :
    ∀ (js : List ℕ) (c : Checker), inner tol data start i js c =
      addAll ((js.filter fun j => coincide tol data i j).map fun j => (i, j, sameStart tol (start i) (start j))) c := by
  intro js
  induction js with
  | nil => intro c; rfl
  | cons j js ih =>
    intro c
    unfold inner at ih ⊢
    rw [List.foldl_cons, ih]
    by_cases h : coincide tol data i j
    · simp [h, addAll]
    · simp [h, addAll]

theorem addAll_append (ps qs : List (ℕ × ℕ × Bool)) (c : Checker) : addAll (ps ++ qs) c = addAll qs (addAll ps c) := by
  unfold addAll; rw [List.foldl_append]

theorem check_eq {d : ℕ} (tol : ℝ) (data : List (Bdry d)) (start : ℕ → Pt d) (c : Checker) :
    check tol data start c = addAll (crossPairs tol data start) c := by
  unfold check crossPairs
  generalize hr : List.range data.length = r
  clear hr
  induction r generalizing c with
  | nil => rfl
  | cons i r ih =>
    rw [List.foldl_cons, ih, List.flatMap_cons, addAll_append, inner_eq]

theorem mem_crossPairs {d : ℕ} (tol : ℝ) (data : List (Bdry d)) (start : ℕ → Pt d) (i j : ℕ) (b : Bool) :
    (i, j, b) ∈ crossPairs tol data start ↔
      i < j ∧ j < data.length ∧ coincide tol data i j = true ∧ b = sameStart tol (start i) (start j) := by
  unfold crossPairs
  simp only [List.mem_flatMap, List.mem_range, List.mem_map, List.mem_filter, List.mem_range'_1, Prod.mk.injEq]
  constructor
  · rintro ⟨i', h1, j', ⟨⟨h2, h3⟩, h4⟩, rfl, rfl, rfl⟩
    exact ⟨by omega, by omega, h4, rfl⟩
  · rintro ⟨h1, h2, h3, rfl⟩
    exact ⟨i, by omega, j, ⟨⟨by omega, by omega⟩, h3⟩, rfl, rfl, rfl⟩

theorem addAll_agree : ∀ (qs : List (ℕ × ℕ × Bool)) {ps : List (ℕ × ℕ × Bool)} {c : Checker}, Agree ps c →
    (∀ q ∈ qs, q.1 ≠ q.2.1) → Agree (ps ++ qs) (addAll qs c) := by
  intro qs
  induction qs with
  | nil => intro ps c h _; rw [List.append_nil]; exact h
  | cons q qs ih =>
    intro ps c h hq
    have h1 := addPair_agree h q.1 q.2.1 q.2.2 (hq q (by simp))
    have h2 := ih h1 fun q' hq' => hq q' (by simp [hq'])
    rw [List.append_assoc] at h2
    exact h2

theorem check_agree {d : ℕ} (tol : ℝ) (data : List (Bdry d)) (start : ℕ → Pt d) {ps : List (ℕ × ℕ × Bool)}
    {c : Checker} (h : Agree ps c) : Agree (ps ++ crossPairs tol data start) (check tol data start c) := by
  rw [check_eq]
  refine addAll_agree _ h ?_
  rintro ⟨i, j, b⟩ hq
  rw [mem_crossPairs] at hq
  dsimp only
  omega

theorem fresh_agree : Agree [] Checker.fresh := ⟨by simp [Checker.fresh], fun k => rfl, rfl⟩

end B2.Alg
