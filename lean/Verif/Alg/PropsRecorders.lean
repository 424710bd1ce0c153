/-
C110: the largest precision reported for a path.  C111: whether and when precision first rose on a path.
-/
import Verif.Alg.Recorders
import Mathlib.Data.List.MinMax
import Mathlib.Order.Lattice

namespace B2.Alg.Rec

variable {T : Type}

/-! ### Specification -/

/-- The precisions the tracker works in during a run: for each call of `TrackPath` that of the start point, and those
it changes to. -/
def used : Run T → List ℕ
  | .before _ s => s.start :: s.calls.map Prod.fst
  | .during _ l => l.flatMap fun s => s.start :: s.calls.map Prod.fst

/-- The runs on path `i`. -/
def runsOf (i : ℕ) (h : List (Run T)) : List (Run T) := h.filter fun r => r.idx = i

/-- The largest number of a list, 0 if it is empty. -/
def top (l : List ℕ) : ℕ := l.foldr max 0

/-- The times at which precision rose during a run, in order. -/
def rises (r : Run T) : List T := (r.events.filter fun c => c.prev < c.next).map Change.time

/-- The part of a history up to the last run on path `i`. -/
def upTo (i : ℕ) : List (Run T) → List (Run T)
  | [] => []
  | r :: h => if ∃ x ∈ r :: h, x.idx = i then r :: upTo i h else []

/-! ### Lemmas -/

theorem top_le (l : List ℕ) (b : ℕ) : top l ≤ b ↔ ∀ x ∈ l, x ≤ b := by
  induction l with
  | nil => simp [top]
  | cons a l ih => simp only [top, List.foldr_cons, max_le_iff, List.forall_mem_cons] at ih ⊢; rw [ih]

theorem top_append (a b : List ℕ) : top (a ++ b) = max (top a) (top b) := by
  apply le_antisymm
  · rw [top_le]
    intro x hx
    rcases List.mem_append.1 hx with h | h
    · exact le_max_of_le_left ((top_le a _).1 le_rfl x h)
    · exact le_max_of_le_right ((top_le b _).1 le_rfl x h)
  · rw [max_le_iff]
    constructor
    · rw [top_le]; intro x hx; exact (top_le _ _).1 le_rfl x (by simp [hx])
    · rw [top_le]; intro x hx; exact (top_le _ _).1 le_rfl x (by simp [hx])

/-- What the recorders hold after a sequence of events. -/
theorem fold_observe (l : List (Change T)) : ∀ r : Recs T,
    (l.foldl observe r).maxp = max r.maxp (top (l.map Change.next)) ∧
    (r.on = false → (l.foldl observe r).increased = r.increased ∧ (l.foldl observe r).time = r.time) ∧
    (r.on = true →
      ((l.filter fun c => c.prev < c.next) = [] →
        (l.foldl observe r).increased = r.increased ∧ (l.foldl observe r).time = r.time) ∧
      (∀ c cs, (l.filter fun c => c.prev < c.next) = c :: cs →
        (l.foldl observe r).increased = true ∧ (l.foldl observe r).time = c.time)) := by
  induction l with
  | nil => intro r; simp [top]
  | cons c l ih =>
    intro r
    rw [List.foldl_cons]
    obtain ⟨h1, h2, h3⟩ := ih (observe r c)
    have hm : (observe r c).maxp = max r.maxp c.next := by
      simp only [observe]
      by_cases ha : r.on = true ∧ c.next > c.prev
      · rw [if_pos ha]
        by_cases hb : c.next > r.maxp
        · simp only [if_pos hb]; omega
        · simp only [if_neg hb]; omega
      · rw [if_neg ha]
        by_cases hb : c.next > r.maxp
        · simp only [if_pos hb]; omega
        · simp only [if_neg hb]; omega
    refine ⟨?_, ?_, ?_⟩
    · rw [h1, hm]
      simp only [List.map_cons, top, List.foldr_cons, max_assoc]
    · intro hoff
      have he : observe r c = { r with maxp := if c.next > r.maxp then c.next else r.maxp } := by
        simp only [observe]
        rw [if_neg (by rw [hoff]; simp)]
      rw [he] at h2 ⊢
      exact h2 hoff
    · intro hon
      by_cases hc : c.prev < c.next
      · have he : observe r c = ⟨true, c.time, false, if c.next > r.maxp then c.next else r.maxp⟩ := by
          simp only [observe]
          rw [if_pos ⟨hon, hc⟩]
        rw [he] at h2 ⊢
        have h4 := h2 rfl
        rw [List.filter_cons_of_pos (by simpa using hc)]
        refine ⟨by simp, ?_⟩
        intro c' cs hcs
        injection hcs with h5 _
        rw [← h5]
        exact h4
      · have he : observe r c = { r with maxp := if c.next > r.maxp then c.next else r.maxp } := by
          simp only [observe]
          rw [if_neg (fun h => hc h.2)]
        rw [List.filter_cons_of_neg (by simpa using hc)]
        rw [he] at h3 ⊢
        exact h3 hon

/-- The events of a history. -/
def evs (h : List (Run T)) : List (Change T) := h.flatMap Run.events

theorem evs_append (a b : List (Run T)) : evs (a ++ b) = evs a ++ evs b := by simp [evs]

theorem step_maxp (s : S T) (r : Run T) :
    (step s r).recs.maxp = max s.recs.maxp (top (r.events.map Change.next)) ∧
    (∀ j, j ≠ r.idx → (step s r).md j = s.md j) ∧
    ((step s r).md r.idx).maxp = max (s.md r.idx).maxp (max s.recs.maxp (top (r.events.map Change.next))) := by
  cases r with
  | before i seg =>
    have h := (fold_observe seg.events { s.recs with on := true }).1
    simp only at h
    refine ⟨?_, ?_, ?_⟩
    · simp only [step, before, Run.events]
      split_ifs <;> exact h
    · intro j hj
      simp only [Run.idx] at hj
      simp only [step, before, if_neg hj]
    · simp only [step, before, Run.idx, Run.events, if_true]
      rw [← h]
      split_ifs <;> rfl
  | during i l =>
    have h := (fold_observe (l.flatMap Seg.events)
      (if (s.md i).changed then s.recs else { s.recs with on := true })).1
    have h0 : (if (s.md i).changed then s.recs else { s.recs with on := true }).maxp = s.recs.maxp := by
      split_ifs <;> rfl
    rw [h0] at h
    refine ⟨?_, ?_, ?_⟩
    · simp only [step, during, Run.events]
      exact h
    · intro j hj
      simp only [Run.idx] at hj
      simp only [step, during, if_neg hj]
    · simp only [step, during, Run.idx, Run.events, if_true]
      rw [← h]
      split_ifs <;> rfl

theorem solve_snoc (b : Bool) (t0 : T) (h : List (Run T)) (r : Run T) :
    solve b t0 (h ++ [r]) = step (solve b t0 h) r := by simp [solve]

theorem upTo_snoc_self (h : List (Run T)) (r : Run T) : upTo r.idx (h ++ [r]) = h ++ [r] := by
  induction h with
  | nil => simp [upTo]
  | cons a h ih =>
    rw [List.cons_append, upTo, if_pos ⟨r, by simp, rfl⟩, ih]

theorem upTo_snoc_ne (i : ℕ) (h : List (Run T)) (r : Run T) (hr : r.idx ≠ i) : upTo i (h ++ [r]) = upTo i h := by
  induction h with
  | nil => simp [upTo, hr]
  | cons a h ih =>
    rw [List.cons_append, upTo, upTo, ih]
    have : (∃ x ∈ a :: (h ++ [r]), x.idx = i) ↔ ∃ x ∈ a :: h, x.idx = i := by
      constructor
      · rintro ⟨x, hx, hi⟩
        simp only [List.mem_cons, List.mem_append, List.not_mem_nil, or_false] at hx
        rcases hx with rfl | hx | rfl
        · exact ⟨x, by simp, hi⟩
        · exact ⟨x, by simp [hx], hi⟩
        · exact absurd hi hr
      · rintro ⟨x, hx, hi⟩
        refine ⟨x, ?_, hi⟩
        rcases List.mem_cons.1 hx with rfl | hx
        · simp
        · simp [hx]
    by_cases hc : ∃ x ∈ a :: h, x.idx = i
    · rw [if_pos hc, if_pos (this.2 hc)]
    · rw [if_neg hc, if_neg (fun h' => hc (this.1 h'))]

theorem top_upTo_le (i : ℕ) (h : List (Run T)) :
    top ((evs (upTo i h)).map Change.next) ≤ top ((evs h).map Change.next) := by
  induction h with
  | nil => simp [upTo]
  | cons a h ih =>
    rw [upTo]
    split_ifs
    · have e : ∀ l : List (Run T), evs (a :: l) = a.events ++ evs l := fun l => by simp [evs]
      rw [e, e, List.map_append, List.map_append, top_append, top_append]
      exact max_le_max le_rfl ih
    · simp [evs, top]

/-! ### C110 -/

/-- **C110, full statement**: after any history of runs of a solver, the metadata of a path that was run report the
largest precision in which the tracker worked on that path. -/
def C110_full : Prop :=
  ∀ (T : Type) (b : Bool) (t0 : T) (h : List (Run T)) (i : ℕ), runsOf i h ≠ [] →
    ((solve b t0 h).md i).maxp = top ((runsOf i h).flatMap used)

/-- **C110, partial**: the reported number is the largest precision that the tracker changed to, on any path, from the
creation of the solver to the end of the last run on this path; in particular it is at least every precision changed to
on this path.  Missing: the maximum is not restricted to the path, and precisions of start points do not count. -/
theorem C110_partial (b : Bool) (t0 : T) (h : List (Run T)) (i : ℕ) :
    ((solve b t0 h).md i).maxp = top ((evs (upTo i h)).map Change.next) ∧
    ∀ r ∈ runsOf i h, ∀ c ∈ r.events, c.next ≤ ((solve b t0 h).md i).maxp := by
  have key : ∀ h : List (Run T), (solve b t0 h).recs.maxp = top ((evs h).map Change.next) ∧
      ∀ i, ((solve b t0 h).md i).maxp = top ((evs (upTo i h)).map Change.next) := by
    intro h
    induction h using List.reverseRecOn with
    | nil => exact ⟨rfl, fun i => rfl⟩
    | append_singleton h r ih =>
      obtain ⟨i1, i2⟩ := ih
      obtain ⟨s1, s2, s3⟩ := step_maxp (solve b t0 h) r
      have e1 : evs [r] = r.events := by simp [evs]
      constructor
      · rw [solve_snoc, s1, i1, evs_append, List.map_append, top_append, e1]
      · intro i
        rw [solve_snoc]
        by_cases hi : i = r.idx
        · subst hi
          rw [s3, i1, i2, upTo_snoc_self, evs_append, List.map_append, top_append, e1]
          have := top_upTo_le r.idx h
          omega
        · rw [s2 i hi, i2, upTo_snoc_ne i h r (Ne.symm hi)]
  refine ⟨(key h).2 i, ?_⟩
  rw [(key h).2 i]
  intro r hr c hc
  have hsub : ∀ h : List (Run T), r ∈ runsOf i h → r ∈ upTo i h := by
    intro h
    induction h with
    | nil => simp [runsOf]
    | cons a h ih =>
      intro hm
      have hm' := List.mem_filter.1 hm
      have hri : r.idx = i := by simpa using hm'.2
      rw [upTo, if_pos ⟨r, hm'.1, hri⟩]
      rcases List.mem_cons.1 hm'.1 with rfl | h2
      · simp
      · exact List.mem_cons_of_mem _ (ih (List.mem_filter.2 ⟨h2, by simpa using hri⟩))
  refine (top_le _ _).1 le_rfl _ ?_
  exact List.mem_map.2 ⟨c, List.mem_flatMap.2 ⟨r, hsub h hr, hc⟩, rfl⟩

theorem emit_used (calls : List (ℕ × T)) : ∀ p, max p (top ((emit p calls).map Change.next)) =
    top (p :: calls.map Prod.fst) := by
  induction calls with
  | nil => intro p; simp [emit, top]
  | cons a r ih =>
    obtain ⟨q, t⟩ := a
    intro p
    by_cases hq : q = p
    · subst hq
      rw [emit, if_pos rfl, ih q]
      simp only [List.map_cons, top, List.foldr_cons]
      omega
    · rw [emit, if_neg hq]
      have := ih q
      simp only [List.map_cons, top, List.foldr_cons] at this ⊢
      omega

/-- **C110, one path**: if only one path was ever run, once before the endgame, and the tracker left the precision of the
start point for a higher one, the report is right. -/
theorem C110_single (b : Bool) (t0 : T) (i : ℕ) (seg : Seg T)
    (hup : seg.start < top (seg.calls.map Prod.fst)) :
    ((solve b t0 [.before i seg]).md i).maxp = top (used (.before i seg)) := by
  rw [(C110_partial b t0 [.before i seg] i).1]
  have e : evs (upTo i [Run.before i seg]) = emit seg.start seg.calls := by
    simp [upTo, Run.idx, evs, Run.events, Seg.events]
  rw [e]
  have h := emit_used seg.calls seg.start
  simp only [used, top, List.foldr_cons] at h hup ⊢
  omega

/-- **C110 fails**: a path which stays in the precision of its start point is reported with 0 when nothing changed before
it, whatever that precision; and after another path has gone up to `q` it is reported with at least `q`, although it
never left its own precision. -/
theorem C110_refuted : ¬ C110_full ∧
    (∀ (b : Bool) (t0 : T) (p i : ℕ), ((solve b t0 [.before i ⟨p, []⟩]).md i).maxp = 0 ∧
      used (.before i (⟨p, []⟩ : Seg T)) = [p]) ∧
    (∀ (b : Bool) (t0 t : T) (p q i j : ℕ), i ≠ j → p < q →
      ((solve b t0 [.before i ⟨p, [(q, t)]⟩, .before j ⟨p, []⟩]).md j).maxp = q ∧
      top (used (.before j (⟨p, []⟩ : Seg T))) = p) := by
  have h1 : ∀ (T : Type) (b : Bool) (t0 : T) (p i : ℕ), ((solve b t0 [.before i ⟨p, []⟩]).md i).maxp = 0 := by
    intro T b t0 p i
    rw [(C110_partial b t0 _ i).1]
    simp [upTo, Run.idx, evs, Run.events, Seg.events, emit, top]
  refine ⟨?_, fun b t0 p i => ⟨h1 T b t0 p i, rfl⟩, ?_⟩
  · intro hf
    have h2 := hf Unit false () [.before 0 ⟨16, []⟩] 0 (by simp [runsOf, Run.idx])
    rw [h1] at h2
    simp [runsOf, Run.idx, used, top] at h2
  · intro b t0 t p q i j hij hpq
    refine ⟨?_, by simp [used, top]⟩
    rw [(C110_partial b t0 _ j).1]
    have : q ≠ p := by omega
    simp [upTo, Run.idx, evs, Run.events, Seg.events, emit, top, hij, this]

/-- Path 0 goes from 16 to 40 digits and back to 30, path 1 stays at 16: both are reported with 40. -/
example : ((solve false 0 [.before 0 ⟨16, [(40, 7), (30, 5)]⟩, .before 1 ⟨16, [(16, 3)]⟩]).md 0).maxp = 40 ∧
    ((solve false 0 [.before 0 ⟨16, [(40, 7), (30, 5)]⟩, .before 1 ⟨16, [(16, 3)]⟩]).md 1).maxp = 40 := by decide

/-! ### C111 -/

/-- **C111, full statement**: after any history of runs, a path is marked as having changed precision exactly when
precision rose in one of its runs, and then the recorded time is that of such a rise. -/
def C111_full : Prop :=
  ∀ (T : Type) (b : Bool) (t0 : T) (h : List (Run T)) (i : ℕ),
    (((solve b t0 h).md i).changed = true ↔ (runsOf i h).flatMap rises ≠ []) ∧
    (((solve b t0 h).md i).changed = true → ((solve b t0 h).md i).time ∈ (runsOf i h).flatMap rises)

theorem rises_nil (r : Run T) : rises r = [] ↔ (r.events.filter fun c => c.prev < c.next) = [] := by
  simp [rises]

/-- What one run does to the flag of the recorder and to the metadata of its path. -/
theorem step_changed (s : S T) (r : Run T) (hinv : (s.md r.idx).changed = true → s.recs.increased = true) :
    (((step s r).md r.idx).changed = true ↔ (s.md r.idx).changed = true ∨ s.recs.increased = true ∨ rises r ≠ []) ∧
    ((step s r).recs.increased = true → s.recs.increased = true ∨ rises r ≠ []) ∧
    (s.recs.increased = true ∨ ((s.md r.idx).changed = false ∧ rises r ≠ []) → (step s r).recs.increased = true) ∧
    (∀ i seg t ts, r = .before i seg → rises r = t :: ts → ((step s r).md r.idx).time = t) ∧
    (∀ t ts, (s.md r.idx).changed = false → rises r = t :: ts → ((step s r).md r.idx).time = t) := by
  cases r with
  | before i seg =>
    have h := (fold_observe seg.events { s.recs with on := true }).2.2 rfl
    simp only at h
    simp only [step, before, Run.idx, Run.events, if_true, rises] at hinv ⊢
    cases he : seg.events.filter fun c => c.prev < c.next with
    | nil =>
      obtain ⟨h1, h2⟩ := h.1 he
      rw [h1]
      cases hb : s.recs.increased with
      | false =>
        rw [hb] at hinv
        have hc : (s.md i).changed = false := by
          cases hcc : (s.md i).changed with
          | false => rfl
          | true => exact absurd (hinv hcc) (by simp)
        simp [hc]
      | true => rw [hb] at h1; simp [h1, hb]
    | cons c cs =>
      obtain ⟨h1, h2⟩ := h.2 c cs he
      rw [h1]
      simp only [if_true, List.map_cons]
      refine ⟨by simp, by simp, fun _ => h1, ?_, ?_⟩
      · intro _ _ t ts _ ht
        injection ht with ht _
        rw [h2, ht]
      · intro t ts _ ht
        injection ht with ht _
        rw [h2, ht]
  | during i l =>
    simp only [step, during, Run.idx, Run.events, if_true, rises] at hinv ⊢
    cases hc : (s.md i).changed with
    | true =>
      have hb := hinv hc
      have hi : ((l.flatMap Seg.events).foldl observe s.recs).increased = true := by
        cases hon : s.recs.on with
        | false => rw [((fold_observe _ s.recs).2.1 hon).1, hb]
        | true =>
          cases he : (l.flatMap Seg.events).filter fun c => c.prev < c.next with
          | nil => rw [(((fold_observe _ s.recs).2.2 hon).1 he).1, hb]
          | cons c cs => rw [(((fold_observe _ s.recs).2.2 hon).2 c cs he).1]
      simp [hc, hb, hi]
    | false =>
      have h := (fold_observe (l.flatMap Seg.events) { s.recs with on := true }).2.2 rfl
      simp only at h
      simp only [Bool.false_eq_true, if_false]
      cases he : (l.flatMap Seg.events).filter fun c => c.prev < c.next with
      | nil =>
        obtain ⟨h1, h2⟩ := h.1 he
        rw [h1]
        cases hb : s.recs.increased <;> simp [hc]
      | cons c cs =>
        obtain ⟨h1, h2⟩ := h.2 c cs he
        rw [h1]
        simp only [if_true, List.map_cons]
        refine ⟨by simp, by simp, by simp, ?_, ?_⟩
        · intro _ _ t ts hr; cases hr
        · intro t ts _ ht
          injection ht with ht _
          rw [h2, ht]

theorem upTo_sub (i : ℕ) (h : List (Run T)) : ∀ x ∈ upTo i h, x ∈ h := by
  induction h with
  | nil => simp [upTo]
  | cons a h ih =>
    intro x hx
    rw [upTo] at hx
    split_ifs at hx
    · rcases List.mem_cons.1 hx with rfl | hx
      · simp
      · exact List.mem_cons_of_mem _ (ih x hx)
    · simp at hx

theorem recs_flag (b : Bool) (t0 : T) (h : List (Run T)) :
    ((solve b t0 h).recs.increased = true ↔ b = true ∨ ∃ r ∈ h, rises r ≠ []) ∧
    ∀ i, (((solve b t0 h).md i).changed = true ↔
      runsOf i h ≠ [] ∧ (b = true ∨ ∃ r ∈ upTo i h, rises r ≠ [])) := by
  induction h using List.reverseRecOn with
  | nil => simp [solve, init, runsOf]
  | append_singleton h r ih =>
    obtain ⟨i1, i2⟩ := ih
    have hinv : ((solve b t0 h).md r.idx).changed = true → (solve b t0 h).recs.increased = true := by
      rw [i1, i2]
      rintro ⟨_, h2 | ⟨x, hx, hr⟩⟩
      · exact .inl h2
      · exact .inr ⟨x, upTo_sub _ _ x hx, hr⟩
    obtain ⟨s1, s2, s3, _, _⟩ := step_changed (solve b t0 h) r hinv
    obtain ⟨_, n2, _⟩ := step_maxp (solve b t0 h) r
    have ex : (∃ x ∈ h ++ [r], rises x ≠ []) ↔ (∃ x ∈ h, rises x ≠ []) ∨ rises r ≠ [] := by
      constructor
      · rintro ⟨x, hx, hr⟩
        rcases List.mem_append.1 hx with hx | hx
        · exact .inl ⟨x, hx, hr⟩
        · simp only [List.mem_singleton] at hx; subst hx; exact .inr hr
      · rintro (⟨x, hx, hr⟩ | hr)
        · exact ⟨x, by simp [hx], hr⟩
        · exact ⟨r, by simp, hr⟩
    rw [solve_snoc, ex]
    constructor
    · constructor
      · intro h1
        rcases s2 h1 with h2 | h2
        · rcases i1.1 h2 with h3 | h3
          · exact .inl h3
          · exact .inr (.inl h3)
        · exact .inr (.inr h2)
      · rintro (h1 | h1 | h1)
        · exact s3 (.inl (i1.2 (.inl h1)))
        · exact s3 (.inl (i1.2 (.inr h1)))
        · cases hc : ((solve b t0 h).md r.idx).changed with
          | false => exact s3 (.inr ⟨hc, h1⟩)
          | true => exact s3 (.inl (hinv hc))
    · intro i
      by_cases hi : i = r.idx
      · subst hi
        rw [s1, upTo_snoc_self, ex]
        have hne : runsOf r.idx (h ++ [r]) ≠ [] := by simp [runsOf]
        simp only [ne_eq, hne, not_false_eq_true, true_and]
        constructor
        · rintro (h1 | h1 | h1)
          · rcases i1.1 (hinv h1) with h3 | h3
            · exact .inl h3
            · exact .inr (.inl h3)
          · rcases i1.1 h1 with h3 | h3
            · exact .inl h3
            · exact .inr (.inl h3)
          · exact .inr (.inr h1)
        · rintro (h1 | h1 | h1)
          · exact .inr (.inl (i1.2 (.inl h1)))
          · exact .inr (.inl (i1.2 (.inr h1)))
          · exact .inr (.inr h1)
      · rw [n2 i hi, upTo_snoc_ne i h r (Ne.symm hi), i2]
        have : runsOf i (h ++ [r]) = runsOf i h := by
          simp [runsOf, List.filter_append, Ne.symm hi]
        rw [this]

/-- A run before the endgame on path `i`. -/
def isBeforeOf (i : ℕ) : Run T → Bool
  | .before j _ => j = i
  | .during _ _ => false

/-- **C111, partial**: a path is marked exactly when it was run and precision rose on some path, from the creation of
the solver to the end of the last run on this one (or the uninitialised flag happened to be set): every path on which
precision rose is marked.  If precision rose in the last run before the endgame, the recorded time is that of the first
rise in it; if no rise had been recorded for the path, a run records its own first rise.  Missing: paths are also marked,
with a foreign time, because an earlier path rose. -/
theorem C111_partial (b : Bool) (t0 : T) (h : List (Run T)) (i : ℕ) :
    (((solve b t0 h).md i).changed = true ↔ runsOf i h ≠ [] ∧ (b = true ∨ ∃ r ∈ upTo i h, rises r ≠ [])) ∧
    ((runsOf i h).flatMap rises ≠ [] → ((solve b t0 h).md i).changed = true) ∧
    (∀ h1 h2 seg t ts, h = h1 ++ Run.before i seg :: h2 → (∀ r ∈ h2, isBeforeOf i r = false) →
      rises (Run.before i seg) = t :: ts → ((solve b t0 h).md i).time = t) ∧
    (∀ h1 r t ts, h = h1 ++ [r] → r.idx = i → ((solve b t0 h1).md i).changed = false → rises r = t :: ts →
      ((solve b t0 h).md i).time = t) := by
  have hfl := recs_flag b t0
  have hinv : ∀ (h : List (Run T)) i, ((solve b t0 h).md i).changed = true →
      (solve b t0 h).recs.increased = true := by
    intro h i
    rw [(hfl h).1, (hfl h).2]
    rintro ⟨_, h2 | ⟨x, hx, hr⟩⟩
    · exact .inl h2
    · exact .inr ⟨x, upTo_sub _ _ x hx, hr⟩
  refine ⟨(hfl h).2 i, ?_, ?_, ?_⟩
  · intro hr
    rw [(hfl h).2 i]
    obtain ⟨t, ht⟩ := List.exists_mem_of_ne_nil _ hr
    obtain ⟨r, hri, htr⟩ := List.mem_flatMap.1 ht
    refine ⟨List.ne_nil_of_mem hri, .inr ⟨r, ?_, List.ne_nil_of_mem htr⟩⟩
    have hm := List.mem_filter.1 hri
    have hidx : r.idx = i := by simpa using hm.2
    have hm1 := hm.1
    clear hr ht hri hm hfl hinv
    induction h with
    | nil => simp at hm1
    | cons a h ih =>
      rw [upTo, if_pos ⟨r, hm1, hidx⟩]
      rcases List.mem_cons.1 hm1 with rfl | hm1
      · simp
      · exact List.mem_cons_of_mem _ (ih hm1)
  · intro h1 h2 seg t ts he hno hr
    subst he
    have main : ((solve b t0 (h1 ++ Run.before i seg :: h2)).md i).time = t ∧
        ((solve b t0 (h1 ++ Run.before i seg :: h2)).md i).changed = true := by
      induction h2 using List.reverseRecOn with
      | nil =>
        rw [solve_snoc]
        have hs := step_changed (solve b t0 h1) (Run.before i seg) (hinv h1 i)
        exact ⟨hs.2.2.2.1 i seg t ts rfl hr, hs.1.2 (.inr (.inr (by rw [hr]; simp)))⟩
      | append_singleton h2 r ih =>
        have ih' := ih fun x hx => hno x (by simp [hx])
        have e : h1 ++ Run.before i seg :: (h2 ++ [r]) = (h1 ++ Run.before i seg :: h2) ++ [r] := by simp
        rw [e, solve_snoc]
        by_cases hi : i = r.idx
        · cases r with
          | before j s =>
            have := hno (.before j s) (by simp)
            simp only [isBeforeOf, decide_eq_false_iff_not] at this
            exact absurd hi.symm this
          | during j l =>
            simp only [Run.idx] at hi
            subst hi
            simp only [step, during, if_true, ih'.2]
            exact ⟨ih'.1, trivial⟩
        · rw [(step_maxp _ r).2.1 i hi]
          exact ih'
    exact main.1
  · intro h1 r t ts he hi hc hr
    subst he hi
    rw [solve_snoc]
    exact (step_changed (solve b t0 h1) r (hinv h1 _)).2.2.2.2 t ts hc hr

/-- **C111 fails**: after precision rose on one path, every later path is marked, with the time of that rise, although
its own precision never changes; and if the uninitialised flag reads as set, so is every path from the start on. -/
theorem C111_refuted : ¬ C111_full ∧
    (∀ (b : Bool) (t0 t : T) (p q i j : ℕ), i ≠ j → p < q →
      ((solve b t0 [.before i ⟨p, [(q, t)]⟩, .before j ⟨p, []⟩]).md j).changed = true ∧
      ((solve b t0 [.before i ⟨p, [(q, t)]⟩, .before j ⟨p, []⟩]).md j).time = t ∧
      rises (.before j (⟨p, []⟩ : Seg T)) = []) ∧
    (∀ (t0 : T) (p i : ℕ), ((solve true t0 [.before i ⟨p, []⟩]).md i).changed = true) := by
  have key : ∀ (T : Type) (b : Bool) (t0 t : T) (p q i j : ℕ), i ≠ j → p < q →
      ((solve b t0 [.before i ⟨p, [(q, t)]⟩, .before j ⟨p, []⟩]).md j).changed = true ∧
      ((solve b t0 [.before i ⟨p, [(q, t)]⟩, .before j ⟨p, []⟩]).md j).time = t ∧
      rises (.before j (⟨p, []⟩ : Seg T)) = [] := by
    intro T b t0 t p q i j hij hpq
    have : q ≠ p := by omega
    refine ⟨?_, ?_, by simp [rises, Run.events, Seg.events, emit]⟩
    · simp [solve, step, before, Seg.events, emit, this, observe, hpq, init]
    · simp [solve, step, before, Seg.events, emit, this, observe, hpq, init]
  refine ⟨?_, key T, ?_⟩
  · intro hf
    have h1 := (hf Unit false () [.before 0 ⟨16, [(20, ())]⟩, .before 1 ⟨16, []⟩] 1).1.1
      (key Unit false () () 16 20 0 1 (by decide) (by decide)).1
    exact h1 (by simp [runsOf, Run.idx, rises, Run.events, Seg.events, emit])
  · intro t0 p i
    simp [solve, step, before, Seg.events, emit, init]

/-- Path 0 rises at time 7, path 1 does not rise before the endgame and rises at time 2 in it: path 1 is recorded with
time 7. -/
example : ((solve false 0 [.before 0 ⟨16, [(20, 7)]⟩, .before 1 ⟨16, []⟩, .during 0 [], .during 1 [⟨16, [(30, 2)]⟩]]).md 1).time
    = 7 := by decide

/-- Path 3 rises at time 5 and again at 4, then runs the endgame: marked, with time 5. -/
example : ((solve false 0 [.before 3 ⟨16, [(20, 5), (30, 4)]⟩, .during 3 [⟨30, [(40, 1)]⟩]]).md 3).changed = true ∧
    ((solve false 0 [.before 3 ⟨16, [(20, 5), (30, 4)]⟩, .during 3 [⟨30, [(40, 1)]⟩]]).md 3).time = 5 := by decide

end B2.Alg.Rec
