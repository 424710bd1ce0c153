/-
C63, C64, C79: pool, witness set.
-/
import Verif.Infra.Pool
import Mathlib.Tactic.Ring

namespace B2.Infra

/-- Is this entry to be kept: anything but an object whose only owner is this entry. -/
def keep (out : ℕ → ℕ) (l : List (Option ℕ)) (e : Option ℕ) : Bool := decide (useCount out l e ≠ 1)

theorem purge_inv (out : ℕ → ℕ) (l : List (Option ℕ)) : ∀ (n i : ℕ) (J mem : List (Option ℕ)),
    i + n = l.length → mem = (l.take i).filter (keep out l) ++ J ++ l.drop i →
    ((l.take i).filter (keep out l)).length + J.length = i →
    (∀ y ∈ J, y = none ∨ (useCount out l y = 1 ∧ y ∈ l.take i)) →
    ∃ J', purgeLoop out n i ((l.take i).filter (keep out l)).length mem = l.filter (keep out l) ++ J' ∧
      (l.filter (keep out l)).length + J'.length = l.length ∧
      (∀ y ∈ J', y = none ∨ (useCount out l y = 1 ∧ y ∈ l)) := by
  intro n
  induction n with
  | zero =>
    intro i J mem hi hm hl hJ
    have : l.take i = l := List.take_of_length_le (by omega)
    rw [this] at hm hl hJ
    have h2 : l.drop i = [] := List.drop_of_length_le (by omega)
    rw [h2, List.append_nil] at hm
    exact ⟨J, by rw [purgeLoop, hm], by omega, hJ⟩
  | succ n ih =>
    intro i J mem hi hm hl hJ
    have hil : i < l.length := by omega
    obtain ⟨K, hK⟩ : ∃ K, K = (l.take i).filter (keep out l) := ⟨_, rfl⟩
    obtain ⟨e, he⟩ : ∃ e, e = l[i] := ⟨_, rfl⟩
    have hd : l.drop i = e :: l.drop (i + 1) := by rw [he]; exact List.drop_eq_getElem_cons hil
    have ht : l.take (i + 1) = l.take i ++ [e] := by
      rw [he, List.take_add_one, List.getElem?_eq_getElem hil]; rfl
    have hsplit : l.take i ++ e :: l.drop (i + 1) = l := by rw [← hd]; exact List.take_append_drop i l
    rw [← hK] at hm hl ⊢
    have hget : mem[i]? = some e := by
      rw [hm, hd, List.getElem?_append_right (by rw [List.length_append]; omega)]
      rw [List.length_append, hl]
      simp
    -- the use count seen is the original one
    have huse : useCount out mem e = useCount out l e := by
      cases hee : e with
      | none => rfl
      | some x =>
        simp only [useCount]
        congr 1
        rw [hee] at hsplit hd
        by_cases h1 : useCount out l (some x) = 1
        · -- only one owner: not among the earlier entries
          have hc : l.count (some x) = 1 := by
            have : 0 < l.count (some x) := List.count_pos_iff.2 (by rw [← hsplit]; simp)
            simp only [useCount] at h1
            omega
          have h0 : (l.take i).count (some x) = 0 := by
            have := hc
            rw [← hsplit, List.count_append, List.count_cons_self] at this
            omega
          rw [hm, hd, hc, List.count_append, List.count_append, List.count_cons_self]
          have h2 : (l.drop (i + 1)).count (some x) = 0 := by
            have := hc
            rw [← hsplit, List.count_append, List.count_cons_self] at this
            omega
          have h3 : K.count (some x) = 0 := by
            rw [List.count_eq_zero] at h0 ⊢
            rw [hK]
            exact fun h => h0 (List.mem_of_mem_filter h)
          have h4 : J.count (some x) = 0 := by
            rw [List.count_eq_zero] at h0 ⊢
            intro h
            rcases hJ _ h with h' | h'
            · cases h'
            · exact h0 h'.2
          omega
        · have h4 : J.count (some x) = 0 := by
            rw [List.count_eq_zero]
            intro h
            rcases hJ _ h with h' | h'
            · cases h'
            · exact h1 h'.1
          have h3 : K.count (some x) = (l.take i).count (some x) := by
            rw [hK, List.count_filter]
            simp [keep, h1]
          conv_rhs => rw [← hsplit]
          rw [hm, hd, List.count_append, List.count_append, List.count_append]
          omega
    rw [purgeLoop, hget]
    dsimp only
    rw [huse]
    by_cases h1 : useCount out l e = 1
    · rw [if_pos h1]
      have hf : (l.take (i + 1)).filter (keep out l) = K := by
        rw [ht, List.filter_append, ← hK]
        simp [keep, h1]
      have := ih (i + 1) (J ++ [e]) mem (by omega) (by rw [hf, hm, hd]; simp) (by
        rw [hf, List.length_append, List.length_singleton]; omega) (by
        intro y hy
        rcases List.mem_append.1 hy with hy | hy
        · rcases hJ y hy with h | h
          · exact .inl h
          · exact .inr ⟨h.1, by rw [ht]; exact List.mem_append_left _ h.2⟩
        · simp only [List.mem_singleton] at hy
          subst hy
          exact .inr ⟨h1, by rw [ht]; simp⟩)
      rw [hf] at this
      exact this
    · rw [if_neg h1]
      have hf : (l.take (i + 1)).filter (keep out l) = K ++ [e] := by
        rw [ht, List.filter_append, ← hK]
        simp [keep, h1]
      have hfl : ((l.take (i + 1)).filter (keep out l)).length = K.length + 1 := by rw [hf]; simp
      cases J with
      | nil =>
        simp only [List.length_nil, Nat.add_zero] at hl
        rw [if_pos hl]
        have := ih (i + 1) [] mem (by omega) (by rw [hf, hm, hd]; simp) (by rw [hfl]; simp only [List.length_nil]; omega) (by simp)
        rw [hfl] at this
        exact this
      | cons j J =>
        rw [List.length_cons] at hl
        rw [if_neg (by omega)]
        have hset : (mem.set K.length e).set i none = (K ++ [e]) ++ (J ++ [none]) ++ l.drop (i + 1) := by
          rw [hm, hd]
          have e1 : K ++ j :: J ++ e :: l.drop (i + 1) = K ++ j :: (J ++ e :: l.drop (i + 1)) := by simp
          rw [e1, List.set_append_right _ _ (le_refl _), Nat.sub_self, List.set_cons_zero]
          have e2 : K ++ e :: (J ++ e :: l.drop (i + 1)) = (K ++ e :: J) ++ e :: l.drop (i + 1) := by simp
          rw [e2, List.set_append_right _ _ (by simp; omega)]
          have e3 : i - (K ++ e :: J).length = 0 := by simp; omega
          rw [e3, List.set_cons_zero]
          simp
        have := ih (i + 1) (J ++ [none]) ((mem.set K.length e).set i none) (by omega) (by rw [hf]; exact hset) (by rw [hfl]; simp; omega) (by
          intro y hy
          rcases List.mem_append.1 hy with hy | hy
          · rcases hJ y (by simp [hy]) with h | h
            · exact .inl h
            · exact .inr ⟨h.1, by rw [ht]; exact List.mem_append_left _ h.2⟩
          · simp only [List.mem_singleton] at hy
            exact .inl hy)
        rw [hfl] at this
        exact this

/-- **C63, full statement**: after a purge the pool holds exactly the entries that are in use elsewhere, in order. -/
def C63_full : Prop := ∀ (out : ℕ → ℕ) (l : List (Option ℕ)), (∀ e ∈ l, e ≠ none) → purge out l = l.filter (keep out l)

/-- **C63, partial**: after a purge the kept entries come first, in order, none is lost or duplicated; the vector has its
old length, the rest being null pointers and unused objects.  Missing: the unused entries are not removed. -/
theorem C63_partial (out : ℕ → ℕ) (l : List (Option ℕ)) :
    (purge out l).length = l.length ∧
    ∃ rest, purge out l = l.filter (keep out l) ++ rest ∧
      ∀ y ∈ rest, y = none ∨ (useCount out l y = 1 ∧ y ∈ l) := by
  obtain ⟨J, h1, h2, h3⟩ := purge_inv out l l.length 0 [] l (by omega) (by simp) (by simp) (by simp)
  have h4 : purge out l = l.filter (keep out l) ++ J := by
    rw [← h1]; simp [purge]
  exact ⟨by rw [h4, List.length_append, h2], J, h4, h3⟩

/-- The second of three objects is in use: it is moved to the front, its old place is null, the third, unused object
stays. -/
example : purge (fun x => if x = 1 then 1 else 0) [some 0, some 1, some 2] = [some 1, none, some 2] := by decide

theorem purge_unused_tail (out : ℕ → ℕ) (l : List (Option ℕ)) : ∀ (n i : ℕ) (res : ℕ), i + n = l.length →
    (∀ e ∈ l.drop i, useCount out l e = 1) → purgeLoop out n i res l = l := by
  intro n
  induction n with
  | zero => intro i res _ _; rfl
  | succ n ih =>
    intro i res hi h
    have hil : i < l.length := by omega
    rw [List.drop_eq_getElem_cons hil] at h
    rw [purgeLoop, List.getElem?_eq_getElem hil]
    dsimp only
    rw [if_pos (h _ List.mem_cons_self)]
    exact ih (i + 1) res (by omega) fun e he => h e (List.mem_cons_of_mem _ he)

/-- **C63 fails**: a purge never shortens the pool: nothing is removed from a pool of which no object is in use. -/
theorem C63_refuted : ¬ C63_full ∧
    ∀ (out : ℕ → ℕ) (l : List (Option ℕ)), (∀ e ∈ l, useCount out l e = 1) → purge out l = l := by
  have key : ∀ (out : ℕ → ℕ) (l : List (Option ℕ)), (∀ e ∈ l, useCount out l e = 1) → purge out l = l := by
    intro out l h
    exact purge_unused_tail out l l.length 0 0 (by omega) (by simpa using h)
  refine ⟨fun h => ?_, key⟩
  have h1 := h (fun _ => 0) [some 0] (by simp)
  rw [key _ [some 0] (by simp [useCount])] at h1
  simp [keep, useCount] at h1

/-- A pool in which every entry is an object allocated before. -/
def PoolOk (s : PoolSt) : Prop := ∀ x, some x ∈ s.held → x < s.fresh

/-- **C63, making an object**: the object returned by `Make` is new, is held exactly once, after the old entries, which
are unchanged; but a second object is allocated that nobody owns. -/
theorem C63_make (s : PoolSt) (h : PoolOk s) :
    (poolMake s).1.held = s.held ++ [some (poolMake s).2] ∧ some (poolMake s).2 ∉ s.held ∧
    (poolMake s).1.held.count (some (poolMake s).2) = 1 ∧ PoolOk (poolMake s).1 ∧
    ∃ x, (poolMake s).1.leaked = x :: s.leaked ∧ some x ∉ (poolMake s).1.held ∧ x ≠ (poolMake s).2 := by
  have hn : some (poolMake s).2 ∉ s.held := by
    intro hx
    have := h _ hx
    simp only [poolMake] at this
    omega
  refine ⟨rfl, hn, ?_, ?_, s.fresh, rfl, ?_, ?_⟩
  · have : (poolMake s).1.held = s.held ++ [some (poolMake s).2] := rfl
    rw [this, List.count_append, List.count_eq_zero.2 hn]
    simp
  · intro x hx
    simp only [poolMake, List.mem_append, List.mem_singleton, Option.some.injEq] at hx ⊢
    rcases hx with hx | hx
    · have := h x hx; omega
    · omega
  · simp only [poolMake, List.mem_append, List.mem_singleton, Option.some.injEq, not_or]
    exact ⟨fun hx => absurd (h _ hx) (by omega), by omega⟩
  · simp only [poolMake]; omega

example : PoolOk (poolMake (poolMake {}).1).1 ∧ (poolMake (poolMake {}).1).1.held = [some 1, some 3] :=
  ⟨(C63_make _ (C63_make {} (by intro x hx; simp at hx)).2.2.2.1).2.2.2.1, rfl⟩

/-! ### C64 -/

/-- **C64, full statement**. -/
def C64_full : Prop :=
  ∀ (points : List ℕ) (i : ℕ), (∀ h : i < points.length, getPoint points i = .ok points[i]) ∧
    (points.length ≤ i → getPoint points i = .throws)

/-- **C64, partial**: the right point below the degree, an exception above the degree.  Missing: the index equal to the
degree. -/
theorem C64_partial {α : Type} (points : List α) (i : ℕ) :
    (∀ h : i < points.length, getPoint points i = .ok points[i]) ∧
    (points.length < i → getPoint points i = .throws) := by
  constructor
  · intro h
    rw [getPoint, if_neg (by omega), List.getElem?_eq_getElem h]
  · intro h
    rw [getPoint, if_pos h]

example : getPoint [7, 8] 1 = .ok 8 ∧ getPoint [7, 8] 3 = .throws := by decide

/-- **C64 fails**: for every witness set, asking for the point whose index is the degree passes the range check and reads
behind the end. -/
theorem C64_refuted : ¬ C64_full ∧ ∀ points : List ℕ, getPoint points points.length = .undef := by
  have key : ∀ points : List ℕ, getPoint points points.length = .undef := by
    intro points
    rw [getPoint, if_neg (by omega), List.getElem?_eq_none (le_refl _)]
  refine ⟨fun h => ?_, key⟩
  have := (h [] 0).2 (le_refl _)
  have h2 : getPoint ([] : List ℕ) 0 = .undef := key []
  rw [h2] at this
  cases this

/-- **C79**: for sizes that fit their types, a witness set is reported consistent exactly when the number of variables is
the number of functions plus the dimension of the slice, although the subtraction is unsigned. -/
theorem C79 (vars funcs dim : ℕ) (hv : vars < 2 ^ 63) (hf : funcs < 2 ^ 63) (hd : dim < 2 ^ 32) :
    isConsistent vars funcs dim = true ↔ vars = funcs + dim := by
  unfold isConsistent
  rw [beq_iff_eq]
  omega

/-- More functions than variables is never consistent. -/
example : isConsistent 3 2 1 = true ∧ isConsistent 2 3 1 = false := by decide

end B2.Infra
