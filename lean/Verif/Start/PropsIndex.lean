import Verif.Start.Index

/-!
# Property C31: index-to-subscript is a bijection
-/

namespace B2.Start

/-- Mixed-radix notation, least significant digit first. -/
def toIndex : List ℕ → List ℕ → ℕ
  | d :: ds, s :: ss => s + d * toIndex ds ss
  | _, _ => 0

/-- `s` lies in the box: one entry per dimension, each below it. -/
def InBox (s dims : List ℕ) : Prop := List.Forall₂ (· < ·) s dims

theorem strides_length (acc : ℕ) (ds : List ℕ) : (strides acc ds).length = ds.length := by
  induction ds generalizing acc with
  | nil => rfl
  | cons d ds ih => simp [strides, ih]

theorem strides_append (acc : ℕ) (ds : List ℕ) (d : ℕ) :
    strides acc (ds ++ [d]) = strides acc ds ++ [acc * ds.prod] := by
  induction ds generalizing acc with
  | nil => simp [strides]
  | cons e ds ih => simp [strides, ih, mul_assoc]

theorem toIndex_append (ds ss : List ℕ) (d s : ℕ) (h : ss.length = ds.length) :
    toIndex (ds ++ [d]) (ss ++ [s]) = toIndex ds ss + ds.prod * s := by
  induction ds generalizing ss with
  | nil =>
    cases ss with
    | nil => simp [toIndex]
    | cons _ _ => simp at h
  | cons e ds ih =>
    cases ss with
    | nil => simp at h
    | cons t ss =>
      simp only [List.cons_append, toIndex, ih ss (by simpa using h), List.prod_cons]
      ring

theorem toIndex_lt (ds ss : List ℕ) (h : InBox ss ds) : toIndex ds ss < ds.prod := by
  induction h with
  | nil => simp [toIndex]
  | @cons s d ss ds h1 _ ih =>
    simp only [toIndex, List.prod_cons]
    calc s + d * toIndex ds ss < d + d * toIndex ds ss := by omega
      _ = d * (toIndex ds ss + 1) := by ring
      _ ≤ d * ds.prod := Nat.mul_le_mul_left _ ih

theorem indexToSubscript_eq (index : ℕ) (ds : List ℕ) (hd : ds ≠ []) :
    indexToSubscript index ds = if index ≥ ds.prod then none
      else some (subscriptLoop index (strides 1 ds).reverse).reverse := by
  obtain ⟨l, d, rfl⟩ : ∃ l d, ds = l ++ [d] := ⟨_, _, (List.dropLast_append_getLast hd).symm⟩
  unfold indexToSubscript
  rw [strides_append]
  simp

/-- The loop on a point of the box gives the point back. -/
theorem subscriptLoop_spec (ds : List ℕ) : ∀ ss, InBox ss ds →
    (subscriptLoop (toIndex ds ss) (strides 1 ds).reverse).reverse = ss := by
  induction ds using List.reverseRecOn with
  | nil => intro ss h; cases h; rfl
  | append_singleton ds d ih =>
    intro ss h
    obtain ⟨ss', s', h1, h2, rfl⟩ : ∃ ss' s', InBox ss' ds ∧ s' < d ∧ ss = ss' ++ [s'] := by
      have hl := h.length_eq
      obtain ⟨ss', s', rfl⟩ : ∃ l x, ss = l ++ [x] :=
        ⟨_, _, (List.dropLast_append_getLast (by rintro rfl; simp at hl)).symm⟩
      have h' := List.rel_reverse h
      simp only [List.reverse_append, List.reverse_cons, List.reverse_nil, List.nil_append,
        List.singleton_append, List.forall₂_cons] at h'
      have h'' := List.rel_reverse h'.2
      simp only [List.reverse_reverse] at h''
      exact ⟨ss', s', h'', h'.1, rfl⟩
    have hlt := toIndex_lt ds ss' h1
    rw [toIndex_append _ _ _ _ h1.length_eq, strides_append]
    simp only [one_mul, List.reverse_append, List.reverse_cons, List.reverse_nil, List.nil_append,
      List.singleton_append, subscriptLoop]
    have e1 : (toIndex ds ss' + ds.prod * s') % ds.prod = toIndex ds ss' := by
      rw [Nat.add_mul_mod_self_left, Nat.mod_eq_of_lt hlt]
    rw [e1, ih ss' h1]
    have e2 : (toIndex ds ss' + ds.prod * s' - toIndex ds ss') / ds.prod = s' := by
      rw [Nat.add_sub_cancel_left, Nat.mul_div_cancel_left]
      exact lt_of_le_of_lt (Nat.zero_le _) hlt
    rw [e2]

/-- Every index below the product is the index of a point of the box. -/
theorem exists_toIndex (ds : List ℕ) : ∀ index < ds.prod, ∃ ss, InBox ss ds ∧ toIndex ds ss = index := by
  induction ds with
  | nil => intro index h; exact ⟨[], List.Forall₂.nil, by simp [toIndex] at h ⊢; omega⟩
  | cons d ds ih =>
    intro index h
    rw [List.prod_cons] at h
    have hd : 0 < d := by
      rcases Nat.eq_zero_or_pos d with e | e
      · subst e; simp at h
      · exact e
    obtain ⟨ss, h1, h2⟩ := ih (index / d) (by rw [Nat.div_lt_iff_lt_mul hd]; rwa [mul_comm] at h)
    exact ⟨index % d :: ss, List.Forall₂.cons (Nat.mod_lt _ hd) h1, by
      simp [toIndex, h2, Nat.mod_add_div]⟩

/-- **C31.** For every non-empty list of dimensions: an index below the product is converted to the
point of the box whose mixed-radix value it is; every point of the box is the conversion of its
mixed-radix value; every other index is rejected. -/
theorem C31_bijection (dims : List ℕ) (hd : dims ≠ []) :
    (∀ index < dims.prod, ∃ s, indexToSubscript index dims = some s ∧ InBox s dims ∧
      toIndex dims s = index) ∧
    (∀ s, InBox s dims → toIndex dims s < dims.prod ∧
      indexToSubscript (toIndex dims s) dims = some s) ∧
    (∀ index, dims.prod ≤ index → indexToSubscript index dims = none) := by
  have key : ∀ s, InBox s dims → toIndex dims s < dims.prod ∧
      indexToSubscript (toIndex dims s) dims = some s := by
    intro s h
    have hlt := toIndex_lt dims s h
    refine ⟨hlt, ?_⟩
    rw [indexToSubscript_eq _ _ hd, if_neg (by omega), subscriptLoop_spec dims s h]
  refine ⟨?_, key, ?_⟩
  · intro index h
    obtain ⟨s, h1, h2⟩ := exists_toIndex dims index h
    exact ⟨s, by rw [← h2]; exact (key s h1).2, h1, h2⟩
  · intro index h
    rw [indexToSubscript_eq _ _ hd, if_pos h]

/-- Consequence: different indices have different subscripts. -/
theorem C31_injective (dims : List ℕ) (i j : ℕ) (s : List ℕ)
    (hi : indexToSubscript i dims = some s) (hj : indexToSubscript j dims = some s) : i = j := by
  have hd : dims ≠ [] := by rintro rfl; simp [indexToSubscript, strides] at hi
  obtain ⟨h1, _, h3⟩ := C31_bijection dims hd
  have lt : ∀ k, indexToSubscript k dims = some s → k < dims.prod := by
    intro k hk
    by_contra hc
    rw [h3 k (by omega)] at hk
    simp at hk
  obtain ⟨a, a1, _, a3⟩ := h1 i (lt i hi)
  obtain ⟨b, b1, _, b3⟩ := h1 j (lt j hj)
  rw [hi, Option.some.injEq] at a1
  rw [hj, Option.some.injEq] at b1
  rw [← a3, ← b3, ← a1, ← b1]

/-- Index 17 in a 2 x 3 x 4 box is the point (1, 2, 2). -/
example : indexToSubscript 17 [2, 3, 4] = some [1, 2, 2] :=
  ((C31_bijection [2, 3, 4] (by simp)).2.1 [1, 2, 2] (by simp [InBox])).2

end B2.Start
