/-
C61, C62: observers.
-/
import Verif.Infra.Observer
import Mathlib.Data.List.Nodup

namespace B2.Infra

/-- When did the registration of `a` that is in force begin?  The second argument is the number of calls so far, the
third the answer so far. -/
def since (a : ℕ) : ℕ → Option ℕ → List Op → Option ℕ
  | _, r, [] => r
  | t, r, .add b :: h => since a (t + 1) (if b = a then (match r with | none => some t | some x => some x) else r) h
  | t, r, .rem b :: h => since a (t + 1) (if b = a then none else r) h

/-- A state agrees with registration times `f`, all before `t`. -/
structure Reg (f : ℕ → Option ℕ) (t : ℕ) (l : List ℕ) : Prop where
  nodup : l.Nodup
  mem : ∀ a, a ∈ l ↔ (f a).isSome = true
  lt : ∀ a x, f a = some x → x < t
  ord : l.Pairwise fun a b => ∀ x y, f a = some x → f b = some y → x < y

theorem reg_step (f : ℕ → Option ℕ) (t : ℕ) (l : List ℕ) (h : Reg f t l) (o : Op) :
    Reg (fun a => since a t (f a) [o]) (t + 1) (applyOp l o) := by
  cases o with
  | add b =>
    simp only [since, applyOp, addObs]
    split_ifs with hb
    · have hb' := (h.mem b).1 hb
      have hf : (fun a => if b = a then (match f a with | none => some t | some x => some x) else f a) = f := by
        funext a
        split_ifs with he
        · subst he
          cases hfa : f b with
          | none => rw [hfa] at hb'; cases hb'
          | some x => rfl
        · rfl
      rw [hf]
      exact ⟨h.nodup, h.mem, fun a x hx => Nat.lt_succ_of_lt (h.lt a x hx), h.ord⟩
    · have hb' : f b = none := by
        cases hfb : f b with
        | none => rfl
        | some x => exact absurd ((h.mem b).2 (by rw [hfb]; rfl)) hb
      constructor
      · rw [List.nodup_append]
        refine ⟨h.nodup, by simp, ?_⟩
        intro a ha c hc
        simp only [List.mem_singleton] at hc
        subst hc
        rintro rfl
        exact hb ha
      · intro a
        rw [List.mem_append, List.mem_singleton]
        by_cases hab : b = a
        · subst hab; simp [hb']
        · rw [if_neg hab, ← h.mem]
          constructor
          · rintro (h1 | h1)
            · exact h1
            · exact absurd h1.symm hab
          · exact .inl
      · intro a x hx
        by_cases hab : b = a
        · subst hab
          rw [if_pos rfl, hb'] at hx
          simp only [Option.some.injEq] at hx
          omega
        · rw [if_neg hab] at hx
          exact Nat.lt_succ_of_lt (h.lt a x hx)
      · rw [List.pairwise_append]
        refine ⟨h.ord.imp_of_mem ?_, by simp, ?_⟩
        · intro a c ha hc hac x y hx hy
          rw [if_neg (fun he : b = a => hb (he ▸ ha))] at hx
          rw [if_neg (fun he : b = c => hb (he ▸ hc))] at hy
          exact hac x y hx hy
        · intro a ha c hc x y hx hy
          simp only [List.mem_singleton] at hc
          subst hc
          rw [if_neg (fun he : c = a => hb (he ▸ ha))] at hx
          rw [if_pos rfl, hb'] at hy
          simp only [Option.some.injEq] at hy
          rw [← hy]
          exact h.lt a x hx
  | rem b =>
    simp only [since, applyOp, remObs]
    constructor
    · exact h.nodup.filter _
    · intro a
      rw [List.mem_filter]
      by_cases hab : b = a
      · subst hab; simp
      · rw [if_neg hab, ← h.mem]
        simp [Ne.symm hab]
    · intro a x hx
      by_cases hab : b = a
      · rw [if_pos hab] at hx; cases hx
      · rw [if_neg hab] at hx
        exact Nat.lt_succ_of_lt (h.lt a x hx)
    · refine (h.ord.sublist List.filter_sublist).imp ?_
      intro a c hac x y hx hy
      split_ifs at hx
      split_ifs at hy
      exact hac x y hx hy

theorem since_cons (a : ℕ) (o : Op) (h : List Op) (t : ℕ) (r : Option ℕ) :
    since a t r (o :: h) = since a (t + 1) (since a t r [o]) h := by
  cases o <;> rfl

theorem reg_run (h : List Op) : ∀ (f : ℕ → Option ℕ) (t : ℕ) (l : List ℕ), Reg f t l →
    Reg (fun a => since a t (f a) h) (t + h.length) (h.foldl applyOp l) := by
  induction h with
  | nil => intro f t l hr; exact hr
  | cons o h ih =>
    intro f t l hr
    have h1 := ih _ _ _ (reg_step f t l hr o)
    rw [List.foldl_cons]
    have h2 : (fun a => since a t (f a) (o :: h)) = fun a => since a (t + 1) (since a t (f a) [o]) h := by
      funext a; exact since_cons a o h t (f a)
    rw [h2]
    have h3 : t + (o :: h).length = t + 1 + h.length := by simp only [List.length_cons]; omega
    rw [h3]
    exact h1

/-- **C61**: after any history of registrations and removals, a notification of observers which do not themselves change
the registrations reaches exactly the registered observers, each once, in the order in which their registrations began. -/
theorem C61 (h : List Op) (act : ℕ → List Op) (hact : ∀ a, act a = []) :
    ∃ got, notify act (runOps h) = some got ∧ got.Nodup ∧ (∀ a, a ∈ got ↔ (since a 0 none h).isSome = true) ∧
      got.Pairwise fun a b => ∀ x y, since a 0 none h = some x → since b 0 none h = some y → x < y := by
  have hr := reg_run h (fun _ => none) 0 [] ⟨List.nodup_nil, by simp, by simp, by simp⟩
  have hn : ∀ l l', notifyLoop act l l' = some l' := by
    intro l l'
    induction l' with
    | nil => rfl
    | cons a l' ih => simp only [notifyLoop, hact, during, ih]
  exact ⟨runOps h, hn _ _, hr.nodup, hr.mem, hr.ord⟩

/-- **C61, single calls**: registering again changes nothing; removing removes exactly that observer and keeps the order
of the others. -/
theorem C61_calls (l : List ℕ) (a : ℕ) :
    (a ∈ l → addObs l a = l) ∧ addObs (addObs l a) a = addObs l a ∧
    (∀ b, b ∈ remObs l a ↔ b ∈ l ∧ b ≠ a) ∧ (remObs l a).Sublist l := by
  refine ⟨fun h => by simp [addObs, h], ?_, ?_, List.filter_sublist⟩
  · unfold addObs
    split_ifs with h1 h2
    · rfl
    · rfl
    · exact absurd (by simp) h2
  · intro b; simp [remObs]

/-- Register 3, 5, 3 again, remove 3, register 3: delivered to 5 and then 3. -/
example : notify (fun _ => []) (runOps [.add 3, .add 5, .add 3, .rem 3, .add 3]) = some [5, 3] := by decide

/-! ### C62 -/

/-- **C62, full statement**: when some observers remove themselves while being notified, all observers still receive the
event exactly once, in order. -/
def C62_full : Prop :=
  ∀ (l : List ℕ) (act : ℕ → List Op), l.Nodup → (∀ a ∈ l, act a = [] ∨ act a = [.rem a]) → notify act l = some l

/-- **C62, partial**: a notification is defined, and reaches everyone once in order, exactly when no call made during it
changes the registrations.  Missing: self-removal, which is undefined behaviour. -/
theorem C62_partial (l : List ℕ) (act : ℕ → List Op) :
    (notify act l = some l ↔ ∀ a ∈ l, ∀ o ∈ act a, applyOp l o = l) ∧
    (notify act l = none ↔ ∃ a ∈ l, ∃ o ∈ act a, applyOp l o ≠ l) := by
  have hd : ∀ os, during l os = some () ↔ ∀ o ∈ os, applyOp l o = l := by
    intro os
    induction os with
    | nil => simp [during]
    | cons o os ih =>
      simp only [during, List.forall_mem_cons]
      split_ifs with h
      · rw [ih]; simp [h]
      · simp [h]
  have hd' : ∀ os, during l os = none ↔ ¬ ∀ o ∈ os, applyOp l o = l := by
    intro os
    rw [← hd]
    cases during l os <;> simp
  have key : ∀ l', ((∀ a ∈ l', ∀ o ∈ act a, applyOp l o = l) → notifyLoop act l l' = some l') ∧
      ((∃ a ∈ l', ∃ o ∈ act a, applyOp l o ≠ l) → notifyLoop act l l' = none) := by
    intro l'
    induction l' with
    | nil => simp [notifyLoop]
    | cons a l' ih =>
      constructor
      · intro h
        have h1 := (hd (act a)).2 (h a (by simp))
        simp only [notifyLoop, h1, ih.1 fun b hb => h b (by simp [hb])]
      · rintro ⟨b, hb, o, ho, hne⟩
        cases h1 : during l (act a) with
        | none => simp only [notifyLoop, h1]
        | some u =>
          cases u
          rcases List.mem_cons.1 hb with rfl | hb
          · exact absurd ((hd (act b)).1 h1 o ho) hne
          · simp only [notifyLoop, h1, ih.2 ⟨b, hb, o, ho, hne⟩]
  have hor : (∀ a ∈ l, ∀ o ∈ act a, applyOp l o = l) ∨ ∃ a ∈ l, ∃ o ∈ act a, applyOp l o ≠ l := by
    by_cases h : ∀ a ∈ l, ∀ o ∈ act a, applyOp l o = l
    · exact .inl h
    · push Not at h; exact .inr h
  constructor
  · refine ⟨fun h => ?_, (key l).1⟩
    rcases hor with h1 | h1
    · exact h1
    · have := (key l).2 h1
      unfold notify at h
      rw [this] at h; cases h
  · refine ⟨fun h => ?_, (key l).2⟩
    rcases hor with h1 | h1
    · have := (key l).1 h1
      unfold notify at h
      rw [this] at h; cases h
    · exact h1

/-- **C62 fails**: whenever a registered observer removes itself while being notified, as the recorder of the first
precision increase does, the behaviour is undefined, whatever its position. -/
theorem C62_refuted : ¬ C62_full ∧
    ∀ (l : List ℕ) (act : ℕ → List Op) (a : ℕ), a ∈ l → act a = [.rem a] → notify act l = none := by
  have key : ∀ (l : List ℕ) (act : ℕ → List Op) (a : ℕ), a ∈ l → act a = [.rem a] → notify act l = none := by
    intro l act a ha hact
    rw [(C62_partial l act).2]
    refine ⟨a, ha, .rem a, by simp [hact], ?_⟩
    intro h
    have : a ∈ applyOp l (.rem a) := by rw [h]; exact ha
    simp [applyOp, remObs] at this
  refine ⟨fun h => ?_, key⟩
  have h1 := h [0, 1] (fun a => if a = 0 then [.rem a] else []) (by simp) (by
    intro a _
    by_cases ha : a = 0 <;> simp [ha])
  rw [key [0, 1] _ 0 (by simp) (by simp)] at h1
  cases h1

theorem rawLoop_passive (self : ℕ → Bool) : ∀ (n i : ℕ) (mem : List ℕ) (size : ℕ), i + n ≤ mem.length →
    (∀ a ∈ (mem.drop i).take n, self a = false) → rawLoop self n i mem size = (mem.drop i).take n := by
  intro n
  induction n with
  | zero => intro i mem size _ _; simp [rawLoop]
  | succ n ih =>
    intro i mem size hl hs
    have hi : i < mem.length := by omega
    rw [List.drop_eq_getElem_cons hi, List.take_succ_cons] at hs ⊢
    rw [rawLoop, List.getElem?_eq_getElem hi]
    dsimp only
    rw [hs _ (by simp)]
    simp only [Bool.false_eq_true, if_false]
    rw [ih (i + 1) mem size (by omega) fun a ha => hs a (by simp [ha])]

/-- **C62, what happens**: in an implementation with in-place erasure and pointer iterators, when exactly one observer
removes itself and it is not the last, the observer after it is skipped and the last one is notified twice (unless these
are the same). -/
theorem C62_raw (A B : List ℕ) (r b : ℕ) (self : ℕ → Bool) (hr : self r = true) (hrA : r ∉ A) (hrB : r ∉ B)
    (hrb : r ≠ b) (hA : ∀ a ∈ A, self a = false) (hB : ∀ a ∈ B, self a = false) (hb : self b = false) :
    rawNotify self (A ++ r :: b :: B) = A ++ r :: (B ++ [(b :: B).getLast (by simp)]) := by
  unfold rawNotify
  have gen : ∀ (A1 A2 : List ℕ), A = A1 ++ A2 →
      rawLoop self (A2 ++ r :: b :: B).length A1.length (A ++ r :: b :: B) (A ++ r :: b :: B).length =
        A2 ++ r :: (B ++ [(b :: B).getLast (by simp)]) := by
    intro A1 A2
    induction A2 generalizing A1 with
    | nil =>
      intro he
      rw [List.append_nil] at he
      subst he
      rw [List.nil_append, List.nil_append, List.length_cons, rawLoop]
      have hget : (A ++ r :: b :: B)[A.length]? = some r := by simp
      rw [hget]
      dsimp only
      rw [hr]
      simp only [if_true]
      have hkept : ((A ++ r :: b :: B).take (A ++ r :: b :: B).length).filter (fun x => x ≠ r) = A ++ b :: B := by
        rw [List.take_length, List.filter_append, List.filter_cons_of_neg (by simp), List.filter_eq_self.2,
          List.filter_eq_self.2]
        · intro x hx
          rcases List.mem_cons.1 hx with rfl | hx
          · simp [Ne.symm hrb]
          · simp only [ne_eq, decide_not, Bool.not_eq_eq_eq_not, Bool.not_true, decide_eq_false_iff_not]
            rintro rfl; exact hrB hx
        · intro x hx
          simp only [ne_eq, decide_not, Bool.not_eq_eq_eq_not, Bool.not_true, decide_eq_false_iff_not]
          rintro rfl; exact hrA hx
      have hmem : (rawRemove (A ++ r :: b :: B) (A ++ r :: b :: B).length r).1 =
          A ++ b :: B ++ [(b :: B).getLast (by simp)] := by
        unfold rawRemove
        dsimp only
        rw [hkept]
        congr 1
        have hlen : (A ++ b :: B).length = (A ++ r :: b :: B).length - 1 := by simp
        have h3 : A ++ r :: b :: B = (A ++ r :: (b :: B).dropLast) ++ [(b :: B).getLast (by simp)] := by
          conv_lhs => rw [← List.dropLast_append_getLast (l := b :: B) (by simp)]
          simp
        conv_lhs => rw [h3]
        rw [List.drop_append, List.drop_of_length_le (by simp)]
        simp
      rw [hmem]
      congr 1
      have hdrop : ((A ++ b :: B ++ [(b :: B).getLast (by simp)]).drop (A.length + 1)).take (b :: B).length =
          B ++ [(b :: B).getLast (by simp)] := by
        rw [List.append_assoc, List.drop_append, List.drop_of_length_le (by omega)]
        simp only [Nat.add_sub_cancel_left, List.nil_append, List.cons_append, List.drop_succ_cons, List.drop_zero]
        exact List.take_of_length_le (by simp)
      rw [rawLoop_passive]
      · exact hdrop
      · simp; omega
      · rw [hdrop]
        intro a ha
        rcases List.mem_append.1 ha with ha | ha
        · exact hB a ha
        · simp only [List.mem_singleton] at ha
          rw [ha]
          rcases List.mem_cons.1 (List.getLast_mem (l := b :: B) (by simp)) with h | h
          · rw [h]; exact hb
          · exact hB _ h
    | cons a A2 ih =>
      intro he
      have h1 := ih (A1 ++ [a]) (by rw [he]; simp)
      rw [List.cons_append, List.length_cons, rawLoop]
      have hget : (A ++ r :: b :: B)[A1.length]? = some a := by rw [he]; simp
      rw [hget]
      dsimp only
      rw [hA a (by rw [he]; simp)]
      simp only [Bool.false_eq_true, if_false]
      have h2 : (A1 ++ [a]).length = A1.length + 1 := by simp
      rw [h2] at h1
      rw [h1]
      rfl
  exact gen [] A rfl

/-- Four observers, the second removes itself: the third is skipped, the fourth notified twice. -/
example : rawNotify (fun a => a == 1) [0, 1, 2, 3] = [0, 1, 3, 3] := by decide

end B2.Infra
