import Verif.Tree.Cache

/-!
# Proofs about cached evaluation
-/

namespace B2.Cache

open B2 (Var)

variable {V : Type}

/-- One operand evaluation in the loop of `FreshEval`. -/
def evalStep (G : Graph V) (t : NumType) (d : Option Var) (acc : List V × State V) (j : ℕ) :
    List V × State V :=
  (acc.1 ++ [(evalC G t d j acc.2).1], (evalC G t d j acc.2).2)

theorem evalC_op {G : Graph V} {i : ℕ} {f : List V → V} {os : List ℕ}
    (h : G.cell i = .op f os) (t : NumType) (d : Option Var) (s : State V) :
    evalC G t d i s = match s.cache t i with
      | some x => (x, s)
      | none =>
          let r := os.foldl (evalStep G t d) ([], s)
          (f r.1, r.2.store t i (f r.1)) := by
  have key : ∀ (os : List ℕ) (h : G.cell i = .op f os),
      evalC G t d i s = match s.cache t i with
      | some x => (x, s)
      | none =>
          let r := os.attach.foldl (fun (acc : List V × State V) j =>
            let q := evalC G t d j.1 acc.2
            (acc.1 ++ [q.1], q.2)) ([], s)
          (f r.1, r.2.store t i (f r.1)) := by
    intro os h
    rw [evalC]
    split
    · rename_i h'; rw [h] at h'; cases h'
    · rename_i h'; rw [h] at h'; cases h'
    · rename_i h'; rw [h] at h'; cases h'
    · rename_i h'; rw [h] at h'; cases h'; rfl
  rw [key os h]
  have : os.attach.foldl (fun (acc : List V × State V) j =>
            let q := evalC G t d j.1 acc.2
            (acc.1 ++ [q.1], q.2)) ([], s) = os.foldl (evalStep G t d) ([], s) :=
    List.foldl_attach (l := os) (f := evalStep G t d) (b := ([], s))
  rw [this]

theorem evalC_var {G : Graph V} {i : ℕ} {v : Var} (h : G.cell i = .var v) (t : NumType)
    (d : Option Var) (s : State V) : evalC G t d i s = (s.vals t v, s) := by
  rw [evalC]
  split <;> rename_i h' <;> rw [h] at h' <;> cases h'
  rfl

theorem evalC_const {G : Graph V} {i : ℕ} {c : V} (h : G.cell i = .const c) (t : NumType)
    (d : Option Var) (s : State V) : evalC G t d i s = (c, s) := by
  rw [evalC]
  split <;> rename_i h' <;> rw [h] at h' <;> cases h'
  rfl

theorem evalC_differential {G : Graph V} {i : ℕ} {v : Var} {a b : V}
    (h : G.cell i = .differential v a b) (t : NumType) (d : Option Var) (s : State V) :
    evalC G t d i s = match s.cache t i with
      | some x => (x, s)
      | none => (if d = some v then a else b, s.store t i (if d = some v then a else b)) := by
  rw [evalC]
  split <;> rename_i h' <;> rw [h] at h' <;> cases h'
  rfl

theorem value_op {G : Graph V} {i : ℕ} {f : List V → V} {os : List ℕ}
    (h : G.cell i = .op f os) (vals : Var → V) (d : Option Var) :
    value G vals d i = f (os.map (value G vals d)) := by
  rw [value]
  split <;> rename_i h' <;> rw [h] at h' <;> cases h'
  simp

theorem value_var {G : Graph V} {i : ℕ} {v : Var} (h : G.cell i = .var v) (vals : Var → V)
    (d : Option Var) : value G vals d i = vals v := by
  rw [value]
  split <;> rename_i h' <;> rw [h] at h' <;> cases h'
  rfl

theorem value_const {G : Graph V} {i : ℕ} {c : V} (h : G.cell i = .const c) (vals : Var → V)
    (d : Option Var) : value G vals d i = c := by
  rw [value]
  split <;> rename_i h' <;> rw [h] at h' <;> cases h'
  rfl

theorem value_differential {G : Graph V} {i : ℕ} {v : Var} {a b : V}
    (h : G.cell i = .differential v a b) (vals : Var → V) (d : Option Var) :
    value G vals d i = if d = some v then a else b := by
  rw [value]
  split <;> rename_i h' <;> rw [h] at h' <;> cases h'
  rfl

theorem reset_eq (G : Graph V) (i : ℕ) (s : State V) :
    reset G i s = (G.cell i).operands.foldl (fun acc j => reset G j acc)
      { s with cache := fun t j => if j = i then none else s.cache t j } := by
  rw [reset]
  exact List.foldl_attach (l := (G.cell i).operands) (f := fun acc j => reset G j acc)

/-! ### Frame properties of evaluation -/

/-- Evaluation keeps the variables' values, the caches of the other number type, and every
cached value. -/
structure Frame (t : NumType) (s s' : State V) : Prop where
  vals : s'.vals = s.vals
  other : ∀ t' j, t' ≠ t → s'.cache t' j = s.cache t' j
  keep : ∀ j x, s.cache t j = some x → s'.cache t j = some x

theorem Frame.refl (t : NumType) (s : State V) : Frame t s s := ⟨rfl, fun _ _ _ => rfl, fun _ _ => id⟩

theorem Frame.trans {t : NumType} {a b c : State V} (h : Frame t a b) (g : Frame t b c) :
    Frame t a c :=
  ⟨g.vals.trans h.vals, fun t' j hn => (g.other t' j hn).trans (h.other t' j hn),
   fun j x hx => g.keep j x (h.keep j x hx)⟩

theorem Frame.store {t : NumType} {s : State V} {i : ℕ} (h : s.cache t i = none) (x : V) :
    Frame t s (s.store t i x) := by
  refine ⟨rfl, fun t' j hn => by simp [State.store, hn], fun j y hy => ?_⟩
  simp only [State.store]
  split_ifs with hc
  · rw [hc.2, h] at hy; cases hy
  · exact hy

/-- The cache of `i` itself is only written by evaluating `i`. -/
theorem evalC_frame (G : Graph V) (t : NumType) (d : Option Var) (i : ℕ) :
    ∀ s, Frame t s (evalC G t d i s).2 ∧
      ∀ t' j, i < j → (evalC G t d i s).2.cache t' j = s.cache t' j := by
  induction i using Nat.strong_induction_on with
  | _ i ih =>
    intro s
    match h : G.cell i with
    | .var v => rw [evalC_var h]; exact ⟨Frame.refl t s, fun _ _ _ => rfl⟩
    | .const c => rw [evalC_const h]; exact ⟨Frame.refl t s, fun _ _ _ => rfl⟩
    | .differential v a b =>
      rw [evalC_differential h]
      split
      · exact ⟨Frame.refl t s, fun _ _ _ => rfl⟩
      · rename_i hc
        refine ⟨Frame.store hc _, fun t' j hj => ?_⟩
        simp only [State.store]
        rw [if_neg]; omega
    | .op f os =>
      rw [evalC_op h]
      split
      · exact ⟨Frame.refl t s, fun _ _ _ => rfl⟩
      · rename_i hc
        have hos : ∀ j ∈ os, j < i := fun j hj => G.acyclic i j (by rw [h]; exact hj)
        have key : ∀ (os : List ℕ), (∀ j ∈ os, j < i) → ∀ acc : List V × State V,
            Frame t acc.2 (os.foldl (evalStep G t d) acc).2 ∧
            ∀ t' j, i ≤ j → (os.foldl (evalStep G t d) acc).2.cache t' j = acc.2.cache t' j := by
          intro os
          induction os with
          | nil => intro _ acc; exact ⟨Frame.refl t _, fun _ _ _ => rfl⟩
          | cons j os ih2 =>
            intro hlt acc
            have h1 := ih j (hlt j (by simp)) acc.2
            have h2 := ih2 (fun k hk => hlt k (by simp [hk])) (evalStep G t d acc j)
            have hji := hlt j (by simp)
            exact ⟨h1.1.trans h2.1, fun t' k hk => (h2.2 t' k hk).trans (h1.2 t' k (by omega))⟩
        have hk := key os hos ([], s)
        refine ⟨hk.1.trans (Frame.store ?_ _), fun t' j hj => ?_⟩
        · rw [hk.2 t i le_rfl]; exact hc
        · simp only [State.store]
          rw [if_neg (by omega)]
          exact hk.2 t' j (by omega)

/-! ### Consistency -/

/-- On the nodes in `S`, whatever is cached for number type `t` is the true value. -/
def Consistent (G : Graph V) (t : NumType) (d : Option Var) (S : ℕ → Prop) (s : State V) : Prop :=
  ∀ j, S j → ∀ x, s.cache t j = some x → x = value G (s.vals t) d j

/-- `S` contains the operands of its members. -/
def Closed (G : Graph V) (S : ℕ → Prop) : Prop := ∀ i, S i → ∀ j ∈ (G.cell i).operands, S j

theorem Consistent.store {G : Graph V} {t : NumType} {d : Option Var} {S : ℕ → Prop} {s : State V}
    (h : Consistent G t d S s) {i : ℕ} {x : V} (hx : S i → x = value G (s.vals t) d i) :
    Consistent G t d S (s.store t i x) := by
  intro j hj y hy
  simp only [State.store] at hy ⊢
  split_ifs at hy with hc
  · obtain rfl := hc.2
    rw [← Option.some.inj hy]; exact hx hj
  · exact h j hj y hy

theorem evalC_consistent (G : Graph V) (t : NumType) (d : Option Var) (S : ℕ → Prop)
    (hS : Closed G S) (i : ℕ) :
    ∀ s, Consistent G t d S s → Consistent G t d S (evalC G t d i s).2 ∧
      (S i → (evalC G t d i s).1 = value G (s.vals t) d i) := by
  induction i using Nat.strong_induction_on with
  | _ i ih =>
    intro s hs
    match h : G.cell i with
    | .var v => rw [evalC_var h]; exact ⟨hs, fun _ => (value_var h _ _).symm⟩
    | .const c => rw [evalC_const h]; exact ⟨hs, fun _ => (value_const h _ _).symm⟩
    | .differential v a b =>
      rw [evalC_differential h]
      split
      · rename_i x hc
        exact ⟨hs, fun hi => hs i hi x hc⟩
      · exact ⟨hs.store fun _ => (value_differential h _ _).symm,
          fun _ => (value_differential h _ _).symm⟩
    | .op f os =>
      rw [evalC_op h]
      split
      · rename_i x hc
        exact ⟨hs, fun hi => hs i hi x hc⟩
      · have hos : ∀ j ∈ os, j < i := fun j hj => G.acyclic i j (by rw [h]; exact hj)
        have key : ∀ (os : List ℕ), (∀ j ∈ os, j < i) → ∀ acc : List V × State V,
            Consistent G t d S acc.2 → acc.2.vals = s.vals →
            Consistent G t d S (os.foldl (evalStep G t d) acc).2 ∧
            (os.foldl (evalStep G t d) acc).2.vals = s.vals ∧
            ((∀ j ∈ os, S j) → (os.foldl (evalStep G t d) acc).1 =
              acc.1 ++ os.map (value G (s.vals t) d)) := by
          intro os
          induction os with
          | nil => intro _ acc ha hv; exact ⟨ha, hv, fun _ => by simp⟩
          | cons j os ih2 =>
            intro hlt acc ha hv
            have h1 := ih j (hlt j (by simp)) acc.2 ha
            have hf := (evalC_frame G t d j acc.2).1
            have h2 := ih2 (fun k hk => hlt k (by simp [hk])) (evalStep G t d acc j) h1.1
              (hf.vals.trans hv)
            refine ⟨h2.1, h2.2.1, fun hmem => ?_⟩
            rw [List.foldl_cons, h2.2.2 fun k hk => hmem k (by simp [hk])]
            simp [evalStep, h1.2 (hmem j (by simp)), hv]
        have hk := key os hos ([], s) hs rfl
        have hval : S i → f (os.foldl (evalStep G t d) ([], s)).1 = value G (s.vals t) d i := by
          intro hi
          rw [value_op h, hk.2.2 fun j hj => hS i hi j (by rw [h]; exact hj)]
          simp
        refine ⟨hk.1.store ?_, hval⟩
        rw [hk.2.1]; exact hval

/-! ### Reset -/

theorem Below.trans {G : Graph V} {i j k : ℕ} (h : Below G i j) (g : Below G j k) :
    Below G i k := by
  induction h with
  | refl => exact g
  | step hm _ ih => exact .step hm (ih g)

theorem reset_spec (G : Graph V) (i : ℕ) : ∀ s : State V,
    (reset G i s).vals = s.vals ∧
    (∀ t j, (reset G i s).cache t j = s.cache t j ∨ (reset G i s).cache t j = none) ∧
    (∀ t j, Below G i j → (reset G i s).cache t j = none) ∧
    (∀ t j, ¬ Below G i j → (reset G i s).cache t j = s.cache t j) := by
  induction i using Nat.strong_induction_on with
  | _ i ih =>
    intro s
    rw [reset_eq]
    have key : ∀ (os : List ℕ), (∀ j ∈ os, j < i) → ∀ a : State V,
        (os.foldl (fun acc j => reset G j acc) a).vals = a.vals ∧
        (∀ t j, (os.foldl (fun acc j => reset G j acc) a).cache t j = a.cache t j ∨
          (os.foldl (fun acc j => reset G j acc) a).cache t j = none) ∧
        (∀ t j k, k ∈ os → Below G k j →
          (os.foldl (fun acc j => reset G j acc) a).cache t j = none) ∧
        (∀ t j, (∀ k ∈ os, ¬ Below G k j) →
          (os.foldl (fun acc j => reset G j acc) a).cache t j = a.cache t j) := by
      intro os
      induction os with
      | nil => intro _ a; exact ⟨rfl, fun _ _ => .inl rfl, by simp, fun _ _ _ => rfl⟩
      | cons m os ih2 =>
        intro hlt a
        obtain ⟨a1, a2, a3, a4⟩ := ih m (hlt m (by simp)) a
        obtain ⟨b1, b2, b3, b4⟩ := ih2 (fun k hk => hlt k (by simp [hk])) (reset G m a)
        rw [List.foldl_cons]
        refine ⟨b1.trans a1, fun t j => ?_, fun t j k hk hb => ?_, fun t j hn => ?_⟩
        · rcases b2 t j with h | h
          · rcases a2 t j with h' | h'
            · exact .inl (h.trans h')
            · exact .inr (h.trans h')
          · exact .inr h
        · rcases List.mem_cons.mp hk with rfl | hk
          · rcases b2 t j with h | h
            · rw [h]; exact a3 t j hb
            · exact h
          · exact b3 t j k hk hb
        · rw [b4 t j fun k hk => hn k (by simp [hk]), a4 t j (hn m (by simp))]
    obtain ⟨k1, k2, k3, k4⟩ := key (G.cell i).operands (G.acyclic i)
      { s with cache := fun t j => if j = i then none else s.cache t j }
    refine ⟨k1, fun t j => ?_, fun t j hb => ?_, fun t j hn => ?_⟩
    · rcases k2 t j with h | h
      · rw [h]; dsimp only; split_ifs
        · exact .inr rfl
        · exact .inl rfl
      · exact .inr h
    · cases hb with
      | refl =>
        rcases k2 t i with h | h
        · rw [h]; simp
        · exact h
      | step hm hb => exact k3 t j _ hm hb
    · rw [k4 t j fun k hk hb => hn (.step hk hb)]
      have : j ≠ i := by rintro rfl; exact hn (.refl _)
      simp [this]

theorem reset_consistent {G : Graph V} {t : NumType} {d : Option Var} {S : ℕ → Prop} {s : State V}
    (h : Consistent G t d S s) (i : ℕ) : Consistent G t d S (reset G i s) := by
  obtain ⟨h1, h2, -, -⟩ := reset_spec G i s
  intro j hj x hx
  rw [h1]
  rcases h2 t j with h3 | h3
  · exact h j hj x (by rw [← h3]; exact hx)
  · rw [h3] at hx; cases hx

end B2.Cache
