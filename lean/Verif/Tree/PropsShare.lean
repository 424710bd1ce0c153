import Verif.Tree.Share
import Mathlib.Tactic.Ring

/-!
# C192: compound assignment changes only the expression assigned to
-/

namespace B2.Tree.Share

/-! ### Specification -/

/-- The expression at `i` has the value `v` at the point `x`. -/
def Val (x : ℕ → ℚ) (h : Heap) (i : ℕ) (v : ℚ) : Prop := ∃ n, eval x h n i = some v

/-- `j` is an operand of `i`. -/
def Kid (h : Heap) (i j : ℕ) : Prop := ∃ nd, h i = some nd ∧ j ∈ nd.kids

/-- `j` is `i` or occurs below it. -/
def Below (h : Heap) (i j : ℕ) : Prop := Relation.ReflTransGen (Kid h) i j

/-- What one of the compound assignments does: the memory after it, the address to which the variable on the left points after it,
the value it shall have. -/
inductive Assign (h : Heap) (l r : ℕ) : Heap → ℕ → (ℚ → ℚ → ℚ) → Prop
  | add (p : ℕ) (hp : h p = none) : Assign h l r (addAssign h p l r true) p (· + ·)
  | sub (p : ℕ) (hp : h p = none) : Assign h l r (addAssign h p l r false) p (· - ·)
  | mul (p : ℕ) (hp : h p = none) : Assign h l r (mulAssign h p l r) p (· * ·)
  | div (p : ℕ) (hp : h p = none) : Assign h l r (divAssign h p l r) p (· / ·)

/-- The assignments which change a node. -/
inductive Push (h : Heap) (l r : ℕ) : Heap → (ℚ → ℚ → ℚ) → Prop
  | add (t : List (Bool × ℕ)) (ht : h l = some (.sum t)) : Push h l r (pushAssign h l r true) (· + ·)
  | sub (t : List (Bool × ℕ)) (ht : h l = some (.sum t)) : Push h l r (pushAssign h l r false) (· - ·)
  | mul (t : List (Bool × ℕ)) (ht : h l = some (.mul t)) : Push h l r (pushAssign h l r true) (· * ·)
  | div (t : List (Bool × ℕ)) (ht : h l = some (.mul t)) : Push h l r (pushAssign h l r false) (· / ·)

/-- **C192.** After a compound assignment the expression assigned to has the value of the operation, and every other variable
pointing to an expression keeps its value. -/
def C192_full : Prop :=
  ∀ (x : ℕ → ℚ) (h : Heap) (l r : ℕ) (a b : ℚ), Val x h l a → Val x h r b →
    (∀ h' p op, Assign h l r h' p op → Val x h' p (op a b) ∧ ∀ i v, Val x h i v → Val x h' i v) ∧
    (∀ h' op, Push h l r h' op → Val x h' l (op a b) ∧ ∀ i v, i ≠ l → Val x h i v → Val x h' i v)

/-! ### Evaluation -/

theorem all_congr {α β : Type} (f g : α → Option β) (l : List α) (bs : List β) (hf : all f l = some bs)
    (hfg : ∀ a ∈ l, ∀ b, f a = some b → g a = some b) : all g l = some bs := by
  induction l generalizing bs with
  | nil => exact hf
  | cons a l ih =>
    simp only [all, Option.bind_eq_some_iff, Option.map_eq_some_iff] at hf ⊢
    obtain ⟨b, h1, cs, h2, h3⟩ := hf
    exact ⟨b, hfg a (by simp) b h1, cs, ih cs h2 (fun a ha => hfg a (by simp [ha])), h3⟩

theorem all_mem {α β : Type} (f : α → Option β) (l : List α) (bs : List β) (hf : all f l = some bs) :
    ∀ a ∈ l, ∃ b, f a = some b := by
  induction l generalizing bs with
  | nil => intro a ha; cases ha
  | cons a l ih =>
    simp only [all, Option.bind_eq_some_iff, Option.map_eq_some_iff] at hf
    obtain ⟨b, h1, cs, h2, -⟩ := hf
    intro a' ha'
    rcases List.mem_cons.1 ha' with rfl | ha'
    · exact ⟨b, h1⟩
    · exact ih cs h2 a' ha'

theorem all_snoc {α β : Type} (f : α → Option β) (l : List α) (a : α) (bs : List β) (b : β) (h1 : all f l = some bs)
    (h2 : f a = some b) : all f (l ++ [a]) = some (bs ++ [b]) := by
  induction l generalizing bs with
  | nil =>
    simp only [all, Option.some.injEq] at h1
    subst h1
    simp [all, h2]
  | cons c l ih =>
    simp only [all, Option.bind_eq_some_iff, Option.map_eq_some_iff] at h1
    obtain ⟨d, h3, cs, h4, rfl⟩ := h1
    simp only [List.cons_append, all, h3, ih cs h4, Option.bind_some, Option.map_some]

/-- A value depends on the operands only. -/
theorem value_congr (x : ℕ → ℚ) (f g : ℕ → Option ℚ) (nd : Nd) (v : ℚ) (hf : value x f nd = some v)
    (hfg : ∀ j ∈ nd.kids, ∀ w, f j = some w → g j = some w) : value x g nd = some v := by
  have key : ∀ (l : List (Bool × ℕ)) (bs : List (Bool × ℚ)), (∀ j ∈ l.map Prod.snd, ∀ w, f j = some w → g j = some w) →
      all (fun p : Bool × ℕ => (f p.2).map fun v => (p.1, v)) l = some bs →
      all (fun p : Bool × ℕ => (g p.2).map fun v => (p.1, v)) l = some bs := by
    intro l bs h1 h2
    refine all_congr _ _ l bs h2 ?_
    intro p hp b hb
    simp only [Option.map_eq_some_iff] at hb ⊢
    obtain ⟨w, h3, h4⟩ := hb
    exact ⟨w, h1 p.2 (List.mem_map_of_mem hp) w h3, h4⟩
  cases nd with
  | num q => exact hf
  | var k => exact hf
  | sum l =>
    simp only [value, Option.map_eq_some_iff] at hf ⊢
    obtain ⟨bs, h1, h2⟩ := hf
    exact ⟨bs, key l bs hfg h1, h2⟩
  | mul l =>
    simp only [value, Option.map_eq_some_iff] at hf ⊢
    obtain ⟨bs, h1, h2⟩ := hf
    exact ⟨bs, key l bs hfg h1, h2⟩
  | ipow b n =>
    simp only [value, Option.map_eq_some_iff] at hf ⊢
    obtain ⟨w, h1, h2⟩ := hf
    exact ⟨w, hfg b (by simp [Nd.kids]) w h1, h2⟩

/-- The operands have values. -/
theorem value_kids (x : ℕ → ℚ) (f : ℕ → Option ℚ) (nd : Nd) (v : ℚ) (hf : value x f nd = some v) (j : ℕ) (hj : j ∈ nd.kids) :
    ∃ w, f j = some w := by
  have key : ∀ (l : List (Bool × ℕ)) (bs : List (Bool × ℚ)), j ∈ l.map Prod.snd →
      all (fun p : Bool × ℕ => (f p.2).map fun v => (p.1, v)) l = some bs → ∃ w, f j = some w := by
    intro l bs h1 h2
    obtain ⟨p, hp, rfl⟩ := List.mem_map.1 h1
    obtain ⟨b, hb⟩ := all_mem _ l bs h2 p hp
    simp only [Option.map_eq_some_iff] at hb
    obtain ⟨w, hw, -⟩ := hb
    exact ⟨w, hw⟩
  cases nd with
  | num q => cases hj
  | var k => cases hj
  | sum l =>
    simp only [value, Option.map_eq_some_iff] at hf
    obtain ⟨bs, h1, -⟩ := hf
    exact key l bs hj h1
  | mul l =>
    simp only [value, Option.map_eq_some_iff] at hf
    obtain ⟨bs, h1, -⟩ := hf
    exact key l bs hj h1
  | ipow b n =>
    simp only [value, Option.map_eq_some_iff] at hf
    obtain ⟨w, h1, -⟩ := hf
    simp only [Nd.kids, List.mem_singleton] at hj
    exact ⟨w, hj ▸ h1⟩

theorem eval_succ (x : ℕ → ℚ) (h : Heap) (n i : ℕ) (v : ℚ) (hv : eval x h n i = some v) : eval x h (n + 1) i = some v := by
  induction n generalizing i v with
  | zero => cases hv
  | succ n ih =>
    rw [eval, Option.bind_eq_some_iff] at hv ⊢
    obtain ⟨nd, h1, h2⟩ := hv
    exact ⟨nd, h1, value_congr x _ _ nd v h2 fun j _ w hw => ih j w hw⟩

theorem eval_mono (x : ℕ → ℚ) (h : Heap) {n m i : ℕ} {v : ℚ} (hnm : n ≤ m) (hv : eval x h n i = some v) : eval x h m i = some v := by
  induction hnm with
  | refl => exact hv
  | step _ ih => exact eval_succ x h _ i v ih

/-- An expression has at most one value. -/
theorem val_unique (x : ℕ → ℚ) (h : Heap) (i : ℕ) (v w : ℚ) (hv : Val x h i v) (hw : Val x h i w) : v = w := by
  obtain ⟨n, hn⟩ := hv
  obtain ⟨m, hm⟩ := hw
  have h1 := eval_mono x h (Nat.le_max_left n m) hn
  have h2 := eval_mono x h (Nat.le_max_right n m) hm
  rw [h1] at h2
  exact Option.some.inj h2

/-- An expression whose nodes are the same keeps its value. -/
theorem eval_same (x : ℕ → ℚ) (h h' : Heap) (n i : ℕ) (v : ℚ) (hv : eval x h n i = some v)
    (hs : ∀ j, Below h i j → h' j = h j) : eval x h' n i = some v := by
  induction n generalizing i v with
  | zero => cases hv
  | succ n ih =>
    rw [eval, Option.bind_eq_some_iff] at hv ⊢
    obtain ⟨nd, h1, h2⟩ := hv
    refine ⟨nd, by rw [hs i .refl, h1], value_congr x _ _ nd v h2 fun j hj w hw => ih j w hw fun k hk => hs k ?_⟩
    exact Relation.ReflTransGen.head ⟨nd, h1, hj⟩ hk

/-- Below an expression with a value there are nodes only. -/
theorem below_some (x : ℕ → ℚ) (h : Heap) (i j : ℕ) (v : ℚ) (hv : Val x h i v) (hb : Below h i j) :
    (∃ w, Val x h j w) ∧ h j ≠ none := by
  have h1 : ∃ w, Val x h j w := by
    induction hb with
    | refl => exact ⟨v, hv⟩
    | tail _ hk ih =>
      obtain ⟨w, n, hw⟩ := ih
      obtain ⟨nd, hn, hj⟩ := hk
      cases n with
      | zero => cases hw
      | succ n =>
        rw [eval, hn, Option.bind_some] at hw
        obtain ⟨u, hu⟩ := value_kids x _ nd w hw _ hj
        exact ⟨u, n, hu⟩
  refine ⟨h1, fun h0 => ?_⟩
  obtain ⟨w, n, hw⟩ := h1
  cases n with
  | zero => cases hw
  | succ n =>
    rw [eval, h0] at hw
    cases hw

/-- An expression which occurs below itself has no value: evaluation does not end. -/
theorem no_value (x : ℕ → ℚ) (h : Heap) (l j : ℕ) (hk : Kid h l j) (hjl : Below h j l) (v : ℚ) : ¬ Val x h l v := by
  -- the recursion depth decreases along operands
  have dec : ∀ i k, Kid h i k → ∀ n v, eval x h n i = some v → ∃ m < n, ∃ w, eval x h m k = some w := by
    rintro i k ⟨e, h1, h2⟩ n v hn
    cases n with
    | zero => cases hn
    | succ n =>
      rw [eval, h1, Option.bind_some] at hn
      obtain ⟨w, hw⟩ := value_kids x _ e v hn k h2
      exact ⟨n, by omega, w, hw⟩
  have dec' : ∀ i k, Below h i k → ∀ n v, eval x h n i = some v → ∃ m ≤ n, ∃ w, eval x h m k = some w := by
    intro i k hik
    induction hik with
    | refl => intro n v hn; exact ⟨n, le_refl _, v, hn⟩
    | tail _ hk ih =>
      intro n v hn
      obtain ⟨m, hm, w, hw⟩ := ih n v hn
      obtain ⟨m', hm', w', hw'⟩ := dec _ _ hk m w hw
      exact ⟨m', by omega, w', hw'⟩
  have never : ∀ n v, eval x h n l ≠ some v := by
    intro n
    induction n using Nat.strong_induction_on with
    | _ n ih =>
      intro v hn
      obtain ⟨m, hm, w, hw⟩ := dec l j hk n v hn
      obtain ⟨m', hm', w', hw'⟩ := dec' j l hjl m w hw
      exact ih m' (by omega) w' hw'
  rintro ⟨n, hn⟩
  exact never n v hn

/-- A new node changes no expression. -/
theorem val_new (x : ℕ → ℚ) (h : Heap) (p : ℕ) (nd : Nd) (hp : h p = none) (i : ℕ) (v : ℚ) (hv : Val x h i v) :
    Val x (Function.update h p (some nd)) i v := by
  obtain ⟨n, hn⟩ := hv
  refine ⟨n, eval_same x h _ n i v hn fun j hj => ?_⟩
  have := (below_some x h i j v ⟨n, hn⟩ hj).2
  rw [Function.update_of_ne]
  rintro rfl
  exact this hp

theorem val_node (x : ℕ → ℚ) (h : Heap) (p : ℕ) (nd : Nd) (n : ℕ) (v : ℚ) (hp : h p = some nd)
    (hv : value x (eval x h n) nd = some v) : Val x h p v := ⟨n + 1, by rw [eval, hp, Option.bind_some, hv]⟩

theorem two (x : ℕ → ℚ) (h : Heap) (l r : ℕ) (a b : ℚ) (ha : Val x h l a) (hb : Val x h r b) :
    ∃ n, eval x h n l = some a ∧ eval x h n r = some b := by
  obtain ⟨n, hn⟩ := ha
  obtain ⟨m, hm⟩ := hb
  exact ⟨max n m, eval_mono x h (Nat.le_max_left n m) hn, eval_mono x h (Nat.le_max_right n m) hm⟩

theorem merge_value (x : ℕ → ℚ) (h : Heap) (l r : ℕ) (a b : ℚ) (nd : Nd) (n : ℕ) (ha : eval x h n l = some a)
    (hb : eval x h n r = some b) (hm : merge (h l) (h r) = some nd) : value x (eval x h n) nd = some (a * b) := by
  match hl : h l, hr : h r with
  | some (.ipow c m), some (.ipow d k) =>
    rw [hl, hr, merge] at hm
    by_cases hc : c = d ∧ 0 ≤ m ∧ 0 ≤ k
    · rw [if_pos hc] at hm
      cases hm
      obtain ⟨rfl, hm0, hk0⟩ := hc
      cases n with
      | zero => cases ha
      | succ n =>
        rw [eval, hl, Option.bind_some] at ha
        rw [eval, hr, Option.bind_some] at hb
        simp only [value, Option.map_eq_some_iff] at ha hb ⊢
        obtain ⟨v, h1, rfl⟩ := ha
        obtain ⟨w, h2, rfl⟩ := hb
        rw [h1] at h2
        cases h2
        refine ⟨v, eval_succ x h n _ v h1, ?_⟩
        obtain ⟨m', rfl⟩ := Int.eq_ofNat_of_zero_le hm0
        obtain ⟨k', rfl⟩ := Int.eq_ofNat_of_zero_le hk0
        rw [← Nat.cast_add, zpow_natCast, zpow_natCast, zpow_natCast, pow_add]
    · rw [if_neg hc] at hm
      cases hm
  | none, _ => rw [hl] at hm; cases hm
  | some (.num _), _ => rw [hl] at hm; cases hm
  | some (.var _), _ => rw [hl] at hm; cases hm
  | some (.sum _), _ => rw [hl] at hm; cases hm
  | some (.mul _), _ => rw [hl] at hm; cases hm
  | some (.ipow _ _), none => rw [hl, hr] at hm; cases hm
  | some (.ipow _ _), some (.num _) => rw [hl, hr] at hm; cases hm
  | some (.ipow _ _), some (.var _) => rw [hl, hr] at hm; cases hm
  | some (.ipow _ _), some (.sum _) => rw [hl, hr] at hm; cases hm
  | some (.ipow _ _), some (.mul _) => rw [hl, hr] at hm; cases hm

/-- **C192 for pointers to nodes.** -/
theorem C192_nodes (x : ℕ → ℚ) (h : Heap) (l r : ℕ) (a b : ℚ) (ha : Val x h l a) (hb : Val x h r b) (h' : Heap) (p : ℕ)
    (op : ℚ → ℚ → ℚ) (hA : Assign h l r h' p op) : Val x h' p (op a b) ∧ ∀ i v, Val x h i v → Val x h' i v := by
  have gen : ∀ (nd : Nd) (hp : h p = none) (v : ℚ),
      (∀ g n, eval x g n l = some a → eval x g n r = some b → g l = h l → g r = h r → value x (eval x g n) nd = some v) →
      Val x (Function.update h p (some nd)) p v ∧ ∀ i v, Val x h i v → Val x (Function.update h p (some nd)) i v := by
    intro nd hp v hnd
    refine ⟨?_, val_new x h p nd hp⟩
    obtain ⟨n, hn, hm⟩ := two x _ l r a b (val_new x h p nd hp l a ha) (val_new x h p nd hp r b hb)
    have hl : l ≠ p := by rintro rfl; exact (below_some x h l l a ha .refl).2 hp
    have hr : r ≠ p := by rintro rfl; exact (below_some x h r r b hb .refl).2 hp
    exact val_node x _ p nd n v (Function.update_self ..)
      (hnd _ n hn hm (Function.update_of_ne hl _ _) (Function.update_of_ne hr _ _))
  cases hA with
  | add _ hp => exact gen _ hp _ fun g n h1 h2 _ _ => by simp [value, all, h1, h2, addTerm]
  | sub _ hp => exact gen _ hp _ fun g n h1 h2 _ _ => by simp [value, all, h1, h2, addTerm]
  | div _ hp => exact gen _ hp _ fun g n h1 h2 _ _ => by simp [value, all, h1, h2, mulTerm]
  | mul _ hp =>
    refine gen _ hp _ fun g n h1 h2 h3 h4 => ?_
    cases hm : merge (h l) (h r) with
    | none => simp [value, all, h1, h2, mulTerm]
    | some nd =>
      rw [← h3, ← h4] at hm
      exact merge_value x g l r a b nd n h1 h2 hm

/-- **C192 for pointers to products and sums.** If the node on the left does not occur in the expression on the right, the node gets
the value of the operation; expressions in which it does not occur keep their values. -/
theorem C192_push (x : ℕ → ℚ) (h : Heap) (l r : ℕ) (a b : ℚ) (ha : Val x h l a) (hb : Val x h r b) (h' : Heap)
    (op : ℚ → ℚ → ℚ) (hP : Push h l r h' op) :
    (¬ Below h r l → Val x h' l (op a b)) ∧ ∀ i v, ¬ Below h i l → Val x h i v → Val x h' i v := by
  have keep : ∀ (q : Option Nd) (i : ℕ) (v : ℚ), ¬ Below h i l → Val x h i v → Val x (Function.update h l q) i v := by
    rintro q i v hi ⟨n, hn⟩
    refine ⟨n, eval_same x h _ n i v hn fun j hj => Function.update_of_ne ?_ _ _⟩
    rintro rfl
    exact hi hj
  have nocycle : ∀ nd, h l = some nd → ∀ j ∈ nd.kids, ¬ Below h j l := by
    intro nd hnd j hj hjl
    exact no_value x h l j ⟨nd, hnd, hj⟩ hjl a ha
  obtain ⟨n, hn, hm⟩ := two x h l r a b ha hb
  have push : ∀ (t : List (Bool × ℕ)) (c : Bool), (∀ j ∈ t.map Prod.snd, ¬ Below h j l) → ¬ Below h r l → ∀ q n bs,
      all (fun p : Bool × ℕ => (eval x h n p.2).map fun v => (p.1, v)) t = some bs → eval x h n r = some b →
      all (fun p : Bool × ℕ => (eval x (Function.update h l q) n p.2).map fun v => (p.1, v)) (t ++ [(c, r)]) =
        some (bs ++ [(c, b)]) := by
    intro t c ht hr q n bs h1 h2
    have same : ∀ j v, ¬ Below h j l → eval x h n j = some v → eval x (Function.update h l q) n j = some v := by
      intro j v hj hv
      refine eval_same x h _ n j v hv fun k hk => Function.update_of_ne ?_ _ _
      rintro rfl
      exact hj hk
    refine all_snoc _ t _ bs _ (all_congr _ _ t bs h1 ?_) (by simp [same r b hr h2])
    intro p hp y hy
    simp only [Option.map_eq_some_iff] at hy ⊢
    obtain ⟨v, h3, h4⟩ := hy
    exact ⟨v, same p.2 v (ht p.2 (List.mem_map_of_mem hp)) h3, h4⟩
  cases n with
  | zero => cases hn
  | succ n =>
  have sumCase : ∀ (t : List (Bool × ℕ)) (c : Bool), h l = some (.sum t) → ¬ Below h r l →
      Val x (pushAssign h l r c) l (addTerm a (c, b)) := by
    intro t c ht hr
    have hn' := eval_succ x h _ l a hn
    rw [eval, ht, Option.bind_some] at hn'
    simp only [value, Option.map_eq_some_iff] at hn'
    obtain ⟨bs, h1, h2⟩ := hn'
    rw [pushAssign, ht, Option.map_some, Nd.push]
    refine val_node x _ l _ (n + 1) _ (Function.update_self ..) ?_
    rw [value, push t c (nocycle _ ht) hr _ (n + 1) bs h1 hm, Option.map_some, List.foldl_append, h2]
    rfl
  have mulCase : ∀ (t : List (Bool × ℕ)) (c : Bool), h l = some (.mul t) → ¬ Below h r l →
      Val x (pushAssign h l r c) l (mulTerm a (c, b)) := by
    intro t c ht hr
    have hn' := eval_succ x h _ l a hn
    rw [eval, ht, Option.bind_some] at hn'
    simp only [value, Option.map_eq_some_iff] at hn'
    obtain ⟨bs, h1, h2⟩ := hn'
    rw [pushAssign, ht, Option.map_some, Nd.push]
    refine val_node x _ l _ (n + 1) _ (Function.update_self ..) ?_
    rw [value, push t c (nocycle _ ht) hr _ (n + 1) bs h1 hm, Option.map_some, List.foldl_append, h2]
    rfl
  cases hP with
  | add t ht => exact ⟨sumCase t true ht, keep _⟩
  | sub t ht => exact ⟨sumCase t false ht, keep _⟩
  | mul t ht => exact ⟨mulCase t true ht, keep _⟩
  | div t ht => exact ⟨mulCase t false ht, keep _⟩

/-- **C192 except for what is shared.** Missing from `C192_full`: assignments which change a node, when the node occurs in other
expressions or on the right. -/
theorem C192_partial (x : ℕ → ℚ) (h : Heap) (l r : ℕ) (a b : ℚ) (ha : Val x h l a) (hb : Val x h r b) :
    (∀ h' p op, Assign h l r h' p op → Val x h' p (op a b) ∧ ∀ i v, Val x h i v → Val x h' i v) ∧
    (∀ h' op, Push h l r h' op →
      (¬ Below h r l → Val x h' l (op a b)) ∧ ∀ i v, ¬ Below h i l → Val x h i v → Val x h' i v) :=
  ⟨fun h' p op hA => C192_nodes x h l r a b ha hb h' p op hA, fun h' op hP => C192_push x h l r a b ha hb h' op hP⟩

/-- `y` (address 0), the product `q = y * y` (address 1), and `f = q + y` (address 2). -/
def mem : Heap
  | 0 => some (.var 0)
  | 1 => some (.mul [(true, 0), (true, 0)])
  | 2 => some (.sum [(true, 1), (true, 0)])
  | _ => none

/-- After `q *= y` at `y = 2`: `q` is 8, and `f`, which was 6, is 10. -/
theorem C192_shared : Val (fun _ => 2) mem 2 6 ∧ Val (fun _ => 2) (pushAssign mem 1 0 true) 1 8 ∧
    Val (fun _ => 2) (pushAssign mem 1 0 true) 2 10 := by
  refine ⟨⟨3, ?_⟩, ⟨3, ?_⟩, ⟨3, ?_⟩⟩ <;>
    norm_num [eval, mem, value, all, addTerm, mulTerm, pushAssign, Function.update, Nd.push]

/-- If the node on the left occurs in the expression on the right, the expression has no value afterwards: evaluation does not
end. -/
theorem C192_cycle (x : ℕ → ℚ) (h : Heap) (l r : ℕ) (h' : Heap) (op : ℚ → ℚ → ℚ) (hP : Push h l r h' op) (hr : Below h r l)
    (v : ℚ) : ¬ Val x h' l v := by
  have gen : ∀ c nd, h l = some nd → r ∈ (nd.push c r).kids → ¬ Val x (pushAssign h l r c) l v := by
    intro c nd hl hk
    have e1 : pushAssign h l r c l = some (nd.push c r) := by rw [pushAssign, Function.update_self, hl, Option.map_some]
    have sub : ∀ (e : Nd) (j : ℕ), j ∈ e.kids → j ∈ (e.push c r).kids := by
      intro e j hj
      cases e <;> simp_all [Nd.push, Nd.kids]
    refine no_value x _ l r ⟨_, e1, hk⟩ (Relation.ReflTransGen.mono ?_ _ _ hr) v
    rintro i j ⟨e, h1, h2⟩
    by_cases hi : i = l
    · subst hi
      rw [hl] at h1
      cases h1
      exact ⟨_, e1, sub _ j h2⟩
    · exact ⟨e, by rw [pushAssign, Function.update_of_ne hi, h1], h2⟩
  cases hP with
  | add t ht => exact gen true _ ht (by simp [Nd.push, Nd.kids])
  | sub t ht => exact gen false _ ht (by simp [Nd.push, Nd.kids])
  | mul t ht => exact gen true _ ht (by simp [Nd.push, Nd.kids])
  | div t ht => exact gen false _ ht (by simp [Nd.push, Nd.kids])

/-- `q *= f`. -/
example (x : ℕ → ℚ) (v : ℚ) : ¬ Val x (pushAssign mem 1 2 true) 1 v :=
  C192_cycle x mem 1 2 _ _ (Push.mul _ rfl) (.single ⟨_, rfl, by simp [Nd.kids]⟩) v

theorem C192_refuted : ¬ C192_full := by
  intro hf
  have h1 : Val (fun _ => 2) mem 1 4 := ⟨2, by norm_num [eval, mem, value, all, mulTerm]⟩
  have h0 : Val (fun _ => 2) mem 0 2 := ⟨1, by simp [eval, mem, value]⟩
  obtain ⟨-, h2⟩ := hf (fun _ => 2) mem 1 0 4 2 h1 h0
  obtain ⟨-, h3⟩ := h2 _ _ (Push.mul _ rfl)
  have h4 := val_unique _ _ _ _ _ (h3 2 6 (by norm_num) C192_shared.1) C192_shared.2.2
  exact absurd h4 (by decide)

/-- The hypotheses can be met: `q *= y` with the new product at address 3 leaves `f` as it is. -/
example : Val (fun _ => 2) (mulAssign mem 3 1 0) 3 8 ∧ Val (fun _ => 2) (mulAssign mem 3 1 0) 2 6 := by
  have h1 : Val (fun _ => 2) mem 1 4 := ⟨2, by norm_num [eval, mem, value, all, mulTerm]⟩
  have h0 : Val (fun _ => 2) mem 0 2 := ⟨1, by simp [eval, mem, value]⟩
  obtain ⟨h2, h3⟩ := C192_nodes _ mem 1 0 4 2 h1 h0 _ 3 _ (Assign.mul 3 rfl)
  have e : ((4 : ℚ) * 2) = 8 := by norm_num
  exact ⟨e ▸ h2, h3 2 6 C192_shared.1⟩

end B2.Tree.Share
