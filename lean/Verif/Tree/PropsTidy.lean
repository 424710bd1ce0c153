import Verif.Tree.PropsSimplify

/-!
# C108: what `Simplify` leaves behind

The functions look only through sums and products, as the code does: the operand of a power or of `sin` is left
alone.
-/

namespace B2

open Classical

/-! ### Specification -/

mutual
/-- Every sum and product has an operand: true of every tree the API builds (the constructors of `SumOperator` and
`MultOperator` take at least one operand, `arithmetic.hpp`). -/
def Filled : Node → Prop
  | .sum ops | .mult ops => ops ≠ .nil ∧ FilledOps ops
  | _ => True
/-- Same for the operands. -/
def FilledOps : Ops → Prop
  | .nil => True
  | .cons _ n r => Filled n ∧ FilledOps r
end

mutual
/-- Nothing is left to simplify, at the current values `cur`: no sum in a sum, no one-factor product in a sum, no
product in a product, no one-term sum in a product; a sum of several terms has no term of value 0, a product of
several factors no factor of value 1; a product with a factor of value 0 is `0` written as a product. -/
def Tidy (cur : Env) : Node → Prop
  | .sum ops =>
      (∀ p ∈ ops.toList, ∀ inner, p.2 ≠ .sum inner) ∧
      (∀ p ∈ ops.toList, ∀ m, p.2 ≠ .mult (.cons true m .nil)) ∧
      (1 < ops.toList.length → ∀ p ∈ ops.toList, eval cur p.2 ≠ 0) ∧ TidyOps cur ops
  | .mult ops =>
      (∀ p ∈ ops.toList, ∀ inner, p.2 ≠ .mult inner) ∧
      (∀ p ∈ ops.toList, ∀ s m, p.2 ≠ .sum (.cons s m .nil)) ∧
      (1 < ops.toList.length → ∀ p ∈ ops.toList, eval cur p.2 ≠ 1) ∧
      (∀ p ∈ ops.toList, eval cur p.2 = 0 → ops.toList = [(true, .int 0)]) ∧ TidyOps cur ops
  | _ => True
/-- Every operand is tidy. -/
def TidyOps (cur : Env) : Ops → Prop
  | .nil => True
  | .cons _ n r => Tidy cur n ∧ TidyOps cur r
end

/-! ### The three aspects of tidiness -/

mutual
/-- Tidy for `ReduceDepth`. -/
def TidyD : Node → Prop
  | .sum ops => (∀ p ∈ ops.toList, ∀ inner, p.2 ≠ .sum inner) ∧
      (∀ p ∈ ops.toList, ∀ m, p.2 ≠ .mult (.cons true m .nil)) ∧ TidyDOps ops
  | .mult ops => (∀ p ∈ ops.toList, ∀ inner, p.2 ≠ .mult inner) ∧
      (∀ p ∈ ops.toList, ∀ s m, p.2 ≠ .sum (.cons s m .nil)) ∧ TidyDOps ops
  | _ => True
/-- Same for the operands. -/
def TidyDOps : Ops → Prop
  | .nil => True
  | .cons _ n r => TidyD n ∧ TidyDOps r
end

mutual
/-- Tidy for `EliminateOnes`. -/
def TidyU (cur : Env) : Node → Prop
  | .sum ops => TidyUOps cur ops
  | .mult ops => (1 < ops.toList.length → ∀ p ∈ ops.toList, eval cur p.2 ≠ 1) ∧ TidyUOps cur ops
  | _ => True
/-- Same for the operands. -/
def TidyUOps (cur : Env) : Ops → Prop
  | .nil => True
  | .cons _ n r => TidyU cur n ∧ TidyUOps cur r
end

mutual
/-- Tidy for `EliminateZeros`. -/
def TidyZ (cur : Env) : Node → Prop
  | .sum ops => (1 < ops.toList.length → ∀ p ∈ ops.toList, eval cur p.2 ≠ 0) ∧ TidyZOps cur ops
  | .mult ops => (∀ p ∈ ops.toList, eval cur p.2 = 0 → ops.toList = [(true, .int 0)]) ∧ TidyZOps cur ops
  | _ => True
/-- Same for the operands. -/
def TidyZOps (cur : Env) : Ops → Prop
  | .nil => True
  | .cons _ n r => TidyZ cur n ∧ TidyZOps cur r
end

theorem tidy_iff (cur : Env) (n : Node) : Tidy cur n ↔ TidyD n ∧ TidyU cur n ∧ TidyZ cur n := by
  induction n using Node.rec (motive_2 := fun ops => TidyOps cur ops ↔ TidyDOps ops ∧ TidyUOps cur ops ∧ TidyZOps cur ops)
  case sum ops ih => simp only [Tidy, TidyD, TidyU, TidyZ, ih]; tauto
  case mult ops ih => simp only [Tidy, TidyD, TidyU, TidyZ, ih]; tauto
  case nil => simp [TidyOps, TidyDOps, TidyUOps, TidyZOps]
  case cons f n r ih1 ih2 => simp only [TidyOps, TidyDOps, TidyUOps, TidyZOps, ih1, ih2]; tauto
  all_goals simp [Tidy, TidyD, TidyU, TidyZ]

theorem length_toList (ops : Ops) : ops.toList.length = ops.length := by
  induction ops using Ops.rec (motive_1 := fun _ => True) with
  | nil => rfl
  | cons f n r _ ih => simp [Ops.toList, Ops.length, ih]
  | _ => trivial

/-! ### `ReduceDepth` -/

theorem ne_nil_length {ops : Ops} (h : ops ≠ .nil) : 0 < ops.length := by
  cases ops with
  | nil => exact absurd rfl h
  | cons f n r => simp [Ops.length]

theorem subSums_zero (ops : Ops) (hf : FilledOps ops) (h : (sumReduceSubSums ops).2 = 0) :
    ∀ p ∈ ops.toList, ∀ inner, p.2 ≠ .sum inner := by
  fun_induction sumReduceSubSums ops with
  | case1 => simp [Ops.toList]
  | case2 s inner r ih =>
    have := ne_nil_length hf.1.1
    simp only at h; omega
  | case3 s n r hn ih =>
    simp only [Ops.toList, List.mem_cons, forall_eq_or_imp]
    exact ⟨fun i hi => hn i hi, ih hf.2 h⟩

theorem subSums_id (ops : Ops) (h : ∀ p ∈ ops.toList, ∀ inner, p.2 ≠ .sum inner) :
    sumReduceSubSums ops = (ops, 0) := by
  fun_induction sumReduceSubSums ops with
  | case1 => rfl
  | case2 s inner r ih => exact absurd rfl (h (s, .sum inner) (by simp [Ops.toList]) inner)
  | case3 s n r hn ih => rw [ih fun p hp => h p (by simp [Ops.toList, hp])]

theorem subMults_zero (ops : Ops) (h : (sumReduceSubMults ops).2 = 0) :
    ∀ p ∈ ops.toList, ∀ m, p.2 ≠ .mult (.cons true m .nil) := by
  fun_induction sumReduceSubMults ops with
  | case1 => simp [Ops.toList]
  | case2 s m r ih => simp only at h; omega
  | case3 s n r hn ih =>
    simp only [Ops.toList, List.mem_cons, forall_eq_or_imp]
    exact ⟨fun i hi => hn i hi, ih h⟩

theorem subMults_id (ops : Ops) (h : ∀ p ∈ ops.toList, ∀ m, p.2 ≠ .mult (.cons true m .nil)) :
    sumReduceSubMults ops = (ops, 0) := by
  fun_induction sumReduceSubMults ops with
  | case1 => rfl
  | case2 s m r ih => exact absurd rfl (h (s, _) (by simp only [Ops.toList]; exact List.mem_cons_self) m)
  | case3 s n r hn ih => rw [ih fun p hp => h p (by simp [Ops.toList, hp])]

theorem mSubSums_zero (ops : Ops) (h : (multReduceSubSums ops).2 = 0) :
    ∀ p ∈ ops.toList, ∀ s m, p.2 ≠ .sum (.cons s m .nil) := by
  fun_induction multReduceSubSums ops with
  | case1 => simp [Ops.toList]
  | case2 s m r ih => simp only at h; omega
  | case3 s n r hn ih =>
    simp only [Ops.toList, List.mem_cons, forall_eq_or_imp]
    exact ⟨fun i j hi => hn i j hi, ih h⟩

theorem mSubSums_id (ops : Ops) (h : ∀ p ∈ ops.toList, ∀ s m, p.2 ≠ .sum (.cons s m .nil)) :
    multReduceSubSums ops = (ops, 0) := by
  fun_induction multReduceSubSums ops with
  | case1 => rfl
  | case2 m s x r ih => exact absurd rfl (h (m, _) (by simp only [Ops.toList]; exact List.mem_cons_self) s x)
  | case3 s n r hn ih => rw [ih fun p hp => h p (by simp [Ops.toList, hp])]

theorem mSubMults_zero (ops : Ops) (hf : FilledOps ops) (h : (multReduceSubMults ops).2 = 0) :
    ∀ p ∈ ops.toList, ∀ inner, p.2 ≠ .mult inner := by
  fun_induction multReduceSubMults ops with
  | case1 => simp [Ops.toList]
  | case2 s inner r ih =>
    have := ne_nil_length hf.1.1
    simp only at h; omega
  | case3 s n r hn ih =>
    simp only [Ops.toList, List.mem_cons, forall_eq_or_imp]
    exact ⟨fun i hi => hn i hi, ih hf.2 h⟩

theorem mSubMults_id (ops : Ops) (h : ∀ p ∈ ops.toList, ∀ inner, p.2 ≠ .mult inner) :
    multReduceSubMults ops = (ops, 0) := by
  fun_induction multReduceSubMults ops with
  | case1 => rfl
  | case2 s inner r ih => exact absurd rfl (h (s, .mult inner) (by simp [Ops.toList]) inner)
  | case3 s n r hn ih => rw [ih fun p hp => h p (by simp [Ops.toList, hp])]

theorem twoPasses_zero {o : Bool} {a b : Ops → Ops × ℕ} {ops : Ops} {A B : Prop}
    (ha : (a ops).2 = 0 → A) (ha' : A → a ops = (ops, 0)) (hb : (b ops).2 = 0 → B) (hb' : B → b ops = (ops, 0))
    (h : (twoPasses o a b ops).2 = 0) : A ∧ B := by
  unfold twoPasses at h
  cases o with
  | true =>
    simp only [if_true] at h
    have h1 : A := ha (by omega)
    rw [ha' h1] at h
    exact ⟨h1, hb (by simpa using h)⟩
  | false =>
    simp only [Bool.false_eq_true, if_false] at h
    have h1 : B := hb (by omega)
    rw [hb' h1] at h
    exact ⟨ha (by simpa using h), h1⟩

theorem twoPasses_id {o : Bool} {a b : Ops → Ops × ℕ} {ops : Ops} (ha : a ops = (ops, 0)) (hb : b ops = (ops, 0)) :
    twoPasses o a b ops = (ops, 0) := by
  unfold twoPasses
  cases o <;> simp [ha, hb]

theorem reduceDepth_zero (o : Bool) (n : Node) : Filled n → (reduceDepth o n).2 = 0 → TidyD n := by
  induction n using Node.rec (motive_2 := fun ops => FilledOps ops → (reduceOps o ops).2 = 0 → TidyDOps ops)
  case sum ops ih =>
    intro hf h
    rw [reduceDepth] at h
    simp only at h
    obtain ⟨h1, h2⟩ := twoPasses_zero (o := o) (subSums_zero ops hf.2) (subSums_id ops) (subMults_zero ops)
      (subMults_id ops) (by omega)
    rw [twoPasses_id (subSums_id ops h1) (subMults_id ops h2)] at h
    exact ⟨h1, h2, ih hf.2 (by simpa using h)⟩
  case mult ops ih =>
    intro hf h
    rw [reduceDepth] at h
    simp only at h
    obtain ⟨h1, h2⟩ := twoPasses_zero (o := o) (mSubSums_zero ops) (mSubSums_id ops) (mSubMults_zero ops hf.2)
      (mSubMults_id ops) (by omega)
    rw [twoPasses_id (mSubSums_id ops h1) (mSubMults_id ops h2)] at h
    exact ⟨h2, h1, ih hf.2 (by simpa using h)⟩
  case nil => trivial
  case cons f n r ih1 ih2 hf h =>
    rw [reduceOps] at h
    simp only at h
    exact ⟨ih1 hf.1 (by omega), ih2 hf.2 (by omega)⟩
  all_goals intros; trivial

theorem reduceDepth_id (o : Bool) (n : Node) : TidyD n → reduceDepth o n = (n, 0) := by
  induction n using Node.rec (motive_2 := fun ops => TidyDOps ops → reduceOps o ops = (ops, 0))
  case sum ops ih =>
    intro h
    rw [reduceDepth, twoPasses_id (subSums_id ops h.1) (subMults_id ops h.2.1)]
    simp only [ih h.2.2]
  case mult ops ih =>
    intro h
    rw [reduceDepth, twoPasses_id (mSubSums_id ops h.2.1) (mSubMults_id ops h.1)]
    simp only [ih h.2.2]
  case nil => rw [reduceOps]
  case cons f n r ih1 ih2 h =>
    rw [reduceOps]
    simp only [ih1 h.1, ih2 h.2]
  all_goals intros; rw [reduceDepth] <;> simp

/-! ### `EliminateOnes` -/

theorem dropValue_zero (cur : Env) (x : ℂ) (ops : Ops) (h : (dropValue cur x ops).2 = 0) :
    ∀ p ∈ ops.toList, eval cur p.2 ≠ x := by
  induction ops using Ops.rec (motive_1 := fun _ => True) with
  | nil => simp [Ops.toList]
  | cons f n r _ ih =>
    simp only [dropValue] at h
    by_cases hx : eval cur n = x
    · rw [if_pos hx] at h; simp only at h; omega
    · rw [if_neg hx] at h
      simp only [Ops.toList, List.mem_cons, forall_eq_or_imp]
      exact ⟨hx, ih h⟩
  | _ => trivial

theorem dropValue_id (cur : Env) (x : ℂ) (ops : Ops) (h : ∀ p ∈ ops.toList, eval cur p.2 ≠ x) :
    dropValue cur x ops = (ops, 0) := by
  induction ops using Ops.rec (motive_1 := fun _ => True) with
  | nil => rfl
  | cons f n r _ ih =>
    simp only [Ops.toList, List.mem_cons, forall_eq_or_imp] at h
    simp only [dropValue, if_neg h.1, ih h.2]
  | _ => trivial

theorem dropValue_length (cur : Env) (x : ℂ) (ops : Ops) :
    (dropValue cur x ops).1.length + (dropValue cur x ops).2 = ops.length := by
  induction ops using Ops.rec (motive_1 := fun _ => True) with
  | nil => simp [dropValue, Ops.length]
  | cons f n r _ ih => simp only [dropValue]; split_ifs <;> simp only [Ops.length] <;> omega
  | _ => trivial

theorem dropOnes_zero (cur : Env) (ops : Ops) (h : (multDropOnes cur ops).2 = 0) (hl : 1 < ops.toList.length) :
    ∀ p ∈ ops.toList, eval cur p.2 ≠ 1 := by
  cases ops with
  | nil => simp [Ops.toList]
  | cons f n r =>
    rw [length_toList] at hl
    simp only [multDropOnes, if_pos hl] at h
    have h1 := dropValue_length cur 1 (.cons f n r)
    split at h
    · rename_i k hk
      rw [hk] at h1
      simp only [Ops.length] at h1 h hl
      omega
    · exact dropValue_zero cur 1 _ h

theorem dropOnes_id (cur : Env) (ops : Ops) (h : 1 < ops.toList.length → ∀ p ∈ ops.toList, eval cur p.2 ≠ 1) :
    multDropOnes cur ops = (ops, 0) := by
  cases ops with
  | nil => rfl
  | cons f n r =>
    by_cases hl : 1 < (Ops.cons f n r).length
    · simp only [multDropOnes, if_pos hl, dropValue_id cur 1 _ (h (by rwa [length_toList]))]
    · simp only [multDropOnes, if_neg hl]

theorem elimOnes_zero (cur : Env) (n : Node) : (elimOnes cur n).2 = 0 → TidyU cur n := by
  induction n using Node.rec (motive_2 := fun ops => (elimOnesOps cur ops).2 = 0 → TidyUOps cur ops)
  case sum ops ih =>
    intro h
    rw [elimOnes] at h
    exact ih h
  case mult ops ih =>
    intro h
    rw [elimOnes] at h
    simp only at h
    have h1 := dropOnes_zero cur ops (by omega)
    rw [dropOnes_id cur ops h1] at h
    exact ⟨h1, ih (by simpa using h)⟩
  case nil => trivial
  case cons f n r ih1 ih2 h =>
    rw [elimOnesOps] at h
    simp only at h
    exact ⟨ih1 (by omega), ih2 (by omega)⟩
  all_goals intros; trivial

theorem elimOnes_id (cur : Env) (n : Node) : TidyU cur n → elimOnes cur n = (n, 0) := by
  induction n using Node.rec (motive_2 := fun ops => TidyUOps cur ops → elimOnesOps cur ops = (ops, 0))
  case sum ops ih =>
    intro h
    rw [elimOnes]
    simp only [ih h]
  case mult ops ih =>
    intro h
    rw [elimOnes, dropOnes_id cur ops h.1]
    simp only [ih h.2]
  case nil => rw [elimOnesOps]
  case cons f n r ih1 ih2 h =>
    rw [elimOnesOps]
    simp only [ih1 h.1, ih2 h.2]
  all_goals intros; rw [elimOnes] <;> simp

/-! ### `EliminateZeros` -/

theorem dropZeros_zero (cur : Env) (ops : Ops) (h : (sumDropZeros cur ops).2 = 0) (hl : 1 < ops.toList.length) :
    ∀ p ∈ ops.toList, eval cur p.2 ≠ 0 := by
  rw [length_toList] at hl
  unfold sumDropZeros at h
  rw [if_pos hl] at h
  have h1 := dropValue_length cur 0 ops
  split at h
  · rename_i k hk
    rw [hk] at h1
    simp only [Ops.length] at h1 h
    omega
  · exact dropValue_zero cur 0 _ h

theorem dropZeros_id (cur : Env) (ops : Ops) (h : 1 < ops.toList.length → ∀ p ∈ ops.toList, eval cur p.2 ≠ 0) :
    sumDropZeros cur ops = (ops, 0) := by
  unfold sumDropZeros
  by_cases hl : 1 < ops.length
  · rw [if_pos hl, dropValue_id cur 0 _ (h (by rwa [length_toList]))]
    cases ops with
    | nil => simp [Ops.length] at hl
    | cons f n r => rfl
  · rw [if_neg hl]

theorem hasZero_iff (cur : Env) (ops : Ops) : hasZero cur ops ↔ ∃ p ∈ ops.toList, eval cur p.2 = 0 := by
  induction ops using Ops.rec (motive_1 := fun _ => True) with
  | nil => simp [hasZero, Ops.toList]
  | cons f n r _ ih => simp [hasZero, Ops.toList, ih]
  | _ => trivial

theorem toList_inj {a b : Ops} (h : a.toList = b.toList) : a = b := by
  induction a using Ops.rec (motive_1 := fun _ => True) generalizing b with
  | nil => cases b with
    | nil => rfl
    | cons f n r => simp [Ops.toList] at h
  | cons f n r _ ih => cases b with
    | nil => simp [Ops.toList] at h
    | cons f' n' r' =>
      simp only [Ops.toList, List.cons.injEq, Prod.mk.injEq] at h
      obtain ⟨⟨rfl, rfl⟩, h⟩ := h
      rw [ih h]
  | _ => trivial

theorem elimZeros_id (cur : Env) (n : Node) : TidyZ cur n → elimZeros cur n = (n, 0) := by
  induction n using Node.rec (motive_2 := fun ops => TidyZOps cur ops → elimZerosOps cur ops = (ops, 0))
  case sum ops ih =>
    intro h
    rw [elimZeros, dropZeros_id cur ops h.1]
    simp only [ih h.2]
  case mult ops ih =>
    intro h
    rw [elimZeros]
    by_cases hz : hasZero cur ops
    · obtain ⟨p, hp, h0⟩ := (hasZero_iff cur ops).mp hz
      have := toList_inj (b := .cons true (.int 0) .nil) (h.1 p hp h0)
      subst this
      rw [if_pos hz]
      rfl
    · rw [if_neg hz]
      simp only [ih h.2]
  case nil => rw [elimZerosOps]
  case cons f n r ih1 ih2 h =>
    rw [elimZerosOps]
    simp only [ih1 h.1, ih2 h.2]
  all_goals intros; rw [elimZeros] <;> simp

theorem elimZerosOps_map (cur : Env) (ops : Ops) :
    (elimZerosOps cur ops).1.toList = ops.toList.map fun p => (p.1, (elimZeros cur p.2).1) := by
  induction ops using Ops.rec (motive_1 := fun _ => True) with
  | nil => rw [elimZerosOps]; rfl
  | cons f n r _ ih => rw [elimZerosOps]; simp [Ops.toList, ih]
  | _ => trivial

theorem elimZerosOps_count (cur : Env) (ops : Ops) (h : (elimZerosOps cur ops).2 = 0) :
    ∀ p ∈ ops.toList, (elimZeros cur p.2).2 = 0 := by
  induction ops using Ops.rec (motive_1 := fun _ => True) with
  | nil => simp [Ops.toList]
  | cons f n r _ ih =>
    rw [elimZerosOps] at h
    simp only at h
    simp only [Ops.toList, List.mem_cons, forall_eq_or_imp]
    exact ⟨by omega, ih (by omega)⟩
  | _ => trivial

theorem definedMult_mem {cur : Env} {ops : Ops} (h : DefinedMult cur ops) :
    ∀ p ∈ ops.toList, Defined cur p.2 ∧ (eval cur p.2 = 0 → p.1 = true) := by
  induction ops using Ops.rec (motive_1 := fun _ => True) with
  | nil => simp [Ops.toList]
  | cons f n r _ ih =>
    simp only [Ops.toList, List.mem_cons, forall_eq_or_imp]
    refine ⟨⟨h.1, fun h0 => ?_⟩, ih h.2.2⟩
    cases f
    · exact absurd h0 (h.2.1 rfl)
    · rfl
  | _ => trivial

theorem definedSum_mem {cur : Env} {ops : Ops} (h : DefinedSum cur ops) : ∀ p ∈ ops.toList, Defined cur p.2 := by
  induction ops using Ops.rec (motive_1 := fun _ => True) with
  | nil => simp [Ops.toList]
  | cons f n r _ ih =>
    simp only [Ops.toList, List.mem_cons, forall_eq_or_imp]
    exact ⟨h.1, ih h.2⟩
  | _ => trivial

/-- A pass of `EliminateZeros` that reports nothing keeps the shape of a node as seen from its parent. -/
theorem elimZeros_shape (cur : Env) (n : Node) (hd : Defined cur n) (h : (elimZeros cur n).2 = 0) :
    ((∃ i, (elimZeros cur n).1 = .sum i) → ∃ i, n = .sum i) ∧
    ((∃ i, (elimZeros cur n).1 = .mult i) → ∃ i, n = .mult i) ∧
    ((∃ m, (elimZeros cur n).1 = .mult (.cons true m .nil)) → ∃ m, n = .mult (.cons true m .nil)) ∧
    ((∃ s m, (elimZeros cur n).1 = .sum (.cons s m .nil)) → ∃ s m, n = .sum (.cons s m .nil)) := by
  cases n with
  | sum ops =>
    rw [elimZeros] at h ⊢
    simp only at h ⊢
    have h1 := dropZeros_id cur ops (dropZeros_zero cur ops (by omega))
    rw [h1]
    refine ⟨fun _ => ⟨_, rfl⟩, by simp, by simp, ?_⟩
    rintro ⟨s, m, e⟩
    have e2 := elimZerosOps_map cur ops
    simp only [Node.sum.injEq] at e
    rw [e] at e2
    cases ops with
    | nil => simp [Ops.toList] at e2
    | cons f x r => cases r with
      | nil => exact ⟨_, _, rfl⟩
      | cons f' x' r' => simp [Ops.toList] at e2
  | mult ops =>
    rw [elimZeros] at h ⊢
    by_cases hz : hasZero cur ops
    · rw [if_pos hz] at h ⊢
      obtain ⟨p, hp, h0⟩ := (hasZero_iff cur ops).mp hz
      refine ⟨by simp, fun _ => ⟨_, rfl⟩, fun _ => ?_, by simp⟩
      have h2 := (definedMult_mem hd p hp).2 h0
      cases ops with
      | nil => simp [Ops.toList] at hp
      | cons f x r => cases r with
        | nil =>
          simp only [Ops.toList, List.mem_singleton] at hp
          subst hp
          simp only at h2
          subst h2
          exact ⟨_, rfl⟩
        | cons f' x' r' => simp [Ops.length] at h
    · rw [if_neg hz] at h ⊢
      refine ⟨by simp, fun _ => ⟨_, rfl⟩, ?_, by simp⟩
      rintro ⟨m, e⟩
      have e2 := elimZerosOps_map cur ops
      simp only [Node.mult.injEq] at e
      rw [e] at e2
      cases ops with
      | nil => simp [Ops.toList] at e2
      | cons f x r => cases r with
        | nil =>
          simp [Ops.toList] at e2
          rw [← e2.1]
          exact ⟨_, rfl⟩
        | cons f' x' r' => simp [Ops.toList] at e2
  | _ => rw [elimZeros] at h ⊢ <;> simp

theorem elimZeros_zero (cur : Env) (n : Node) : Defined cur n → TidyD n → TidyU cur n → (elimZeros cur n).2 = 0 →
    TidyD (elimZeros cur n).1 ∧ TidyU cur (elimZeros cur n).1 ∧ TidyZ cur (elimZeros cur n).1 := by
  induction n using Node.rec (motive_2 := fun ops => (∀ p ∈ ops.toList, Defined cur p.2) → TidyDOps ops →
    TidyUOps cur ops → (elimZerosOps cur ops).2 = 0 → TidyDOps (elimZerosOps cur ops).1 ∧
      TidyUOps cur (elimZerosOps cur ops).1 ∧ TidyZOps cur (elimZerosOps cur ops).1)
  case sum ops ih =>
    intro hd hD hU h
    rw [elimZeros] at h ⊢
    simp only at h ⊢
    have h0 := dropZeros_zero cur ops (by omega)
    rw [dropZeros_id cur ops h0] at h ⊢
    simp only [zero_add] at h ⊢
    obtain ⟨i1, i2, i3⟩ := ih (definedSum_mem hd) hD.2.2 hU h
    have hc := elimZerosOps_count cur ops h
    have hm := elimZerosOps_map cur ops
    have hdm := definedSum_mem hd
    refine ⟨⟨?_, ?_, i1⟩, i2, ?_, i3⟩
    · rw [hm]
      intro p hp inner e
      obtain ⟨q, hq, rfl⟩ := List.mem_map.mp hp
      obtain ⟨i, hi⟩ := (elimZeros_shape cur q.2 (hdm q hq) (hc q hq)).1 ⟨_, e⟩
      exact hD.1 q hq i hi
    · rw [hm]
      intro p hp m e
      obtain ⟨q, hq, rfl⟩ := List.mem_map.mp hp
      obtain ⟨i, hi⟩ := (elimZeros_shape cur q.2 (hdm q hq) (hc q hq)).2.2.1 ⟨_, e⟩
      exact hD.2.1 q hq i hi
    · rw [hm]
      intro hl p hp
      obtain ⟨q, hq, rfl⟩ := List.mem_map.mp hp
      simp only [eval_elimZeros]
      exact h0 (by simpa using hl) q hq
  case mult ops ih =>
    intro hd hD hU h
    rw [elimZeros] at h ⊢
    by_cases hz : hasZero cur ops
    · rw [if_pos hz]
      simp [TidyD, TidyDOps, TidyU, TidyUOps, TidyZ, TidyZOps, Ops.toList]
    · rw [if_neg hz] at h ⊢
      simp only at h ⊢
      have hdm := definedMult_mem hd
      obtain ⟨i1, i2, i3⟩ := ih (fun p hp => (hdm p hp).1) hD.2.2 hU.2 h
      have hc := elimZerosOps_count cur ops h
      have hm := elimZerosOps_map cur ops
      refine ⟨⟨?_, ?_, i1⟩, ⟨?_, i2⟩, ?_, i3⟩
      · rw [hm]
        intro p hp inner e
        obtain ⟨q, hq, rfl⟩ := List.mem_map.mp hp
        obtain ⟨i, hi⟩ := (elimZeros_shape cur q.2 (hdm q hq).1 (hc q hq)).2.1 ⟨_, e⟩
        exact hD.1 q hq i hi
      · rw [hm]
        intro p hp s m e
        obtain ⟨q, hq, rfl⟩ := List.mem_map.mp hp
        obtain ⟨i, j, hi⟩ := (elimZeros_shape cur q.2 (hdm q hq).1 (hc q hq)).2.2.2 ⟨_, _, e⟩
        exact hD.2.1 q hq i j hi
      · rw [hm]
        intro hl p hp
        obtain ⟨q, hq, rfl⟩ := List.mem_map.mp hp
        simp only [eval_elimZeros]
        exact hU.1 (by simpa using hl) q hq
      · rw [hm]
        intro p hp h0
        obtain ⟨q, hq, rfl⟩ := List.mem_map.mp hp
        simp only [eval_elimZeros] at h0
        exact absurd ((hasZero_iff cur ops).mpr ⟨q, hq, h0⟩) hz
  case nil =>
    rw [elimZerosOps]
    exact ⟨trivial, trivial, trivial⟩
  case cons f n r ih1 ih2 hd hD hU h =>
    rw [elimZerosOps] at h ⊢
    simp only at h ⊢
    simp only [Ops.toList, List.mem_cons, forall_eq_or_imp] at hd
    obtain ⟨a1, a2, a3⟩ := ih1 hd.1 hD.1 hU.1 (by omega)
    obtain ⟨b1, b2, b3⟩ := ih2 hd.2 hD.2 hU.2 (by omega)
    exact ⟨⟨a1, b1⟩, ⟨a2, b2⟩, a3, b3⟩
  all_goals
    intros
    rw [elimZeros] <;> simp [TidyD, TidyU, TidyZ]

/-! ### The passes keep operators filled -/

theorem filledOps_append (a b : Ops) : FilledOps (a.append b) ↔ FilledOps a ∧ FilledOps b := by
  induction a using Ops.rec (motive_1 := fun _ => True) with
  | nil => simp [Ops.append, FilledOps]
  | cons f n r _ ih => simp [Ops.append, FilledOps, ih, and_assoc]
  | _ => trivial

theorem filledOps_splice (m : Bool) (a : Ops) : FilledOps (splice m a) ↔ FilledOps a := by
  induction a using Ops.rec (motive_1 := fun _ => True) with
  | nil => simp [splice]
  | cons f n r _ ih => simp [splice, FilledOps, ih]
  | _ => trivial

/-- Filled and not empty. -/
def Full (ops : Ops) : Prop := ops ≠ .nil ∧ FilledOps ops

theorem filled_subSums (ops : Ops) (h : FilledOps ops) :
    FilledOps (sumReduceSubSums ops).1 ∧ (ops ≠ .nil → (sumReduceSubSums ops).1 ≠ .nil) := by
  fun_induction sumReduceSubSums ops with
  | case1 => exact ⟨h, id⟩
  | case2 s inner r ih =>
    refine ⟨?_, fun _ => ?_⟩
    · rw [filledOps_append, filledOps_splice]
      exact ⟨h.1.2, (ih h.2).1⟩
    · cases inner with
      | nil => exact absurd rfl h.1.1
      | cons f n r' => simp [splice, Ops.append]
  | case3 s n r hn ih => exact ⟨⟨h.1, (ih h.2).1⟩, by simp⟩

theorem filled_mSubMults (ops : Ops) (h : FilledOps ops) :
    FilledOps (multReduceSubMults ops).1 ∧ (ops ≠ .nil → (multReduceSubMults ops).1 ≠ .nil) := by
  fun_induction multReduceSubMults ops with
  | case1 => exact ⟨h, id⟩
  | case2 s inner r ih =>
    refine ⟨?_, fun _ => ?_⟩
    · rw [filledOps_append, filledOps_splice]
      exact ⟨h.1.2, (ih h.2).1⟩
    · cases inner with
      | nil => exact absurd rfl h.1.1
      | cons f n r' => simp [splice, Ops.append]
  | case3 s n r hn ih => exact ⟨⟨h.1, (ih h.2).1⟩, by simp⟩

theorem filled_subMults (ops : Ops) (h : FilledOps ops) :
    FilledOps (sumReduceSubMults ops).1 ∧ (ops ≠ .nil → (sumReduceSubMults ops).1 ≠ .nil) := by
  fun_induction sumReduceSubMults ops with
  | case1 => exact ⟨h, id⟩
  | case2 s m r ih => exact ⟨⟨h.1.2.1, (ih h.2).1⟩, by simp⟩
  | case3 s n r hn ih => exact ⟨⟨h.1, (ih h.2).1⟩, by simp⟩

theorem filled_mSubSums (ops : Ops) (h : FilledOps ops) :
    FilledOps (multReduceSubSums ops).1 ∧ (ops ≠ .nil → (multReduceSubSums ops).1 ≠ .nil) := by
  fun_induction multReduceSubSums ops with
  | case1 => exact ⟨h, id⟩
  | case2 m s x r ih =>
    refine ⟨⟨?_, (ih h.2).1⟩, by simp⟩
    cases s
    · trivial
    · exact h.1.2.1
  | case3 s n r hn ih => exact ⟨⟨h.1, (ih h.2).1⟩, by simp⟩

theorem full_twoPasses {o : Bool} {a b : Ops → Ops × ℕ}
    (ha : ∀ ops, FilledOps ops → FilledOps (a ops).1 ∧ (ops ≠ .nil → (a ops).1 ≠ .nil))
    (hb : ∀ ops, FilledOps ops → FilledOps (b ops).1 ∧ (ops ≠ .nil → (b ops).1 ≠ .nil)) {ops : Ops}
    (h : Full ops) : Full (twoPasses o a b ops).1 := by
  unfold twoPasses
  cases o with
  | true =>
    have h1 := ha ops h.2
    have h2 := hb _ h1.1
    exact ⟨h2.2 (h1.2 h.1), h2.1⟩
  | false =>
    have h1 := hb ops h.2
    have h2 := ha _ h1.1
    exact ⟨h2.2 (h1.2 h.1), h2.1⟩

mutual
theorem filled_reduceDepth (o : Bool) : ∀ n, Filled n → Filled (reduceDepth o n).1
  | .sum ops => by
      intro h
      have hw := weight_sumPasses o ops
      have h1 := full_twoPasses (o := o) filled_subSums filled_subMults h
      have h2 := filled_reduceOps o _ h1.2
      rw [reduceDepth]
      exact ⟨h2.2 h1.1, h2.1⟩
  | .mult ops => by
      intro h
      have hw := weight_multPasses o ops
      have h1 := full_twoPasses (o := o) filled_mSubSums filled_mSubMults h
      have h2 := filled_reduceOps o _ h1.2
      rw [reduceDepth]
      exact ⟨h2.2 h1.1, h2.1⟩
  | .int _ | .float _ _ | .rat _ _ | .special _ | .var _ | .pow _ _ | .neg _ | .ipow _ _
  | .sqrt _ | .exp _ | .log _ | .sin _ | .cos _ | .tan _
  | .asin _ | .acos _ | .atan _ | .fn _ => by
      intro hs; simpa [reduceDepth] using hs
termination_by n => n.weight
decreasing_by
  all_goals simp only [Node.weight]; omega
theorem filled_reduceOps (o : Bool) : ∀ ops, FilledOps ops →
    FilledOps (reduceOps o ops).1 ∧ (ops ≠ .nil → (reduceOps o ops).1 ≠ .nil)
  | .nil => by intro h; rw [reduceOps]; exact ⟨h, id⟩
  | .cons f n r => by
      intro h
      have h1 := filled_reduceDepth o n h.1
      have h2 := filled_reduceOps o r h.2
      rw [reduceOps]
      exact ⟨⟨h1, h2.1⟩, by simp⟩
termination_by ops => ops.weight
decreasing_by
  all_goals simp only [Ops.weight]; omega
end

theorem filled_dropValue (cur : Env) (x : ℂ) (ops : Ops) (h : FilledOps ops) : FilledOps (dropValue cur x ops).1 := by
  induction ops using Ops.rec (motive_1 := fun _ => True) with
  | nil => exact h
  | cons f n r _ ih =>
    simp only [dropValue]
    split_ifs
    · exact ih h.2
    · exact ⟨h.1, ih h.2⟩
  | _ => trivial

theorem full_dropZeros (cur : Env) (ops : Ops) (h : Full ops) : Full (sumDropZeros cur ops).1 := by
  have h1 := filled_dropValue cur 0 ops h.2
  unfold sumDropZeros
  split_ifs
  · split
    · exact ⟨by simp, trivial, trivial⟩
    · rename_i hne
      exact ⟨fun e => hne (dropValue cur 0 ops).2 (Prod.ext e rfl), h1⟩
  · exact h

theorem full_dropOnes (cur : Env) (ops : Ops) (h : Full ops) : Full (multDropOnes cur ops).1 := by
  cases ops with
  | nil => exact absurd rfl h.1
  | cons f n r =>
    have h1 := filled_dropValue cur 1 _ h.2
    simp only [multDropOnes]
    split_ifs
    · split
      · exact ⟨by simp, h.2.1, trivial⟩
      · rename_i hne
        exact ⟨fun e => hne (dropValue cur 1 _).2 (Prod.ext e rfl), h1⟩
    · exact h

mutual
theorem filled_elimZeros (cur : Env) : ∀ n, Filled n → Filled (elimZeros cur n).1
  | .sum ops => by
      intro h
      have hw := weight_sumDropZeros cur ops
      have h1 := full_dropZeros cur ops h
      have h2 := filled_elimZerosOps cur _ h1.2
      rw [elimZeros]
      exact ⟨h2.2 h1.1, h2.1⟩
  | .mult ops => by
      intro h
      have h2 := filled_elimZerosOps cur _ h.2
      rw [elimZeros]
      split_ifs
      · exact ⟨by simp, trivial, trivial⟩
      · exact ⟨h2.2 h.1, h2.1⟩
  | .int _ | .float _ _ | .rat _ _ | .special _ | .var _ | .pow _ _ | .neg _ | .ipow _ _
  | .sqrt _ | .exp _ | .log _ | .sin _ | .cos _ | .tan _
  | .asin _ | .acos _ | .atan _ | .fn _ => by
      intro hs; simpa [elimZeros] using hs
termination_by n => n.weight
decreasing_by
  all_goals simp only [Node.weight]; omega
theorem filled_elimZerosOps (cur : Env) : ∀ ops, FilledOps ops →
    FilledOps (elimZerosOps cur ops).1 ∧ (ops ≠ .nil → (elimZerosOps cur ops).1 ≠ .nil)
  | .nil => by intro h; rw [elimZerosOps]; exact ⟨h, id⟩
  | .cons f n r => by
      intro h
      have h1 := filled_elimZeros cur n h.1
      have h2 := filled_elimZerosOps cur r h.2
      rw [elimZerosOps]
      exact ⟨⟨h1, h2.1⟩, by simp⟩
termination_by ops => ops.weight
decreasing_by
  all_goals simp only [Ops.weight]; omega
end

mutual
theorem filled_elimOnes (cur : Env) : ∀ n, Filled n → Filled (elimOnes cur n).1
  | .sum ops => by
      intro h
      have h2 := filled_elimOnesOps cur _ h.2
      rw [elimOnes]
      exact ⟨h2.2 h.1, h2.1⟩
  | .mult ops => by
      intro h
      have hw := weight_multDropOnes cur ops
      have h1 := full_dropOnes cur ops h
      have h2 := filled_elimOnesOps cur _ h1.2
      rw [elimOnes]
      exact ⟨h2.2 h1.1, h2.1⟩
  | .int _ | .float _ _ | .rat _ _ | .special _ | .var _ | .pow _ _ | .neg _ | .ipow _ _
  | .sqrt _ | .exp _ | .log _ | .sin _ | .cos _ | .tan _
  | .asin _ | .acos _ | .atan _ | .fn _ => by
      intro hs; simpa [elimOnes] using hs
termination_by n => n.weight
decreasing_by
  all_goals simp only [Node.weight]; omega
theorem filled_elimOnesOps (cur : Env) : ∀ ops, FilledOps ops →
    FilledOps (elimOnesOps cur ops).1 ∧ (ops ≠ .nil → (elimOnesOps cur ops).1 ≠ .nil)
  | .nil => by intro h; rw [elimOnesOps]; exact ⟨h, id⟩
  | .cons f n r => by
      intro h
      have h1 := filled_elimOnes cur n h.1
      have h2 := filled_elimOnesOps cur r h.2
      rw [elimOnesOps]
      exact ⟨⟨h1, h2.1⟩, by simp⟩
termination_by ops => ops.weight
decreasing_by
  all_goals simp only [Ops.weight]; omega
end

theorem filled_rounds (o : Bool) (cur : Env) (n : Node) (h : Filled n) (k : ℕ) : Filled (rounds o cur n k) := by
  induction k with
  | zero => exact h
  | succ k ih =>
    exact filled_elimZeros cur _ (filled_elimOnes cur _ (filled_reduceDepth o _ ih))

/-! ## The theorems -/

/-- **C108.** Whatever `Simplify` returns has nothing left to simplify. -/
theorem C108_tidy (o : Bool) (cur : Env) (n n' : Node) (k : ℕ) (hf : Filled n) (hd : Defined cur n)
    (h : SimplifiesTo o cur n k n') : Tidy cur n' := by
  obtain ⟨-, h2, rfl⟩ := h
  have hfk := filled_rounds o cur n hf k
  have hdk : Defined cur (rounds o cur n k) := (rounds_ok o cur cur n (stable_self cur n) k).defd hd
  rw [rounds]
  generalize rounds o cur n k = t at *
  simp only [simplifyRound, Prod.mk.injEq] at h2 ⊢
  obtain ⟨ha, hb, hc⟩ := h2
  have hD := reduceDepth_zero o t hfk ha
  rw [reduceDepth_id o t hD] at hb hc ⊢
  have hU := elimOnes_zero cur t hb
  simp only at hc ⊢
  rw [elimOnes_id cur t hU] at hc ⊢
  exact (tidy_iff cur _).mpr (elimZeros_zero cur t hdk hD hU hc)

/-- **C108 (again).** Simplifying the result again, with the variables at the same values, stops after one round
and changes nothing; so does each of the three passes on its own. -/
theorem C108_again (o o' : Bool) (cur : Env) (n n' : Node) (k : ℕ) (hf : Filled n) (hd : Defined cur n)
    (h : SimplifiesTo o cur n k n') :
    SimplifiesTo o' cur n' 0 n' ∧ reduceDepth o' n' = (n', 0) ∧ elimOnes cur n' = (n', 0) ∧
      elimZeros cur n' = (n', 0) := by
  obtain ⟨hD, hU, hZ⟩ := (tidy_iff cur n').mp (C108_tidy o cur n n' k hf hd h)
  have e1 := reduceDepth_id o' n' hD
  have e2 := elimOnes_id cur n' hU
  have e3 := elimZeros_id cur n' hZ
  refine ⟨⟨by simp, ?_, ?_⟩, e1, e2, e3⟩
  · simp only [rounds, simplifyRound, e1, e2, e3]
  · simp only [rounds, simplifyRound, e1, e2, e3]

theorem mem_size {ops : Ops} : ∀ p ∈ ops.toList, p.2.size ≤ ops.size := by
  induction ops using Ops.rec (motive_1 := fun _ => True) with
  | nil => simp [Ops.toList]
  | cons f n r _ ih =>
    simp only [Ops.toList, List.mem_cons, forall_eq_or_imp, Ops.size]
    exact ⟨by omega, fun p hp => (ih p hp).trans (by omega)⟩
  | _ => trivial

theorem dropValue_size (cur : Env) (x : ℂ) (ops : Ops) :
    (dropValue cur x ops).1.size + (dropValue cur x ops).2 ≤ ops.size := by
  induction ops using Ops.rec (motive_1 := fun _ => True) with
  | nil => simp [dropValue, Ops.size]
  | cons f n r _ ih =>
    have := n.size_pos
    simp only [dropValue]; split_ifs <;> simp only [Ops.size] <;> omega
  | _ => trivial

theorem dropZeros_size (cur : Env) (ops : Ops) :
    (sumDropZeros cur ops).1.size + (sumDropZeros cur ops).2 ≤ ops.size := by
  have h1 := dropValue_size cur 0 ops
  have h2 := dropValue_length cur 0 ops
  unfold sumDropZeros
  split_ifs with hl
  · split
    · rename_i k hk
      rw [hk] at h1 h2
      simp only [Ops.size, Ops.length, Node.size] at h1 h2 ⊢
      omega
    · exact h1
  · simp

theorem dropOnes_size (cur : Env) (ops : Ops) :
    (multDropOnes cur ops).1.size + (multDropOnes cur ops).2 ≤ ops.size := by
  cases ops with
  | nil => simp [multDropOnes]
  | cons f n r =>
    have h1 := dropValue_size cur 1 (.cons f n r)
    have h2 := dropValue_length cur 1 (.cons f n r)
    have h3 := length_le_size r
    simp only [multDropOnes]
    split_ifs with hl
    · split
      · rename_i k hk
        rw [hk] at h1 h2
        simp only [Ops.size, Ops.length] at h1 h2 ⊢
        omega
      · exact h1
    · simp

mutual
theorem count_elimZeros (cur : Env) : ∀ n, (elimZeros cur n).1.size + (elimZeros cur n).2 ≤ n.size
  | .sum ops => by
      have hw := weight_sumDropZeros cur ops
      have h1 := dropZeros_size cur ops
      have h2 := count_elimZerosOps cur (sumDropZeros cur ops).1
      rw [elimZeros]
      simp only [Node.size]
      omega
  | .mult ops => by
      have h2 := count_elimZerosOps cur ops
      have h3 := length_le_size ops
      rw [elimZeros]
      split_ifs with hz
      · obtain ⟨p, hp, h0⟩ := (hasZero_iff cur ops).mp hz
        have h4 := mem_size p hp
        have h5 := p.2.size_pos
        simp only [Node.size, Ops.size]
        omega
      · simp only [Node.size]
        omega
  | .int _ | .float _ _ | .rat _ _ | .special _ | .var _ | .pow _ _ | .neg _ | .ipow _ _
  | .sqrt _ | .exp _ | .log _ | .sin _ | .cos _ | .tan _
  | .asin _ | .acos _ | .atan _ | .fn _ => by simp [elimZeros]
termination_by n => n.weight
decreasing_by
  all_goals simp only [Node.weight]; omega
theorem count_elimZerosOps (cur : Env) : ∀ ops,
    (elimZerosOps cur ops).1.size + (elimZerosOps cur ops).2 ≤ ops.size
  | .nil => by rw [elimZerosOps]; simp
  | .cons f n r => by
      have h1 := count_elimZeros cur n
      have h2 := count_elimZerosOps cur r
      rw [elimZerosOps]
      simp only [Ops.size]
      omega
termination_by ops => ops.weight
decreasing_by
  all_goals simp only [Ops.weight]; omega
end

mutual
theorem count_elimOnes (cur : Env) : ∀ n, (elimOnes cur n).1.size + (elimOnes cur n).2 ≤ n.size
  | .sum ops => by
      have h2 := count_elimOnesOps cur ops
      rw [elimOnes]
      simp only [Node.size]
      omega
  | .mult ops => by
      have hw := weight_multDropOnes cur ops
      have h1 := dropOnes_size cur ops
      have h2 := count_elimOnesOps cur (multDropOnes cur ops).1
      rw [elimOnes]
      simp only [Node.size]
      omega
  | .int _ | .float _ _ | .rat _ _ | .special _ | .var _ | .pow _ _ | .neg _ | .ipow _ _
  | .sqrt _ | .exp _ | .log _ | .sin _ | .cos _ | .tan _
  | .asin _ | .acos _ | .atan _ | .fn _ => by simp [elimOnes]
termination_by n => n.weight
decreasing_by
  all_goals simp only [Node.weight]; omega
theorem count_elimOnesOps (cur : Env) : ∀ ops,
    (elimOnesOps cur ops).1.size + (elimOnesOps cur ops).2 ≤ ops.size
  | .nil => by rw [elimOnesOps]; simp
  | .cons f n r => by
      have h1 := count_elimOnes cur n
      have h2 := count_elimOnesOps cur r
      rw [elimOnesOps]
      simp only [Ops.size]
      omega
termination_by ops => ops.weight
decreasing_by
  all_goals simp only [Ops.weight]; omega
end

/-! ### When the counts are exact -/

mutual
/-- Whatever `EliminateZeros` drops is a leaf: a term of value 0 is a single node, and so are the factors of a
product with a factor of value 0. -/
def LightZ (cur : Env) : Node → Prop
  | .sum ops => (∀ p ∈ ops.toList, eval cur p.2 = 0 → p.2.size = 1) ∧ LightZOps cur ops
  | .mult ops => ((∃ p ∈ ops.toList, eval cur p.2 = 0) → ∀ p ∈ ops.toList, p.2.size = 1) ∧ LightZOps cur ops
  | _ => True
/-- Same for the operands. -/
def LightZOps (cur : Env) : Ops → Prop
  | .nil => True
  | .cons _ n r => LightZ cur n ∧ LightZOps cur r
end

mutual
/-- Whatever `EliminateOnes` drops is a leaf: a factor of value 1 is a single node. -/
def LightU (cur : Env) : Node → Prop
  | .sum ops => LightUOps cur ops
  | .mult ops => (∀ p ∈ ops.toList, eval cur p.2 = 1 → p.2.size = 1) ∧ LightUOps cur ops
  | _ => True
/-- Same for the operands. -/
def LightUOps (cur : Env) : Ops → Prop
  | .nil => True
  | .cons _ n r => LightU cur n ∧ LightUOps cur r
end

theorem dropValue_exact (cur : Env) (x : ℂ) (ops : Ops) (h : ∀ p ∈ ops.toList, eval cur p.2 = x → p.2.size = 1) :
    (dropValue cur x ops).1.size + (dropValue cur x ops).2 = ops.size := by
  induction ops using Ops.rec (motive_1 := fun _ => True) with
  | nil => simp [dropValue, Ops.size]
  | cons f n r _ ih =>
    simp only [Ops.toList, List.mem_cons, forall_eq_or_imp] at h
    have := ih h.2
    simp only [dropValue]
    split_ifs with hx
    · have := h.1 hx
      simp only [Ops.size]; omega
    · simp only [Ops.size]; omega
  | _ => trivial

theorem dropZeros_exact (cur : Env) (ops : Ops) (h : ∀ p ∈ ops.toList, eval cur p.2 = 0 → p.2.size = 1) :
    (sumDropZeros cur ops).1.size + (sumDropZeros cur ops).2 = ops.size := by
  have h1 := dropValue_exact cur 0 ops h
  have h2 := dropValue_length cur 0 ops
  unfold sumDropZeros
  split_ifs with hl
  · split
    · rename_i k hk
      rw [hk] at h1 h2
      simp only [Ops.size, Ops.length, Node.size] at h1 h2 ⊢
      omega
    · exact h1
  · simp

theorem dropOnes_exact (cur : Env) (ops : Ops) (h : ∀ p ∈ ops.toList, eval cur p.2 = 1 → p.2.size = 1) :
    (multDropOnes cur ops).1.size + (multDropOnes cur ops).2 = ops.size := by
  cases ops with
  | nil => simp [multDropOnes]
  | cons f n r =>
    have h1 := dropValue_exact cur 1 (.cons f n r) h
    have h2 := dropValue_length cur 1 (.cons f n r)
    simp only [multDropOnes]
    split_ifs with hl
    · split
      · rename_i k hk
        have h3 := dropValue_nil cur 1 (.cons f n r) (by rw [hk]) f n r rfl
        have h4 := h (f, n) (by simp [Ops.toList]) h3
        rw [hk] at h1 h2
        simp only [Ops.size, Ops.length] at h1 h2 h4 ⊢
        omega
      · exact h1
    · simp

theorem lightZ_dropValue (cur : Env) (x : ℂ) (ops : Ops) (h : LightZOps cur ops) :
    LightZOps cur (dropValue cur x ops).1 := by
  induction ops using Ops.rec (motive_1 := fun _ => True) with
  | nil => exact h
  | cons f n r _ ih =>
    simp only [dropValue]
    split_ifs
    · exact ih h.2
    · exact ⟨h.1, ih h.2⟩
  | _ => trivial

theorem lightU_dropValue (cur : Env) (x : ℂ) (ops : Ops) (h : LightUOps cur ops) :
    LightUOps cur (dropValue cur x ops).1 := by
  induction ops using Ops.rec (motive_1 := fun _ => True) with
  | nil => exact h
  | cons f n r _ ih =>
    simp only [dropValue]
    split_ifs
    · exact ih h.2
    · exact ⟨h.1, ih h.2⟩
  | _ => trivial

theorem lightZ_dropZeros (cur : Env) (ops : Ops) (h : LightZOps cur ops) : LightZOps cur (sumDropZeros cur ops).1 := by
  have h1 := lightZ_dropValue cur 0 ops h
  unfold sumDropZeros
  split_ifs
  · split
    · exact ⟨trivial, trivial⟩
    · exact h1
  · exact h

theorem lightU_dropOnes (cur : Env) (ops : Ops) (h : LightUOps cur ops) : LightUOps cur (multDropOnes cur ops).1 := by
  cases ops with
  | nil => exact h
  | cons f n r =>
    have h1 := lightU_dropValue cur 1 _ h
    simp only [multDropOnes]
    split_ifs
    · split
      · exact ⟨h.1, trivial⟩
      · exact h1
    · exact h

theorem size_ones {ops : Ops} (h : ∀ p ∈ ops.toList, p.2.size = 1) : ops.size = ops.length := by
  induction ops using Ops.rec (motive_1 := fun _ => True) with
  | nil => rfl
  | cons f n r _ ih =>
    simp only [Ops.toList, List.mem_cons, forall_eq_or_imp] at h
    simp only [Ops.size, Ops.length, ih h.2]
    have := h.1
    omega
  | _ => trivial

mutual
theorem exact_elimZeros (cur : Env) : ∀ n, LightZ cur n → (elimZeros cur n).1.size + (elimZeros cur n).2 = n.size
  | .sum ops => by
      intro h
      have hw := weight_sumDropZeros cur ops
      have h1 := dropZeros_exact cur ops h.1
      have h2 := exact_elimZerosOps cur (sumDropZeros cur ops).1 (lightZ_dropZeros cur ops h.2)
      rw [elimZeros]
      simp only [Node.size]
      omega
  | .mult ops => by
      intro h
      have h2 := exact_elimZerosOps cur ops h.2
      rw [elimZeros]
      split_ifs with hz
      · have h3 := (hasZero_iff cur ops).mp hz
        have h4 := size_ones (h.1 h3)
        obtain ⟨p, hp, -⟩ := h3
        have h5 := mem_size p hp
        have h6 := p.2.size_pos
        simp only [Node.size, Ops.size]
        omega
      · simp only [Node.size]
        omega
  | .int _ | .float _ _ | .rat _ _ | .special _ | .var _ | .pow _ _ | .neg _ | .ipow _ _
  | .sqrt _ | .exp _ | .log _ | .sin _ | .cos _ | .tan _
  | .asin _ | .acos _ | .atan _ | .fn _ => by simp [elimZeros]
termination_by n => n.weight
decreasing_by
  all_goals simp only [Node.weight]; omega
theorem exact_elimZerosOps (cur : Env) : ∀ ops, LightZOps cur ops →
    (elimZerosOps cur ops).1.size + (elimZerosOps cur ops).2 = ops.size
  | .nil => by intro _; rw [elimZerosOps]; simp
  | .cons f n r => by
      intro h
      have h1 := exact_elimZeros cur n h.1
      have h2 := exact_elimZerosOps cur r h.2
      rw [elimZerosOps]
      simp only [Ops.size]
      omega
termination_by ops => ops.weight
decreasing_by
  all_goals simp only [Ops.weight]; omega
end

mutual
theorem exact_elimOnes (cur : Env) : ∀ n, LightU cur n → (elimOnes cur n).1.size + (elimOnes cur n).2 = n.size
  | .sum ops => by
      intro h
      have h2 := exact_elimOnesOps cur ops h
      rw [elimOnes]
      simp only [Node.size]
      omega
  | .mult ops => by
      intro h
      have hw := weight_multDropOnes cur ops
      have h1 := dropOnes_exact cur ops h.1
      have h2 := exact_elimOnesOps cur (multDropOnes cur ops).1 (lightU_dropOnes cur ops h.2)
      rw [elimOnes]
      simp only [Node.size]
      omega
  | .int _ | .float _ _ | .rat _ _ | .special _ | .var _ | .pow _ _ | .neg _ | .ipow _ _
  | .sqrt _ | .exp _ | .log _ | .sin _ | .cos _ | .tan _
  | .asin _ | .acos _ | .atan _ | .fn _ => by simp [elimOnes]
termination_by n => n.weight
decreasing_by
  all_goals simp only [Node.weight]; omega
theorem exact_elimOnesOps (cur : Env) : ∀ ops, LightUOps cur ops →
    (elimOnesOps cur ops).1.size + (elimOnesOps cur ops).2 = ops.size
  | .nil => by intro _; rw [elimOnesOps]; simp
  | .cons f n r => by
      intro h
      have h1 := exact_elimOnes cur n h.1
      have h2 := exact_elimOnesOps cur r h.2
      rw [elimOnesOps]
      simp only [Ops.size]
      omega
termination_by ops => ops.weight
decreasing_by
  all_goals simp only [Ops.weight]; omega
end

/-- C109, full statement: the two elimination passes return the number of nodes they eliminated. -/
def C109_full : Prop :=
  ∀ (cur : Env) (n : Node), Filled n → Defined cur n →
    (elimZeros cur n).1.size + (elimZeros cur n).2 = n.size ∧
    (elimOnes cur n).1.size + (elimOnes cur n).2 = n.size

/-- **C109.** The returned numbers never exceed the number of nodes eliminated, and are that number if only leaves
were dropped. Missing: a dropped operand with a subtree, counted once. -/
theorem C109_partial (cur : Env) (n : Node) :
    (elimZeros cur n).1.size + (elimZeros cur n).2 ≤ n.size ∧
    (elimOnes cur n).1.size + (elimOnes cur n).2 ≤ n.size ∧
    (LightZ cur n → (elimZeros cur n).1.size + (elimZeros cur n).2 = n.size) ∧
    (LightU cur n → (elimOnes cur n).1.size + (elimOnes cur n).2 = n.size) :=
  ⟨count_elimZeros cur n, count_elimOnes cur n, exact_elimZeros cur n, exact_elimOnes cur n⟩

/-- **C109 (nothing to do).** `EliminateOnes` returns 0 exactly if it left the tree alone, and so does `ReduceDepth`. -/
theorem C109_unchanged (o : Bool) (cur : Env) (n : Node) (hf : Filled n) :
    ((elimOnes cur n).2 = 0 ↔ (elimOnes cur n).1 = n) ∧ ((reduceDepth o n).2 = 0 ↔ (reduceDepth o n).1 = n) := by
  refine ⟨⟨fun h => ?_, fun h => ?_⟩, fun h => ?_, fun h => ?_⟩
  · rw [elimOnes_id cur n (elimOnes_zero cur n h)]
  · have := count_elimOnes cur n
    rw [h] at this
    omega
  · rw [reduceDepth_id o n (reduceDepth_zero o n hf h)]
  · have := (shrink_reduceDepth o n).2
    rw [h] at this
    omega

/-- **The code violates C109**: in `x + 0*y` two terms and factors make up the term dropped, three nodes in all, and
1 is returned. -/
theorem C109_refuted : ¬ C109_full := by
  intro H
  have h := (H (fun _ => 7) (.sum (.cons true (.var 0) (.cons true
    (.mult (.cons true (.int 0) (.cons true (.var 1) .nil))) .nil)))
    (by simp [Filled, FilledOps]) (by simp [Defined, DefinedSum, DefinedMult])).1
  simp [elimZeros, elimZerosOps, sumDropZeros, dropValue, Ops.length, eval, evalMult, Node.size, Ops.size] at h

/-- `EliminateZeros` can return 0 although it changed the tree: a product whose only factor holds 0 becomes the
product of the constant 0. -/
theorem C109_silent : ∃ (cur : Env) (n : Node), Filled n ∧ Defined cur n ∧ (elimZeros cur n).2 = 0 ∧
    (elimZeros cur n).1 ≠ n :=
  ⟨fun _ => 0, .mult (.cons true (.var 0) .nil), by simp [Filled, FilledOps], by simp [Defined, DefinedMult],
    by simp [elimZeros, hasZero, eval, Ops.length], by simp [elimZeros, hasZero, eval]⟩

/-- Non-vacuity of C108, C109: `(x + 0) + 1*y` at `x = 3, y = 2`. -/
example : let n : Node := .sum (.cons true (.sum (.cons true (.var 0) (.cons true (.int 0) .nil)))
      (.cons true (.mult (.cons true (.int 1) (.cons true (.var 1) .nil))) .nil))
    let cur : Env := fun v => if v = 0 then 3 else 2
    Filled n ∧ Defined cur n ∧ LightZ cur n ∧ LightU cur n ∧ (elimZeros cur n).2 = 1 ∧ (elimOnes cur n).2 = 1 ∧
    Tidy cur (.sum (.cons true (.var 0) (.cons true (.var 1) .nil))) ∧ ¬ Tidy cur n := by
  refine ⟨by simp [Filled, FilledOps], by simp [Defined, DefinedSum, DefinedMult], ?_, ?_, ?_, ?_, ?_, ?_⟩
  · norm_num [LightZ, LightZOps, Ops.toList, eval, evalSum, evalMult, Node.size, Ops.size]
  · norm_num [LightU, LightUOps, Ops.toList, eval, evalSum, evalMult, Node.size, Ops.size]
  · norm_num [elimZeros, elimZerosOps, sumDropZeros, dropValue, hasZero, Ops.length, eval, evalSum, evalMult]
    simp [elimZeros]
  · norm_num [elimOnes, elimOnesOps, multDropOnes, dropValue, Ops.length, eval, evalSum, evalMult]
    simp [elimOnes]
  · norm_num [Tidy, TidyOps, Ops.toList, eval]
    simp
  · simp [Tidy, Ops.toList]

end B2
