import Verif.SLP.Basic
import Mathlib.Data.List.Nodup

/-! # Correctness of the compiler: invariants (lemmas for C15) -/

namespace B2.SLP

set_option linter.unusedSectionVars false

variable {C V : Type} [One C]

theorem ensure_congr {r r' : ℕ → CState C → Option (CState C)} {j : ℕ}
    (h : ∀ s, r j s = r' j s) (s : CState C) : ensure r j s = ensure r' j s := by
  unfold ensure; split <;> simp [h]

theorem gather_congr {r r' : ℕ → CState C → Option (CState C)} (js : List ℕ)
    (h : ∀ j ∈ js, ∀ s, r j s = r' j s) (s : CState C) : gather r js s = gather r' js s := by
  induction js generalizing s with
  | nil => rfl
  | cons j js ih =>
    simp only [gather, ensure_congr (h j (by simp)),
      fun s => ih (fun j' hj' => h j' (by simp [hj'])) s]

theorem visitWith_congr (G : Graph C) {r r' : ℕ → CState C → Option (CState C)} (i : ℕ)
    (h : ∀ j ∈ (G.cell i).operands, ∀ s, r j s = r' j s) (s : CState C) :
    visitWith G r i s = visitWith G r' i s := by
  unfold visitWith
  cases hc : G.cell i with
  | var => rfl
  | num c => rfl
  | other _ => rfl
  | fn n => simp only [ensure_congr (h n (by simp [hc, Cell.operands]))]
  | un f n => simp only [ensure_congr (h n (by simp [hc, Cell.operands]))]
  | ipow n k => simp only [ensure_congr (h n (by simp [hc, Cell.operands]))]
  | pow b e =>
    simp only [ensure_congr (h b (by simp [hc, Cell.operands])),
      ensure_congr (h e (by simp [hc, Cell.operands]))]
  | sum ops =>
    simp only [gather_congr (ops.map Prod.snd) (fun j hj => h j (by rw [hc]; exact hj))]
  | mult ops =>
    simp only [gather_congr (ops.map Prod.snd) (fun j hj => h j (by rw [hc]; exact hj))]

theorem visit_eq (G : Graph C) (i : ℕ) (s : CState C) :
    visit G i s = visitWith G (visit G) i s := by
  rw [visit]
  exact visitWith_congr G i (fun j hj s => by rw [dif_pos (G.acyclic i j hj)]) s

theorem valueWith_congr (G : Graph C) (A : Arith C V) (x : ℕ → V) {v w : ℕ → V} (i : ℕ)
    (h : ∀ j ∈ (G.cell i).operands, v j = w j) :
    valueWith G A x v i = valueWith G A x w i := by
  unfold valueWith
  cases hc : G.cell i with
  | var => rfl
  | num c => rfl
  | other _ => rfl
  | fn n => exact h n (by simp [hc, Cell.operands])
  | un f n => simp only [h n (by simp [hc, Cell.operands])]
  | ipow n k => simp only [h n (by simp [hc, Cell.operands])]
  | pow b e =>
    simp only [h b (by simp [hc, Cell.operands]), h e (by simp [hc, Cell.operands])]
  | sum ops =>
    have : (ops.map fun o => (o.1, v o.2)) = ops.map fun o => (o.1, w o.2) :=
      List.map_congr_left fun o ho => by
        rw [h o.2 (by rw [hc]; exact List.mem_map_of_mem ho)]
    simp only [this]
  | mult ops =>
    have : (ops.map fun o => (o.1, v o.2)) = ops.map fun o => (o.1, w o.2) :=
      List.map_congr_left fun o ho => by
        rw [h o.2 (by rw [hc]; exact List.mem_map_of_mem ho)]
    simp only [this]

theorem value_eq (G : Graph C) (A : Arith C V) (x : ℕ → V) (i : ℕ) :
    value G A x i = valueWith G A x (value G A x) i := by
  rw [value]
  exact valueWith_congr G A x i fun j hj => by rw [dif_pos (G.acyclic i j hj)]

/-! ### Execution -/

theorem exec_append (A : Arith C V) (T : List ℤ) (a b : List Instr) (m : Mem V) :
    exec A T (a ++ b) m = exec A T b (exec A T a m) := by simp [exec]

theorem Instr.exec_other (A : Arith C V) (T : List ℤ) (m : Mem V) (c : Instr) {l : ℕ}
    (h : l ≠ c.out) : c.exec A T m l = m l := by
  cases c <;> simp_all [Instr.exec, Mem.set, Instr.out]

theorem exec_other (A : Arith C V) (T : List ℤ) (code : List Instr) (m : Mem V) {l : ℕ}
    (h : ∀ c ∈ code, c.out ≠ l) : exec A T code m l = m l := by
  induction code generalizing m with
  | nil => rfl
  | cons c code ih =>
    simp only [exec, List.foldl_cons] at ih ⊢
    rw [ih _ (fun c' hc' => h c' (by simp [hc']))]
    exact c.exec_other A T m (fun e => h c (by simp) e.symm)

/-! ### The invariant -/

/-- All numbers recorded so far are in memory. -/
def Loaded (A : Arith C V) (s : CState C) (m : Mem V) : Prop :=
  ∀ p ∈ s.nums, m p.2 = A.ofNum p.1

/-- Location `l` is an input (the inputs are the first `N` locations), a number, or written by
some instruction of `code`. -/
def Avail (N : ℕ) (nums : List (C × ℕ)) (code : List Instr) (l : ℕ) : Prop :=
  l < N ∨ (∃ p ∈ nums, p.2 = l) ∨ ∃ c ∈ code, c.out = l

/-- Every instruction reads only locations available when it runs, and its table index exists. -/
def ReadsOK (N : ℕ) (nums : List (C × ℕ)) (ints : List ℤ) (code : List Instr) : Prop :=
  ∀ pre c post, code = pre ++ c :: post →
    (∀ l ∈ c.reads, Avail N nums pre l) ∧ ∀ a k o, c = .ipow a k o → k < ints.length

theorem Avail.mono {N : ℕ} {nums nums' : List (C × ℕ)} {code code' : List Instr} {l : ℕ}
    (h : Avail N nums code l) (h1 : ∀ p ∈ nums, p ∈ nums') (h2 : ∀ c ∈ code, c ∈ code') :
    Avail N nums' code' l := by
  rcases h with h | ⟨p, hp, e⟩ | ⟨c, hc, e⟩
  · exact .inl h
  · exact .inr (.inl ⟨p, h1 p hp, e⟩)
  · exact .inr (.inr ⟨c, h2 c hc, e⟩)

theorem ReadsOK.snoc {N : ℕ} {nums : List (C × ℕ)} {ints : List ℤ} {code : List Instr}
    (h : ReadsOK N nums ints code) (c : Instr) (hr : ∀ l ∈ c.reads, Avail N nums code l)
    (hk : ∀ a k o, c = .ipow a k o → k < ints.length) : ReadsOK N nums ints (code ++ [c]) := by
  intro pre d post e
  rcases List.eq_nil_or_concat post with rfl | ⟨post', d', rfl⟩
  · obtain ⟨rfl, e2⟩ := List.append_inj' e rfl
    simp only [List.cons.injEq, and_true] at e2
    subst e2
    exact ⟨hr, hk⟩
  · have e' : code ++ [c] = (pre ++ d :: post') ++ [d'] := by simpa using e
    obtain ⟨e1, -⟩ := List.append_inj' e' rfl
    exact h pre d post' e1

theorem ReadsOK.mono {N : ℕ} {nums nums' : List (C × ℕ)} {ints ints' : List ℤ}
    {code : List Instr} (h : ReadsOK N nums ints code) (h1 : ∀ p ∈ nums, p ∈ nums')
    (h2 : ints.length ≤ ints'.length) : ReadsOK N nums' ints' code := by
  intro pre c post e
  obtain ⟨a, b⟩ := h pre c post e
  exact ⟨fun l hl => (a l hl).mono h1 fun _ h => h, fun x k o hk => lt_of_lt_of_le (b x k o hk) h2⟩

/-- Location `l` holds `v` after running the code emitted so far, from every memory with the
inputs (`I`) and numbers in place, and no pending output (`P`) lives there. -/
structure Holds (A : Arith C V) (N : ℕ) (I : Mem V → Prop) (P : List ℕ) (s : CState C) (l : ℕ)
    (v : V) : Prop where
  lt : l < s.next
  sep : ∀ p ∈ P, s.loc p ≠ some l
  avail : Avail N s.nums s.code l
  val : ∀ T m, s.ints <+: T → I m → Loaded A s m → exec A T s.code m l = v

/-- The compiler invariant; `P` are the top-level functions not yet visited. -/
structure Inv (G : Graph C) (A : Arith C V) (x : ℕ → V) (N : ℕ) (I : Mem V → Prop)
    (P : List ℕ)
    (s : CState C) : Prop where
  outLt : ∀ c ∈ s.code, c.out < s.next
  numLt : ∀ p ∈ s.nums, p.2 < s.next
  inLe : N ≤ s.next
  reads : ReadsOK N s.nums s.ints s.code
  ints : ∀ k l, s.intLoc k = some l → s.ints[l]? = some k
  pend : ∀ p ∈ P, ∃ l, s.loc p = some l ∧ l < s.next
  inj : ∀ p ∈ P, ∀ q ∈ P, s.loc p = s.loc q → p = q
  done : ∀ j l, s.loc j = some l → j ∉ P → Holds A N I P s l (value G A x j)

/-- What later states keep. -/
structure Ext (A : Arith C V) (N : ℕ) (I : Mem V → Prop) (P : List ℕ) (s s' : CState C) : Prop where
  holds : ∀ l v, Holds A N I P s l v → Holds A N I P s' l v
  loc : ∀ j, s.loc j ≠ none → s'.loc j = s.loc j

variable {G : Graph C} {A : Arith C V} {x : ℕ → V} {N : ℕ} {I : Mem V → Prop} {P : List ℕ}

theorem Ext.refl (s : CState C) : Ext A N I P s s := ⟨fun _ _ h => h, fun _ _ => rfl⟩

theorem Ext.trans {s s' s'' : CState C} (h : Ext A N I P s s') (h' : Ext A N I P s' s'') :
    Ext A N I P s s'' :=
  ⟨fun l v hv => h'.holds l v (h.holds l v hv), fun j hj => by
    have := h.loc j hj
    rw [h'.loc j (by rw [this]; exact hj), this]⟩

theorem Holds.congr {s : CState C} {l : ℕ} {v w : V} (h : Holds A N I P s l v) (e : v = w) :
    Holds A N I P s l w := e ▸ h

/-- Emitting an instruction that writes to the fresh location. -/
theorem emit_ext {s : CState C} (c : Instr) (hc : c.out = s.next) :
    Ext A N I P s (s.emit c).bump where
  holds l v h := by
    refine ⟨Nat.lt_succ_of_lt h.lt, h.sep,
      h.avail.mono (fun _ h => h) (fun _ h => by simp [CState.emit, CState.bump, h]),
      fun T m hT hI hL => ?_⟩
    simp only [CState.emit, CState.bump, exec_append]
    rw [exec, List.foldl_cons, List.foldl_nil,
      c.exec_other A T _ (by rw [hc]; exact Nat.ne_of_lt h.lt)]
    exact h.val T m hT hI hL
  loc _ _ := rfl

theorem emit_inv {s : CState C} (hi : Inv G A x N I P s) (c : Instr) (hc : c.out = s.next)
    (hr : ∀ l ∈ c.reads, Avail N s.nums s.code l)
    (hk : ∀ a k o, c = .ipow a k o → k < s.ints.length) :
    Inv G A x N I P (s.emit c).bump where
  outLt c' hc' := by
    simp only [CState.emit, CState.bump, List.mem_append, List.mem_singleton] at hc' ⊢
    rcases hc' with h | rfl
    · exact Nat.lt_succ_of_lt (hi.outLt c' h)
    · omega
  numLt p hp := Nat.lt_succ_of_lt (hi.numLt p hp)
  inLe := Nat.le_succ_of_le hi.inLe
  reads := hi.reads.snoc c hr hk
  ints := hi.ints
  pend p hp := by
    obtain ⟨l, h1, h2⟩ := hi.pend p hp
    exact ⟨l, h1, Nat.lt_succ_of_lt h2⟩
  inj := hi.inj
  done j l hl hj := (emit_ext c hc).holds l _ (hi.done j l hl hj)

/-- The value written by the emitted instruction. -/
theorem emit_holds {s : CState C} (hi : Inv G A x N I P s) (c : Instr) (hc : c.out = s.next)
    (v : V)
    (hv : ∀ T m, s.ints <+: T → I m → Loaded A s m →
      c.exec A T (exec A T s.code m) s.next = v) :
    Holds A N I P (s.emit c).bump s.next v where
  lt := Nat.lt_succ_self _
  sep p hp h := by
    obtain ⟨l, h1, h2⟩ := hi.pend p hp
    have : l = s.next := by
      have := h1.symm.trans h
      simpa using this
    omega
  avail := .inr (.inr ⟨c, by simp [CState.emit, CState.bump], hc⟩)
  val T m hT hI hL := by
    simp only [CState.emit, CState.bump, exec_append]
    exact hv T m hT hI hL

theorem emit_bin {s : CState C} (hi : Inv G A x N I P s) (op : BinOp) {a b : ℕ} {va vb : V}
    (ha : Holds A N I P s a va) (hb : Holds A N I P s b vb) :
    Holds A N I P (s.emit (.bin op a b s.next)).bump s.next (A.bin op va vb) :=
  emit_holds hi _ rfl _ fun T m hT hI hL => by
    simp [Instr.exec, Mem.set, ha.val T m hT hI hL, hb.val T m hT hI hL]

theorem emit_un {s : CState C} (hi : Inv G A x N I P s) (f : UnFn) {a : ℕ} {va : V}
    (ha : Holds A N I P s a va) :
    Holds A N I P (s.emit (.un f a s.next)).bump s.next (A.un f va) :=
  emit_holds hi _ rfl _ fun T m hT hI hL => by
    simp [Instr.exec, Mem.set, ha.val T m hT hI hL]

theorem emit_assign {s : CState C} (hi : Inv G A x N I P s) {a : ℕ} {va : V}
    (ha : Holds A N I P s a va) :
    Holds A N I P (s.emit (.assign a s.next)).bump s.next va :=
  emit_holds hi _ rfl _ fun T m hT hI hL => by
    simp [Instr.exec, Mem.set, ha.val T m hT hI hL]

theorem emit_ipow {s : CState C} (hi : Inv G A x N I P s) {a k : ℕ} {z : ℤ} {va : V}
    (ha : Holds A N I P s a va) (hk : s.ints[k]? = some z) :
    Holds A N I P (s.emit (.ipow a k s.next)).bump s.next (A.ipow va z) :=
  emit_holds hi _ rfl _ fun T m hT hI hL => by
    have : T[k]? = some z := by
      obtain ⟨r, rfl⟩ := hT
      rw [List.getElem?_append_left (List.getElem?_eq_some_iff.1 hk).1, hk]
    simp [Instr.exec, Mem.set, ha.val T m hT hI hL, this]

theorem addNum_ext {s : CState C} (c : C) : Ext A N I P s (s.addNum c) where
  holds l v h := ⟨Nat.lt_succ_of_lt h.lt, h.sep,
    h.avail.mono (fun _ h => by simp [CState.addNum, h]) (fun _ h => h), fun T m hT hI hL => h.val T m hT hI
    fun p hp => hL p (by simp [CState.addNum, hp])⟩
  loc _ _ := rfl

theorem addNum_inv {s : CState C} (hi : Inv G A x N I P s) (c : C) :
    Inv G A x N I P (s.addNum c) where
  outLt c' hc' := Nat.lt_succ_of_lt (hi.outLt c' hc')
  numLt p hp := by
    simp only [CState.addNum, List.mem_append, List.mem_singleton] at hp ⊢
    rcases hp with h | rfl
    · exact Nat.lt_succ_of_lt (hi.numLt p h)
    · exact Nat.lt_succ_self _
  inLe := Nat.le_succ_of_le hi.inLe
  reads := hi.reads.mono (fun _ h => by simp [CState.addNum, h]) le_rfl
  ints := hi.ints
  pend p hp := by
    obtain ⟨l, h1, h2⟩ := hi.pend p hp
    exact ⟨l, h1, Nat.lt_succ_of_lt h2⟩
  inj := hi.inj
  done j l hl hj := (addNum_ext c).holds l _ (hi.done j l hl hj)

theorem addNum_holds {s : CState C} (hi : Inv G A x N I P s) (c : C) :
    Holds A N I P (s.addNum c) s.next (A.ofNum c) where
  lt := Nat.lt_succ_self _
  sep p hp h := by
    obtain ⟨l, h1, h2⟩ := hi.pend p hp
    have : l = s.next := by
      have := h1.symm.trans h
      simpa using this
    omega
  avail := .inr (.inl ⟨(c, s.next), by simp [CState.addNum], rfl⟩)
  val T m hT hI hL := by
    show exec A T s.code m s.next = _
    rw [exec_other A T s.code m fun c' hc' => Nat.ne_of_lt (hi.outLt c' hc')]
    exact hL (c, s.next) (by simp [CState.addNum])

theorem setLoc_holds {s : CState C} {i l0 : ℕ} (hiP : i ∉ P) {l : ℕ} {v : V}
    (h : Holds A N I P s l v) : Holds A N I P (s.setLoc i l0) l v where
  lt := h.lt
  sep p hp := by
    have : p ≠ i := fun e => hiP (e ▸ hp)
    simp only [CState.setLoc, if_neg this]
    exact h.sep p hp
  avail := h.avail
  val := h.val

theorem setLoc_ext {s : CState C} {i l0 : ℕ} (hiP : i ∉ P) (hn : s.loc i = none) :
    Ext A N I P s (s.setLoc i l0) where
  holds _ _ h := setLoc_holds hiP h
  loc j hj := by
    have : j ≠ i := fun e => hj (e ▸ hn)
    simp [CState.setLoc, this]

theorem setLoc_inv {s : CState C} (hi : Inv G A x N I P s) {i l0 : ℕ} (hiP : i ∉ P)
    (h : Holds A N I P s l0 (value G A x i)) : Inv G A x N I P (s.setLoc i l0) where
  outLt := hi.outLt
  numLt := hi.numLt
  inLe := hi.inLe
  reads := hi.reads
  ints := hi.ints
  pend p hp := by
    have : p ≠ i := fun e => hiP (e ▸ hp)
    simpa [CState.setLoc, this] using hi.pend p hp
  inj p hp q hq := by
    have h1 : p ≠ i := fun e => hiP (e ▸ hp)
    have h2 : q ≠ i := fun e => hiP (e ▸ hq)
    simpa [CState.setLoc, h1, h2] using hi.inj p hp q hq
  done j l hl hj := by
    apply setLoc_holds hiP
    by_cases e : j = i
    · subst e
      have : l0 = l := by simpa [CState.setLoc] using hl
      exact this ▸ h
    · exact hi.done j l (by simpa [CState.setLoc, e] using hl) hj

theorem intIndex_spec {s : CState C} (hi : Inv G A x N I P s) (k : ℤ) :
    Inv G A x N I P (s.intIndex k).2 ∧ Ext A N I P s (s.intIndex k).2 ∧
      (s.intIndex k).2.ints[(s.intIndex k).1]? = some k ∧ (s.intIndex k).2.loc = s.loc := by
  unfold CState.intIndex
  split
  · rename_i l hl
    exact ⟨hi, Ext.refl s, hi.ints k l hl, rfl⟩
  · rename_i hl
    have hext : Ext A N I P s { s with
        intLoc := fun z => if z = k then some s.ints.length else s.intLoc z,
        ints := s.ints ++ [k] } :=
      ⟨fun l v h => ⟨h.lt, h.sep, h.avail, fun T m hT hI hL =>
        h.val T m ((List.prefix_append _ _).trans hT) hI hL⟩, fun _ _ => rfl⟩
    refine ⟨⟨hi.outLt, hi.numLt, hi.inLe, hi.reads.mono (fun _ h => h) (by simp), ?_, hi.pend, hi.inj, fun j l hl' hj =>
      hext.holds l _ (hi.done j l hl' hj)⟩, hext, by simp, rfl⟩
    intro z l hz
    simp only at hz
    split_ifs at hz with e
    · simp only [Option.some.injEq] at hz
      subst hz e
      simp
    · have := hi.ints z l hz
      rw [List.getElem?_append_left (List.getElem?_eq_some_iff.1 this).1, this]

/-- Correctness of the operand-combining loop. -/
theorem chain_spec (opT opF : BinOp) (r : List (Bool × ℕ)) (vs : List (Bool × V)) :
    ∀ (prev : ℕ) (v : V) (s : CState C), Inv G A x N I P s → Holds A N I P s prev v →
      List.Forall₂ (fun a b => a.1 = b.1 ∧ Holds A N I P s a.2 b.2) r vs →
      Inv G A x N I P (chain opT opF prev r s).2 ∧ Ext A N I P s (chain opT opF prev r s).2 ∧
      (chain opT opF prev r s).2.loc = s.loc ∧
      Holds A N I P (chain opT opF prev r s).2 (chain opT opF prev r s).1
        (vs.foldl (fun acc p => A.bin (if p.1 then opT else opF) acc p.2) v) := by
  induction r generalizing vs with
  | nil =>
    intro prev v s hi hv hf
    cases hf
    exact ⟨hi, Ext.refl s, rfl, hv⟩
  | cons a r ih =>
    intro prev v s hi hv hf
    cases hf with
    | cons hab hr =>
    rename_i b vs
    obtain ⟨ab, al⟩ := a
    obtain ⟨bb, bv⟩ := b
    obtain ⟨e, hb⟩ := hab
    simp only at e hb
    subst e
    have hext : Ext A N I P s
        (s.emit (.bin (if ab then opT else opF) prev al s.next)).bump := emit_ext _ rfl
    have h := ih vs s.next _ _ (emit_inv hi _ rfl
      (by simp [Instr.reads, hv.avail, hb.avail]) (by simp)) (emit_bin hi (if ab then opT else opF) hv hb)
      (hr.imp fun _ _ hab => ⟨hab.1, hext.holds _ _ hab.2⟩)
    simp only [chain, List.foldl_cons]
    exact ⟨h.1, hext.trans h.2.1, h.2.2.1, h.2.2.2⟩

theorem sumCode_spec (r : List (Bool × ℕ)) (vs : List (Bool × V)) (s s' : CState C) (l : ℕ)
    (hi : Inv G A x N I P s)
    (hf : List.Forall₂ (fun a b => a.1 = b.1 ∧ Holds A N I P s a.2 b.2) r vs)
    (h : sumCode r s = some (l, s')) :
    Inv G A x N I P s' ∧ Ext A N I P s s' ∧ s'.loc = s.loc ∧ Holds A N I P s' l (sumMp A vs) := by
  cases hf with
  | nil => simp [sumCode] at h
  | cons hab hr =>
  rename_i a b r vs
  obtain ⟨ab, al⟩ := a
  obtain ⟨bb, bv⟩ := b
  obtain ⟨e, hb⟩ := hab
  simp only at e hb
  subst e
  cases ab with
  | true =>
    have hc := chain_spec .add .sub r vs al bv s hi hb hr
    simp only [sumCode, Option.some.injEq] at h
    rw [h] at hc
    simpa [sumMp] using hc
  | false =>
    have hext : Ext A N I P s (s.emit (.un .neg al s.next)).bump := emit_ext _ rfl
    have hc := chain_spec .add .sub r vs s.next _ _ (emit_inv hi _ rfl
      (by simp [Instr.reads, hb.avail]) (by simp)) (emit_un hi .neg hb)
      (hr.imp fun _ _ hab => ⟨hab.1, hext.holds _ _ hab.2⟩)
    simp only [sumCode, Option.some.injEq] at h
    rw [h] at hc
    exact ⟨hc.1, hext.trans hc.2.1, hc.2.2.1, by simpa [sumMp] using hc.2.2.2⟩

theorem multCode_spec (r : List (Bool × ℕ)) (vs : List (Bool × V)) (s s' : CState C) (l : ℕ)
    (hi : Inv G A x N I P s)
    (hf : List.Forall₂ (fun a b => a.1 = b.1 ∧ Holds A N I P s a.2 b.2) r vs)
    (h : multCode r s = some (l, s')) :
    Inv G A x N I P s' ∧ Ext A N I P s s' ∧ s'.loc = s.loc ∧ Holds A N I P s' l (multMp A vs) := by
  cases hf with
  | nil => simp [multCode] at h
  | cons hab hr =>
  rename_i a b r vs
  obtain ⟨ab, al⟩ := a
  obtain ⟨bb, bv⟩ := b
  obtain ⟨e, hb⟩ := hab
  simp only at e hb
  subst e
  cases ab with
  | true =>
    have hc := chain_spec .mul .div r vs al bv s hi hb hr
    simp only [multCode, Option.some.injEq] at h
    rw [h] at hc
    simpa [multMp] using hc
  | false =>
    have h0 : Ext A N I P s (s.addNum 1) := addNum_ext 1
    have hi0 := addNum_inv hi 1
    have hext : Ext A N I P (s.addNum 1)
        ((s.addNum 1).emit (.bin .div s.next al (s.addNum 1).next)).bump := emit_ext _ rfl
    have hc := chain_spec .mul .div r vs (s.addNum 1).next _ _ (emit_inv hi0 _ rfl
      (by simp [Instr.reads, (addNum_holds hi 1).avail, (h0.holds _ _ hb).avail]) (by simp))
      (emit_bin hi0 .div (addNum_holds hi 1) (h0.holds _ _ hb))
      (hr.imp fun _ _ hab => ⟨hab.1, hext.holds _ _ (h0.holds _ _ hab.2)⟩)
    simp only [multCode, Option.some.injEq] at h
    rw [h] at hc
    exact ⟨hc.1, h0.trans (hext.trans hc.2.1), hc.2.2.1, by simpa [multMp] using hc.2.2.2⟩

/-! ### Visiting -/

/-- What visiting an interior node guarantees. -/
def VisitOK (G : Graph C) (A : Arith C V) (x : ℕ → V) (N : ℕ) (I : Mem V → Prop)
    (P : List ℕ)
    (i : ℕ) : Prop :=
  ∀ s s' : CState C, Inv G A x N I P s → (∀ j, Below G i j → j ∉ P) →
    (∀ j, Below G i j → G.cell j = .var → s.loc j ≠ none) → s.loc i = none →
    visit G i s = some s' →
    Inv G A x N I P s' ∧ Ext A N I P s s' ∧ s'.loc i ≠ none

theorem ensure_spec {j : ℕ} (hok : VisitOK G A x N I P j) (s s' : CState C)
    (hi : Inv G A x N I P s) (hP : ∀ k, Below G j k → k ∉ P)
    (hv : ∀ k, Below G j k → G.cell k = .var → s.loc k ≠ none)
    (h : ensure (visit G) j s = some s') :
    Inv G A x N I P s' ∧ Ext A N I P s s' ∧ ∃ l, s'.loc j = some l := by
  unfold ensure at h
  split at h
  · rename_i l hl
    simp only [Option.some.injEq] at h
    subst h
    exact ⟨hi, Ext.refl s, l, hl⟩
  · rename_i hl
    obtain ⟨h1, h2, h3⟩ := hok s s' hi hP hv hl h
    exact ⟨h1, h2, Option.ne_none_iff_exists'.1 h3⟩

theorem getLoc_some {s : CState C} {j l : ℕ} (h : s.loc j = some l) : s.getLoc j = (l, s) := by
  simp [CState.getLoc, h]

theorem gather_spec (js : List ℕ) (hok : ∀ j ∈ js, VisitOK G A x N I P j) :
    ∀ (s : CState C) (r : List ℕ × CState C), Inv G A x N I P s →
      (∀ j ∈ js, ∀ k, Below G j k → k ∉ P) →
      (∀ j ∈ js, ∀ k, Below G j k → G.cell k = .var → s.loc k ≠ none) →
      gather (visit G) js s = some r →
      Inv G A x N I P r.2 ∧ Ext A N I P s r.2 ∧
      List.Forall₂ (fun j l => r.2.loc j = some l) js r.1 := by
  induction js with
  | nil =>
    intro s r hi _ _ h
    simp only [gather, Option.some.injEq] at h
    subst h
    exact ⟨hi, Ext.refl s, .nil⟩
  | cons j js ih =>
    intro s r hi hP hv h
    simp only [gather, Option.bind_eq_bind, Option.bind_eq_some_iff, Option.some.injEq] at h
    obtain ⟨s1, h1, q, h2, rfl⟩ := h
    obtain ⟨hi1, he1, l, hl⟩ := ensure_spec (hok j (by simp)) s s1 hi (hP j (by simp))
      (hv j (by simp)) h1
    rw [getLoc_some hl] at h2 ⊢
    have hv' : ∀ j' ∈ js, ∀ k, Below G j' k → G.cell k = .var → s1.loc k ≠ none := by
      intro j' hj' k hk hc
      have := hv j' (by simp [hj']) k hk hc
      rw [he1.loc k this]; exact this
    obtain ⟨hi2, he2, hf⟩ := ih (fun j' hj' => hok j' (by simp [hj'])) s1 q hi1
      (fun j' hj' => hP j' (by simp [hj'])) hv' h2
    refine ⟨hi2, he1.trans he2, .cons ?_ hf⟩
    rw [he2.loc j (by rw [hl]; simp), hl]

theorem forall2_zip {s : CState C} (hi : Inv G A x N I P s) (ops : List (Bool × ℕ)) :
    ∀ (ls : List ℕ), (∀ o ∈ ops, o.2 ∉ P) →
    List.Forall₂ (fun j l => s.loc j = some l) (ops.map Prod.snd) ls →
    List.Forall₂ (fun a b => a.1 = b.1 ∧ Holds A N I P s a.2 b.2)
      ((ops.map Prod.fst).zip ls) (ops.map fun o => (o.1, value G A x o.2)) := by
  induction ops with
  | nil => intro ls _ h; cases h; exact .nil
  | cons o ops ih =>
    intro ls hP h
    cases h with
    | cons h1 h2 =>
      simp only [List.map_cons, List.zip_cons_cons]
      exact .cons ⟨rfl, hi.done _ _ h1 (hP o (by simp))⟩
        (ih _ (fun o' ho' => hP o' (by simp [ho'])) h2)

/-- A node created by visiting keeps absent entries absent except its own operands... only the
entry of `i` matters: visiting operands of `i` never records `i` itself. -/
def NoSelf (G : Graph C) (i : ℕ) : Prop :=
  ∀ s s' : CState C, visit G i s = some s' → ∀ k, i < k → s'.loc k = s.loc k

theorem ensure_above {j : ℕ} (hok : NoSelf G j) {s s' : CState C}
    (h : ensure (visit G) j s = some s') : ∀ k, j < k → s'.loc k = s.loc k := by
  unfold ensure at h
  split at h
  · simp only [Option.some.injEq] at h; subst h; intros; rfl
  · exact hok s s' h

theorem getLoc_above (s : CState C) (j : ℕ) : ∀ k, j < k → (s.getLoc j).2.loc k = s.loc k := by
  intro k hk
  unfold CState.getLoc
  split
  · rfl
  · simp [CState.setLoc, Nat.ne_of_gt hk]

theorem gather_above (js : List ℕ) (i : ℕ) (hlt : ∀ j ∈ js, j < i)
    (hok : ∀ j ∈ js, NoSelf G j) :
    ∀ (s : CState C) r, gather (visit G) js s = some r → ∀ k, i ≤ k → r.2.loc k = s.loc k := by
  induction js with
  | nil =>
    intro s r h k _
    simp only [gather, Option.some.injEq] at h
    subst h; rfl
  | cons j js ih =>
    intro s r h k hk
    simp only [gather, Option.bind_eq_bind, Option.bind_eq_some_iff, Option.some.injEq] at h
    obtain ⟨s1, h1, q, h2, rfl⟩ := h
    have hj := hlt j (by simp)
    rw [ih (fun j' hj' => hlt j' (by simp [hj'])) (fun j' hj' => hok j' (by simp [hj'])) _ _ h2 k hk,
      getLoc_above _ _ _ (by omega), ensure_above (hok j (by simp)) h1 _ (by omega)]

theorem chain_loc (opT opF : BinOp) (r : List (Bool × ℕ)) :
    ∀ prev (s : CState C), (chain opT opF prev r s).2.loc = s.loc := by
  induction r with
  | nil => intros; rfl
  | cons a r ih => intro prev s; simp only [chain]; rw [ih]; rfl

theorem sumCode_loc {r : List (Bool × ℕ)} {s : CState C} {q} (h : sumCode r s = some q) :
    q.2.loc = s.loc := by
  match r, h with
  | (true, l) :: r, h => simp only [sumCode, Option.some.injEq] at h; subst h; exact chain_loc ..
  | (false, l) :: r, h =>
    simp only [sumCode, Option.some.injEq] at h; subst h; rw [chain_loc]; rfl

theorem multCode_loc {r : List (Bool × ℕ)} {s : CState C} {q} (h : multCode r s = some q) :
    q.2.loc = s.loc := by
  match r, h with
  | (true, l) :: r, h => simp only [multCode, Option.some.injEq] at h; subst h; exact chain_loc ..
  | (false, l) :: r, h =>
    simp only [multCode, Option.some.injEq] at h; subst h; rw [chain_loc]; rfl

theorem intIndex_loc (s : CState C) (k : ℤ) : (s.intIndex k).2.loc = s.loc := by
  unfold CState.intIndex; split <;> rfl

theorem noSelf (G : Graph C) (i : ℕ) : NoSelf G i := by
  induction i using Nat.strong_induction_on with
  | _ i ih =>
  intro s s' h k hk
  have hop : ∀ j ∈ (G.cell i).operands, j < i := G.acyclic i
  rw [visit_eq] at h
  unfold visitWith at h
  cases hc : G.cell i with
  | var => simp only [hc, Option.some.injEq] at h; subst h; rfl
  | num c =>
    simp only [hc, Option.some.injEq] at h; subst h
    simp [CState.setLoc, CState.addNum, Nat.ne_of_gt hk]
  | other _ => simp [hc] at h
  | fn n =>
    have hn : n < i := hop n (by simp [hc, Cell.operands])
    simp only [hc, Option.bind_eq_bind, Option.bind_eq_some_iff, Option.some.injEq] at h
    obtain ⟨s1, h1, rfl⟩ := h
    have e1 := ensure_above (ih n hn) h1 k (by omega)
    have e2 := getLoc_above s1 n k (by omega)
    simp only [CState.emit]
    split <;> simp [CState.setLoc, CState.bump, Nat.ne_of_gt hk, e1, e2]
  | un f n =>
    have hn : n < i := hop n (by simp [hc, Cell.operands])
    simp only [hc, Option.bind_eq_bind, Option.bind_eq_some_iff, Option.some.injEq] at h
    obtain ⟨s1, h1, rfl⟩ := h
    simp [CState.emit, CState.setLoc, CState.bump, Nat.ne_of_gt hk, getLoc_above s1 n k (by omega),
      ensure_above (ih n hn) h1 k (by omega)]
  | ipow n z =>
    have hn : n < i := hop n (by simp [hc, Cell.operands])
    simp only [hc, Option.bind_eq_bind, Option.bind_eq_some_iff, Option.some.injEq] at h
    obtain ⟨s1, h1, rfl⟩ := h
    simp [CState.emit, CState.setLoc, CState.bump, Nat.ne_of_gt hk, intIndex_loc,
      getLoc_above s1 n k (by omega), ensure_above (ih n hn) h1 k (by omega)]
  | pow b e =>
    have hb : b < i := hop b (by simp [hc, Cell.operands])
    have he : e < i := hop e (by simp [hc, Cell.operands])
    simp only [hc, Option.bind_eq_bind, Option.bind_eq_some_iff, Option.some.injEq] at h
    obtain ⟨s1, h1, s2, h2, rfl⟩ := h
    simp [CState.emit, CState.setLoc, CState.bump, Nat.ne_of_gt hk,
      getLoc_above _ e k (by omega), getLoc_above s2 b k (by omega),
      ensure_above (ih e he) h2 k (by omega), ensure_above (ih b hb) h1 k (by omega)]
  | sum ops =>
    simp only [hc, Option.bind_eq_bind, Option.bind_eq_some_iff, Option.some.injEq] at h
    obtain ⟨p, h1, q, h2, rfl⟩ := h
    have := gather_above (ops.map Prod.snd) i (fun j hj => hop j (by rw [hc]; exact hj))
      (fun j hj => ih j (hop j (by rw [hc]; exact hj))) s p h1 k (by omega)
    simp [CState.setLoc, Nat.ne_of_gt hk, sumCode_loc h2, this]
  | mult ops =>
    simp only [hc, Option.bind_eq_bind, Option.bind_eq_some_iff, Option.some.injEq] at h
    obtain ⟨p, h1, q, h2, rfl⟩ := h
    have := gather_above (ops.map Prod.snd) i (fun j hj => hop j (by rw [hc]; exact hj))
      (fun j hj => ih j (hop j (by rw [hc]; exact hj))) s p h1 k (by omega)
    simp [CState.setLoc, Nat.ne_of_gt hk, multCode_loc h2, this]

/-- A node emitting one instruction into the fresh location. -/
theorem finish_one {s : CState C} (hi : Inv G A x N I P s) {i : ℕ} (hiP : i ∉ P)
    (hn : s.loc i = none) (c : Instr) (hc : c.out = s.next)
    (hr : ∀ l ∈ c.reads, Avail N s.nums s.code l)
    (hk : ∀ a k o, c = .ipow a k o → k < s.ints.length)
    (hv : Holds A N I P (s.emit c).bump s.next (value G A x i)) :
    Inv G A x N I P ((s.setLoc i s.next).emit c).bump ∧
    Ext A N I P s ((s.setLoc i s.next).emit c).bump ∧
    ((s.setLoc i s.next).emit c).bump.loc i ≠ none := by
  have e : ((s.setLoc i s.next).emit c).bump = ((s.emit c).bump).setLoc i s.next := rfl
  rw [e]
  exact ⟨setLoc_inv (emit_inv hi c hc hr hk) hiP hv,
    (emit_ext c hc).trans (setLoc_ext hiP hn), by simp [CState.setLoc]⟩

theorem visit_ok (G : Graph C) (A : Arith C V) (x : ℕ → V) (N : ℕ) (I : Mem V → Prop)
    (P : List ℕ)
    (i : ℕ) : VisitOK G A x N I P i := by
  induction i using Nat.strong_induction_on with
  | _ i ih =>
  intro s s' hi hP hv hn h
  have hop : ∀ j ∈ (G.cell i).operands, j < i := G.acyclic i
  have hiP : i ∉ P := hP i (.refl i)
  rw [visit_eq] at h
  unfold visitWith at h
  have hval := value_eq G A x i
  unfold valueWith at hval
  cases hc : G.cell i with
  | var => exact absurd hn (hv i (.refl i) hc)
  | num c =>
    simp only [hc, Option.some.injEq] at h hval
    subst h
    refine ⟨setLoc_inv (addNum_inv hi c) hiP ((addNum_holds hi c).congr hval.symm),
      (addNum_ext c).trans (setLoc_ext hiP hn), by simp [CState.setLoc]⟩
  | other _ => simp [hc] at h
  | fn n =>
    have hm : n ∈ (G.cell i).operands := by simp [hc, Cell.operands]
    simp only [hc, Option.bind_eq_bind, Option.bind_eq_some_iff, Option.some.injEq] at h hval
    obtain ⟨s1, h1, h2⟩ := h
    obtain ⟨hi1, he1, l, hl⟩ := ensure_spec (ih n (hop n hm)) s s1 hi
      (fun k hk => hP k (.step hm hk)) (fun k hk => hv k (.step hm hk)) h1
    have hn1 : s1.loc i = none := by
      rw [ensure_above (noSelf G n) h1 i (hop n hm)]; exact hn
    rw [getLoc_some hl] at h2
    simp only [hn1] at h2
    subst h2
    have hH := (hi1.done n l hl (hP n (.step hm (.refl n)))).congr hval.symm
    obtain ⟨a, b, c⟩ := finish_one hi1 hiP hn1 (.assign l s1.next) rfl
      (by simp [Instr.reads, hH.avail]) (by simp) (emit_assign hi1 hH)
    exact ⟨a, he1.trans b, c⟩
  | un f n =>
    have hm : n ∈ (G.cell i).operands := by simp [hc, Cell.operands]
    simp only [hc, Option.bind_eq_bind, Option.bind_eq_some_iff, Option.some.injEq] at h hval
    obtain ⟨s1, h1, h2⟩ := h
    obtain ⟨hi1, he1, l, hl⟩ := ensure_spec (ih n (hop n hm)) s s1 hi
      (fun k hk => hP k (.step hm hk)) (fun k hk => hv k (.step hm hk)) h1
    have hn1 : s1.loc i = none := by
      rw [ensure_above (noSelf G n) h1 i (hop n hm)]; exact hn
    rw [getLoc_some hl] at h2
    subst h2
    have hH := hi1.done n l hl (hP n (.step hm (.refl n)))
    obtain ⟨a, b, c⟩ := finish_one hi1 hiP hn1 (.un f l s1.next) rfl
      (by simp [Instr.reads, hH.avail]) (by simp)
      ((emit_un hi1 f hH).congr hval.symm)
    exact ⟨a, he1.trans b, c⟩
  | ipow n z =>
    have hm : n ∈ (G.cell i).operands := by simp [hc, Cell.operands]
    simp only [hc, Option.bind_eq_bind, Option.bind_eq_some_iff, Option.some.injEq] at h hval
    obtain ⟨s1, h1, h2⟩ := h
    obtain ⟨hi1, he1, l, hl⟩ := ensure_spec (ih n (hop n hm)) s s1 hi
      (fun k hk => hP k (.step hm hk)) (fun k hk => hv k (.step hm hk)) h1
    have hn1 : s1.loc i = none := by
      rw [ensure_above (noSelf G n) h1 i (hop n hm)]; exact hn
    rw [getLoc_some hl] at h2
    simp only at h2
    obtain ⟨hi2, he2, hz, hl2⟩ := intIndex_spec hi1 z
    subst h2
    have hH := he2.holds _ _ (hi1.done n l hl (hP n (.step hm (.refl n))))
    obtain ⟨a, b, c⟩ := finish_one hi2 hiP (by rw [hl2]; exact hn1)
      (.ipow l (s1.intIndex z).1 (s1.intIndex z).2.next) rfl
      (by simp [Instr.reads, hH.avail])
      (by rintro a k o ⟨⟩; exact (List.getElem?_eq_some_iff.1 hz).1)
      ((emit_ipow hi2 hH hz).congr hval.symm)
    exact ⟨a, he1.trans (he2.trans b), c⟩
  | pow b e =>
    have hb : b ∈ (G.cell i).operands := by simp [hc, Cell.operands]
    have he : e ∈ (G.cell i).operands := by simp [hc, Cell.operands]
    simp only [hc, Option.bind_eq_bind, Option.bind_eq_some_iff, Option.some.injEq] at h hval
    obtain ⟨s1, h1, s2, h2, h3⟩ := h
    obtain ⟨hi1, he1, l, hl⟩ := ensure_spec (ih b (hop b hb)) s s1 hi
      (fun k hk => hP k (.step hb hk)) (fun k hk => hv k (.step hb hk)) h1
    have hv1 : ∀ k, Below G e k → G.cell k = .var → s1.loc k ≠ none := by
      intro k hk hck
      have := hv k (.step he hk) hck
      rw [he1.loc k this]; exact this
    obtain ⟨hi2, he2, l', hl'⟩ := ensure_spec (ih e (hop e he)) s1 s2 hi1
      (fun k hk => hP k (.step he hk)) hv1 h2
    have hn2 : s2.loc i = none := by
      rw [ensure_above (noSelf G e) h2 i (hop e he), ensure_above (noSelf G b) h1 i (hop b hb)]
      exact hn
    have hlb : s2.loc b = some l := by rw [he2.loc b (by rw [hl]; simp), hl]
    rw [getLoc_some hlb] at h3
    simp only [getLoc_some hl'] at h3
    subst h3
    have hH := hi2.done b l hlb (hP b (.step hb (.refl b)))
    have hH' := hi2.done e l' hl' (hP e (.step he (.refl e)))
    obtain ⟨a, b, c⟩ := finish_one hi2 hiP hn2 (.bin .pow l l' s2.next) rfl
      (by simp [Instr.reads, hH.avail, hH'.avail]) (by simp)
      ((emit_bin hi2 .pow hH hH').congr hval.symm)
    exact ⟨a, he1.trans (he2.trans b), c⟩
  | sum ops =>
    have hm : ∀ j ∈ ops.map Prod.snd, j ∈ (G.cell i).operands := by
      intro j hj; rw [hc]; exact hj
    simp only [hc, Option.bind_eq_bind, Option.bind_eq_some_iff, Option.some.injEq] at h hval
    obtain ⟨p, h1, q, h2, rfl⟩ := h
    obtain ⟨hi1, he1, hf⟩ := gather_spec (ops.map Prod.snd)
      (fun j hj => ih j (hop j (hm j hj))) s p hi
      (fun j hj k hk => hP k (.step (hm j hj) hk))
      (fun j hj k hk => hv k (.step (hm j hj) hk)) h1
    have hn1 : p.2.loc i = none := by
      rw [gather_above (ops.map Prod.snd) i (fun j hj => hop j (hm j hj))
        (fun j _ => noSelf G j) s p h1 i le_rfl]
      exact hn
    obtain ⟨hi2, he2, hl2, hH⟩ := sumCode_spec _ _ p.2 q.2 q.1 hi1
      (forall2_zip hi1 ops p.1 (fun o ho => hP o.2
        (.step (hm o.2 (List.mem_map_of_mem ho)) (.refl _))) hf) h2
    exact ⟨setLoc_inv hi2 hiP (hH.congr hval.symm),
      he1.trans (he2.trans (setLoc_ext hiP (by rw [hl2]; exact hn1))), by simp [CState.setLoc]⟩
  | mult ops =>
    have hm : ∀ j ∈ ops.map Prod.snd, j ∈ (G.cell i).operands := by
      intro j hj; rw [hc]; exact hj
    simp only [hc, Option.bind_eq_bind, Option.bind_eq_some_iff, Option.some.injEq] at h hval
    obtain ⟨p, h1, q, h2, rfl⟩ := h
    obtain ⟨hi1, he1, hf⟩ := gather_spec (ops.map Prod.snd)
      (fun j hj => ih j (hop j (hm j hj))) s p hi
      (fun j hj k hk => hP k (.step (hm j hj) hk))
      (fun j hj k hk => hv k (.step (hm j hj) hk)) h1
    have hn1 : p.2.loc i = none := by
      rw [gather_above (ops.map Prod.snd) i (fun j hj => hop j (hm j hj))
        (fun j _ => noSelf G j) s p h1 i le_rfl]
      exact hn
    obtain ⟨hi2, he2, hl2, hH⟩ := multCode_spec _ _ p.2 q.2 q.1 hi1
      (forall2_zip hi1 ops p.1 (fun o ho => hP o.2
        (.step (hm o.2 (List.mem_map_of_mem ho)) (.refl _))) hf) h2
    exact ⟨setLoc_inv hi2 hiP (hH.congr hval.symm),
      he1.trans (he2.trans (setLoc_ext hiP (by rw [hl2]; exact hn1))), by simp [CState.setLoc]⟩

/-! ### Top-level functions -/

/-- Visiting the next pending top-level function. -/
theorem visit_top {f n : ℕ} {rest : List ℕ} (hnd : f ∉ rest) (hf : G.cell f = .fn n)
    (s s' : CState C) (hi : Inv G A x N I (f :: rest) s)
    (hP : ∀ j, Below G n j → j ∉ f :: rest)
    (hv : ∀ j, Below G n j → G.cell j = .var → s.loc j ≠ none)
    (h : visit G f s = some s') :
    Inv G A x N I rest s' ∧ ∀ j, s.loc j ≠ none → s'.loc j = s.loc j := by
  have hval := value_eq G A x f
  unfold valueWith at hval
  rw [visit_eq] at h
  unfold visitWith at h
  simp only [hf, Option.bind_eq_bind, Option.bind_eq_some_iff, Option.some.injEq] at h hval
  obtain ⟨s1, h1, h2⟩ := h
  obtain ⟨hi1, he1, l, hl⟩ := ensure_spec (visit_ok G A x N I (f :: rest) n) s s1 hi hP hv h1
  obtain ⟨lf, hlf, hlt⟩ := hi1.pend f (by simp)
  rw [getLoc_some hl] at h2
  simp only [hlf] at h2
  subst h2
  have hH := hi1.done n l hl (hP n (.refl n))
  have hkeep : ∀ j l', s1.loc j = some l' → j ∉ f :: rest →
      Holds A N I rest (s1.emit (.assign l lf)) l' (value G A x j) := by
    intro j l' hj hjP
    have hd := hi1.done j l' hj hjP
    refine ⟨hd.lt, fun p hp => hd.sep p (by simp [hp]),
      hd.avail.mono (fun _ h => h) (fun _ h => by simp [CState.emit, h]),
      fun T m hT hI hL => ?_⟩
    simp only [CState.emit, exec_append]
    rw [exec, List.foldl_cons, List.foldl_nil, Instr.exec_other]
    · exact hd.val T m hT hI hL
    · simp only [Instr.out]
      rintro rfl
      exact hd.sep f (by simp) hlf
  refine ⟨⟨?_, hi1.numLt, hi1.inLe,
    hi1.reads.snoc _ (by simp [Instr.reads, hH.avail]) (by simp), hi1.ints, fun p hp => hi1.pend p (by simp [hp]),
    fun p hp q hq => hi1.inj p (by simp [hp]) q (by simp [hq]), ?_⟩, he1.loc⟩
  · intro c hc
    simp only [CState.emit, List.mem_append, List.mem_singleton] at hc
    rcases hc with hc | rfl
    · exact hi1.outLt c hc
    · exact hlt
  · intro j l' hj hjr
    by_cases e : j = f
    · subst e
      have : lf = l' := by
        have := hlf.symm.trans hj
        simpa using this
      subst this
      refine ⟨hlt, fun p hp hpl => ?_, .inr (.inr ⟨.assign l lf, by simp [CState.emit], rfl⟩), fun T m hT hI hL => ?_⟩
      · have := hi1.inj p (by simp [hp]) j (by simp) (hpl.trans hj.symm)
        exact hnd (this ▸ hp)
      · simp only [CState.emit, exec_append]
        simp [exec, Instr.exec, Mem.set]
        have := hH.val T m hT hI hL
        rw [exec] at this
        rw [this, hval]
    · exact hkeep j l' hj (by simp [e, hjr])

/-- Visiting all pending top-level functions in order. -/
theorem visitAll_spec (tops : List ℕ) : ∀ (rest : List ℕ) (s s' : CState C),
    (tops ++ rest).Nodup → (∀ f ∈ tops, ∃ n, G.cell f = .fn n) →
    (∀ pre f post n, tops = pre ++ f :: post → G.cell f = .fn n →
      ∀ j, Below G n j → j ∉ f :: (post ++ rest)) →
    (∀ f ∈ tops, ∀ j, Below G f j → G.cell j = .var → s.loc j ≠ none) →
    Inv G A x N I (tops ++ rest) s → visitAll G tops s = some s' →
    Inv G A x N I rest s' ∧ ∀ j, s.loc j ≠ none → s'.loc j = s.loc j := by
  induction tops with
  | nil =>
    intro rest s s' _ _ _ _ hi h
    simp only [visitAll, List.foldlM_nil, Option.pure_def, Option.some.injEq] at h
    subst h
    exact ⟨hi, fun _ _ => rfl⟩
  | cons f tops ih =>
    intro rest s s' hnd hfn hord hv hi h
    simp only [visitAll, List.foldlM_cons, Option.bind_eq_bind, Option.bind_eq_some_iff] at h
    obtain ⟨s1, h1, h2⟩ := h
    obtain ⟨n, hn⟩ := hfn f (by simp)
    have hmem : n ∈ (G.cell f).operands := by simp [hn, Cell.operands]
    have hnd' : f ∉ tops ++ rest ∧ (tops ++ rest).Nodup := by
      rw [List.cons_append, List.nodup_cons] at hnd; exact hnd
    obtain ⟨hi1, hl1⟩ := visit_top hnd'.1 hn s s1 hi (hord [] f tops n rfl hn)
      (fun j hj => hv f (by simp) j (.step hmem hj)) h1
    obtain ⟨hi2, hl2⟩ := ih rest s1 s' hnd'.2 (fun g hg => hfn g (by simp [hg]))
      (fun pre g post m hg => hord (f :: pre) g post m (by simp [hg]))
      (fun g hg j hj hc => by
        have := hv g (by simp [hg]) j hj hc
        rw [hl1 j this]; exact this) hi1 h2
    exact ⟨hi2, fun j hj => by rw [hl2 j (by rw [hl1 j hj]; exact hj), hl1 j hj]⟩

/-! ### Reserving -/

theorem reserve_cons (s : CState C) (n : ℕ) (ns : List ℕ) :
    s.reserve (n :: ns) = ((s.setLoc n s.next).bump).reserve ns := rfl

theorem reserve_append (s : CState C) (a b : List ℕ) :
    s.reserve (a ++ b) = (s.reserve a).reserve b := by
  simp [CState.reserve]

theorem reserve_fields (s : CState C) (ns : List ℕ) :
    (s.reserve ns).next = s.next + ns.length ∧ (s.reserve ns).code = s.code ∧
    (s.reserve ns).nums = s.nums ∧ (s.reserve ns).ints = s.ints ∧
    (s.reserve ns).intLoc = s.intLoc := by
  induction ns generalizing s with
  | nil => simp [CState.reserve]
  | cons n ns ih =>
    rw [reserve_cons]
    obtain ⟨h1, h2, h3, h4, h5⟩ := ih ((s.setLoc n s.next).bump)
    refine ⟨?_, h2, h3, h4, h5⟩
    rw [h1]
    simp [CState.setLoc, CState.bump]; omega

theorem reserve_loc_not_mem (s : CState C) (ns : List ℕ) {j : ℕ} (h : j ∉ ns) :
    (s.reserve ns).loc j = s.loc j := by
  induction ns generalizing s with
  | nil => rfl
  | cons n ns ih =>
    rw [reserve_cons, ih _ (fun hm => h (by simp [hm]))]
    have : j ≠ n := fun e => h (by simp [e])
    simp [CState.setLoc, CState.bump, this]

theorem reserve_loc_getElem (s : CState C) (ns : List ℕ) (hnd : ns.Nodup) (k : ℕ)
    (hk : k < ns.length) : (s.reserve ns).loc ns[k] = some (s.next + k) := by
  induction ns generalizing s k with
  | nil => simp at hk
  | cons n ns ih =>
    rw [List.nodup_cons] at hnd
    rw [reserve_cons]
    cases k with
    | zero =>
      simp only [List.getElem_cons_zero]
      rw [reserve_loc_not_mem _ _ hnd.1]
      simp [CState.setLoc, CState.bump]
    | succ k =>
      simp only [List.getElem_cons_succ]
      rw [ih _ hnd.2 k (by simpa using hk)]
      simp [CState.setLoc, CState.bump]; omega

end B2.SLP
