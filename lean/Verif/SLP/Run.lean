import Verif.SLP.Count
import Mathlib.Data.List.Range

/-! # The flat encoding, the whole of `Compile`, and success of compilation (lemmas) -/

namespace B2.SLP

set_option linter.unusedSectionVars false

variable {C V : Type} [One C]

theorem runFlat_encode (A : Arith C V) (T : List ℤ) (c : Instr) (rest : List ℕ) (m : Mem V) :
    runFlat A T (c.encode ++ rest) m = runFlat A T rest (c.exec A T m) := by
  cases c with
  | bin op a b o => cases op <;> simp [Instr.encode, BinOp.opcode, runFlat, flatEffect, isUnary,
      unaryMask, opAssign, Instr.exec]
  | un f a o => cases f <;> simp [Instr.encode, UnFn.opcode, runFlat, flatEffect, isUnary,
      unaryMask, opAssign, Instr.exec]
  | ipow a k o => simp [Instr.encode, opIntPower, runFlat, flatEffect, isUnary,
      unaryMask, opAssign, Instr.exec]
  | assign a o => simp [Instr.encode, runFlat, flatEffect, isUnary,
      unaryMask, opAssign, Instr.exec]

theorem runFlat_flat (A : Arith C V) (T : List ℤ) (code : List Instr) (m : Mem V) :
    runFlat A T (code.flatMap Instr.encode) m = some (exec A T code m) := by
  induction code generalizing m with
  | nil => simp [runFlat, exec]
  | cons c code ih => rw [List.flatMap_cons, runFlat_encode, ih]; rfl

/-- The inputs: variables in order, then the path variable. -/
def Sys.inputs (sys : Sys) : List ℕ := sys.vars ++ sys.path.toList

/-- The outputs: functions, space derivatives, time derivatives (if there is a path variable). -/
def Sys.tops (sys : Sys) : List ℕ :=
  sys.functions ++ sys.dx ++ (if sys.path.isSome then sys.dt else [])

theorem visitAll_append (G : Graph C) (a b : List ℕ) (s : CState C) :
    visitAll G (a ++ b) s = (visitAll G a s).bind (visitAll G b) := by
  simp [visitAll, List.foldlM_append, Option.bind_eq_bind]
  rfl

theorem compile_some {G : Graph C} {sys : Sys} {p : Prog C} (h : compile G sys = some p) :
    ∃ s : CState C, visitAll G sys.tops ((CState.init : CState C).reserve (sys.inputs ++ sys.tops))
        = some s ∧
      p.size = s.next ∧ p.ints = s.ints ∧ p.nums = s.nums ∧ p.instrs = s.code ∧
      p.numVars = sys.vars.length ∧ p.hasPath = sys.path.isSome ∧
      p.numFunctions = sys.functions.length ∧ p.varBase = 0 ∧
      (sys.path.isSome → p.timeLoc = sys.vars.length) ∧
      p.fnBase = sys.inputs.length ∧ p.jacBase = sys.inputs.length + sys.functions.length ∧
      (sys.path.isSome → p.dtBase = sys.inputs.length + sys.functions.length + sys.dx.length) := by
  have hn := fun (l : List ℕ) => (reserve_fields (CState.init : CState C) l).1
  have h0 : (CState.init : CState C).next = 0 := rfl
  simp only [h0, Nat.zero_add] at hn
  simp only [compile, Option.bind_eq_bind, Option.bind_eq_some_iff, Option.some.injEq] at h
  obtain ⟨s6, h6, s7, h7, s8, h8, rfl⟩ := h
  refine ⟨s8, ?_, rfl, rfl, rfl, rfl, rfl, rfl, rfl, rfl, ?_, ?_, ?_, ?_⟩
  · cases hp : sys.path with
    | none =>
      simp only [hp, Option.isSome_none, Bool.false_eq_true, if_false] at h6 h7 h8
      simp only [Sys.tops, Sys.inputs, hp, Option.isSome_none, Bool.false_eq_true, if_false,
        reserve_append, visitAll_append]
      simp only [CState.reserve, List.foldl_nil] at h6 ⊢
      rw [h6, Option.bind_some, h7, Option.bind_some, h8]
    | some t =>
      simp only [hp, Option.isSome_some, if_true] at h6 h7 h8
      simp only [Sys.tops, Sys.inputs, hp, Option.isSome_some, if_true, reserve_append,
        visitAll_append, h6, Option.bind_some, h7, h8]
  · intro hp; simp [hp, hn]
  · simp [Sys.inputs, ← reserve_append, hn]
  · simp [Sys.inputs, ← reserve_append, hn]; omega
  · intro hp; simp [Sys.inputs, hp, ← reserve_append, hn]; omega

/-! ### Setting inputs and numbers -/

theorem foldl_set_other {α : Type} (l : List α) (pos : α → ℕ) (val : α → V) (m : Mem V) {k : ℕ}
    (h : ∀ a ∈ l, pos a ≠ k) : l.foldl (fun m a => m.set (pos a) (val a)) m k = m k := by
  induction l generalizing m with
  | nil => rfl
  | cons a l ih =>
    rw [List.foldl_cons, ih _ (fun b hb => h b (by simp [hb]))]
    simp [Mem.set, (h a (by simp)).symm]

theorem foldl_set_mem {α : Type} (l : List α) (pos : α → ℕ) (val : α → V) (m : Mem V)
    (hnd : (l.map pos).Nodup) {a : α} (ha : a ∈ l) :
    l.foldl (fun m a => m.set (pos a) (val a)) m (pos a) = val a := by
  induction l generalizing m with
  | nil => simp at ha
  | cons b l ih =>
    rw [List.map_cons, List.nodup_cons] at hnd
    rw [List.foldl_cons]
    rcases List.mem_cons.1 ha with rfl | ha
    · rw [foldl_set_other]
      · simp [Mem.set]
      · intro c hc e
        exact hnd.1 (e ▸ List.mem_map_of_mem hc)
    · exact ih _ hnd.2 ha

/-- Load numbers, set the inputs and run: `CopyNumbersIntoMemory`, `SetVariableValues`,
`SetPathVariable`, `Eval`. `x` gives the value of each input node, `old` is whatever the memory
contained before. -/
def runOn (A : Arith C V) (p : Prog C) (sys : Sys) (x : ℕ → V) (old : Mem V) :
    Option (Mem V) := do
  let m0 := p.setVars (fun k => x (sys.vars.getD k 0)) (loadNums A p.nums old)
  let m1 ← match sys.path with
    | none => some m0
    | some t => p.setPath (x t) m0
  runFlat A p.ints p.flat m1

theorem runOn_spec {A : Arith C V} {p : Prog C} {sys : Sys} {x : ℕ → V} {old : Mem V}
    (h1 : p.numVars = sys.vars.length) (h2 : p.hasPath = sys.path.isSome) (h3 : p.varBase = 0)
    (h4 : sys.path.isSome → p.timeLoc = sys.vars.length)
    (hnum : ∀ q ∈ p.nums, sys.inputs.length ≤ q.2) (hnd : (p.nums.map Prod.snd).Nodup) :
    ∃ m0, runOn A p sys x old = some (exec A p.ints p.instrs m0) ∧
      (∀ k (hk : k < sys.inputs.length), m0 k = x sys.inputs[k]) ∧
      (∀ q ∈ p.nums, m0 q.2 = A.ofNum q.1) ∧
      (∀ l, sys.inputs.length ≤ l → (∀ q ∈ p.nums, q.2 ≠ l) → m0 l = old l) := by
  set m0 := p.setVars (fun k => x (sys.vars.getD k 0)) (loadNums A p.nums old) with hm0
  have hv : ∀ k (hk : k < sys.vars.length), m0 k = x sys.vars[k] := by
    intro k hk
    have := foldl_set_mem (List.range p.numVars) (fun k => k + p.varBase)
      (fun k => x (sys.vars.getD k 0)) (loadNums A p.nums old)
      (by simp only [h3, Nat.add_zero, List.map_id']; exact List.nodup_range)
      (a := k) (by simp [h1, hk])
    simp only [h3, Nat.add_zero] at this
    rw [hm0, Prog.setVars]
    simp only [h3, Nat.add_zero]
    rw [this, List.getD_eq_getElem _ _ hk]
  have hq : ∀ q ∈ p.nums, m0 q.2 = A.ofNum q.1 := by
    intro q hq
    rw [hm0, Prog.setVars, foldl_set_other]
    · exact foldl_set_mem p.nums Prod.snd (fun q => A.ofNum q.1) old hnd hq
    · intro k hk
      have := hnum q hq
      simp only [Sys.inputs, List.length_append, List.mem_range] at this hk
      omega
  have hold : ∀ l, sys.vars.length ≤ l → (∀ q ∈ p.nums, q.2 ≠ l) → m0 l = old l := by
    intro l hl hln
    rw [hm0, Prog.setVars, foldl_set_other, loadNums]
    · exact foldl_set_other p.nums Prod.snd (fun q => A.ofNum q.1) old hln
    · intro k hk
      simp only [List.mem_range] at hk
      omega
  cases hp : sys.path with
  | none =>
    refine ⟨m0, ?_, ?_, hq, fun l hl => hold l (by simp [Sys.inputs, hp] at hl; exact hl)⟩
    · simp only [runOn, hp, Option.bind_eq_bind, Option.bind_some, Prog.flat, runFlat_flat, hm0]
    · intro k hk
      simp only [Sys.inputs, hp, Option.toList_none, List.append_nil] at hk ⊢
      exact hv k hk
  | some t =>
    have ht := h4 (by simp [hp])
    refine ⟨m0.set p.timeLoc (x t), ?_, ?_, ?_, ?_⟩
    · simp only [runOn, hp, Option.bind_eq_bind, Prog.flat, runFlat_flat, Prog.setPath, h2,
        Option.isSome_some, if_true, Option.bind_some, hm0]
    · intro k hk
      simp only [Sys.inputs, hp, Option.toList_some, List.length_append, List.length_singleton] at hk
      by_cases e : k = sys.vars.length
      · subst e
        simp [Sys.inputs, hp, Mem.set, ht]
      · have hk' : k < sys.vars.length := by omega
        simp only [Sys.inputs, hp, Option.toList_some]
        rw [List.getElem_append_left hk']
        simp only [Mem.set, ht, if_neg e]
        exact hv k hk'
    · intro q hq'
      have := hnum q hq'
      simp only [Sys.inputs, hp, Option.toList_some, List.length_append,
        List.length_singleton] at this
      simp only [Mem.set, ht]
      rw [if_neg (by omega)]
      exact hq q hq'
    · intro l hl hln
      simp only [Sys.inputs, hp, Option.toList_some, List.length_append,
        List.length_singleton] at hl
      simp only [Mem.set, ht]
      rw [if_neg (by omega)]
      exact hold l (by omega) hln

/-! ### The initial state satisfies the invariants -/

theorem initial_loc (sys : Sys) (hnd : (sys.inputs ++ sys.tops).Nodup) (k : ℕ)
    (hk : k < (sys.inputs ++ sys.tops).length) :
    ((CState.init : CState C).reserve (sys.inputs ++ sys.tops)).loc (sys.inputs ++ sys.tops)[k]
      = some k := by
  have := reserve_loc_getElem (CState.init : CState C) _ hnd k hk
  rw [this]
  simp [CState.init]

theorem initial_loc_mem (sys : Sys) (hnd : (sys.inputs ++ sys.tops).Nodup) {j l : ℕ}
    (h : ((CState.init : CState C).reserve (sys.inputs ++ sys.tops)).loc j = some l) :
    ∃ hl : l < (sys.inputs ++ sys.tops).length, (sys.inputs ++ sys.tops)[l] = j := by
  by_cases hj : j ∈ sys.inputs ++ sys.tops
  · obtain ⟨k, hk, rfl⟩ := List.getElem_of_mem hj
    rw [initial_loc sys hnd k hk] at h
    simp only [Option.some.injEq] at h
    subst h
    exact ⟨hk, rfl⟩
  · rw [reserve_loc_not_mem _ _ hj] at h
    simp [CState.init] at h

theorem initial_cnt (G : Graph C) (R : ℕ → Prop) (sys : Sys)
    (hnd : (sys.inputs ++ sys.tops).Nodup) :
    Cnt G R sys.inputs.length sys.tops
      ((CState.init : CState C).reserve (sys.inputs ++ sys.tops)) [] 0 := by
  obtain ⟨f1, f2, f3, f4, f5⟩ := reserve_fields (CState.init : CState C) (sys.inputs ++ sys.tops)
  refine ⟨List.nodup_nil, by simp, ?_, ?_, ?_, ?_, ?_, ?_, ?_, ?_⟩
  · rw [f2]; simp [CState.init]
  · rw [f1]; simp; omega
  · rw [f2]; simp [CState.init]
  · rw [f2]; simp [CState.init]
  · rw [f3]; simp [CState.init]
  · rw [f3]; simp [CState.init]
  · intro p hp
    obtain ⟨k, hk, rfl⟩ := List.getElem_of_mem hp
    have hk' : sys.inputs.length + k < (sys.inputs ++ sys.tops).length := by simp [hk]
    have := initial_loc (C := C) sys hnd (sys.inputs.length + k) hk'
    rw [List.getElem_append_right (by omega)] at this
    simp only [Nat.add_sub_cancel_left] at this
    refine ⟨_, this, ?_, by omega, ?_, ?_⟩
    · rw [f1]; simp [CState.init]; exact hk
    · rw [f2]; simp [CState.init]
    · rw [f3]; simp [CState.init]
  · intro p hp q hq e
    obtain ⟨k, hk, hk2⟩ := List.getElem_of_mem (List.mem_append_right sys.inputs hp)
    have h1 := initial_loc (C := C) sys hnd k hk
    rw [hk2] at h1
    rw [h1] at e
    obtain ⟨_, h3⟩ := initial_loc_mem (C := C) sys hnd e.symm
    rw [← hk2, h3]

theorem initial_inv (G : Graph C) (A : Arith C V) (x : ℕ → V) (sys : Sys)
    (hnd : (sys.inputs ++ sys.tops).Nodup) (hin : ∀ v ∈ sys.inputs, G.cell v = .var) :
    Inv G A x sys.inputs.length
      (fun m => ∀ k (hk : k < sys.inputs.length), m k = x sys.inputs[k]) sys.tops
      ((CState.init : CState C).reserve (sys.inputs ++ sys.tops)) := by
  obtain ⟨f1, f2, f3, f4, f5⟩ := reserve_fields (CState.init : CState C) (sys.inputs ++ sys.tops)
  have hcnt := initial_cnt G (fun _ => True) sys hnd
  refine ⟨?_, ?_, hcnt.inLe, ?_, ?_, ?_, hcnt.inj, ?_⟩
  · rw [f2]; simp [CState.init]
  · rw [f3]; simp [CState.init]
  · rw [f2]; intro pre c post h; simp [CState.init] at h
  · rw [f4, f5]; simp [CState.init]
  · intro p hp
    obtain ⟨l, h1, h2, -⟩ := hcnt.pend p hp
    exact ⟨l, h1, h2⟩
  · intro j l hj hjP
    obtain ⟨hl, rfl⟩ := initial_loc_mem sys hnd hj
    have hl' : l < sys.inputs.length := by
      by_contra hc
      apply hjP
      rw [List.getElem_append_right (by omega)]
      exact List.getElem_mem _
    have hel : (sys.inputs ++ sys.tops)[l] = sys.inputs[l] := List.getElem_append_left hl'
    refine ⟨by rw [f1]; simp [CState.init] at hl ⊢; omega, ?_, .inl hl', ?_⟩
    · intro p hp he
      obtain ⟨l', a, -, c, -⟩ := hcnt.pend p hp
      rw [he] at a
      simp only [Option.some.injEq] at a
      omega
    · intro T m _ hI _
      rw [f2]
      show m l = _
      rw [hI l hl', hel, value_eq, valueWith, hin _ (List.getElem_mem _)]

/-! ### Success -/

/-- Node types the compiler can compile, with operands where it needs them. -/
def Supported (G : Graph C) (i : ℕ) : Prop :=
  match G.cell i with
  | .sum ops | .mult ops => ops ≠ []
  | .other _ => False
  | _ => True

theorem ensure_isSome {j : ℕ} (h : ∀ s : CState C, (visit G j s).isSome) (s : CState C) :
    ∃ s', ensure (visit G) j s = some s' := by
  unfold ensure
  split
  · exact ⟨_, rfl⟩
  · exact Option.isSome_iff_exists.1 (h s)

theorem gather_isSome {G : Graph C} (js : List ℕ)
    (h : ∀ j ∈ js, ∀ s : CState C, (visit G j s).isSome) (s : CState C) :
    ∃ r, gather (visit G) js s = some r ∧ r.1.length = js.length := by
  induction js generalizing s with
  | nil => exact ⟨_, rfl, rfl⟩
  | cons j js ih =>
    obtain ⟨s1, h1⟩ := ensure_isSome (h j (by simp)) s
    obtain ⟨r, h2, h3⟩ := ih (fun j' hj' => h j' (by simp [hj'])) (s1.getLoc j).2
    exact ⟨((s1.getLoc j).1 :: r.1, r.2), by simp [gather, h1, h2], by simp [h3]⟩

theorem visit_isSome (G : Graph C) (i : ℕ) (h : ∀ j, Below G i j → Supported G j)
    (s : CState C) : (visit G i s).isSome := by
  induction i using Nat.strong_induction_on generalizing s with
  | _ i ih =>
  have hop : ∀ j ∈ (G.cell i).operands, ∀ s : CState C, (visit G j s).isSome := fun j hj s =>
    ih j (G.acyclic i j hj) (fun k hk => h k (.step hj hk)) s
  have hs := h i (.refl i)
  unfold Supported at hs
  rw [visit_eq]
  unfold visitWith
  cases hc : G.cell i with
  | var => simp
  | num c => simp
  | other _ => simp [hc] at hs
  | fn n =>
    obtain ⟨s1, h1⟩ := ensure_isSome (hop n (by simp [hc, Cell.operands])) s
    simp [h1]
  | un f n =>
    obtain ⟨s1, h1⟩ := ensure_isSome (hop n (by simp [hc, Cell.operands])) s
    simp [h1]
  | ipow n z =>
    obtain ⟨s1, h1⟩ := ensure_isSome (hop n (by simp [hc, Cell.operands])) s
    simp [h1]
  | pow b e =>
    obtain ⟨s1, h1⟩ := ensure_isSome (hop b (by simp [hc, Cell.operands])) s
    obtain ⟨s2, h2⟩ := ensure_isSome (hop e (by simp [hc, Cell.operands])) s1
    simp [h1, h2]
  | sum ops =>
    simp only [hc] at hs
    obtain ⟨p, h1, h2⟩ := gather_isSome (ops.map Prod.snd)
      (fun j hj => hop j (by rw [hc]; exact hj)) s
    simp only [h1, Option.bind_eq_bind, Option.bind_some]
    match ops, p.1, hs, h2 with
    | (b, l) :: r, l' :: r', _, _ =>
      cases b <;> simp [sumCode]
  | mult ops =>
    simp only [hc] at hs
    obtain ⟨p, h1, h2⟩ := gather_isSome (ops.map Prod.snd)
      (fun j hj => hop j (by rw [hc]; exact hj)) s
    simp only [h1, Option.bind_eq_bind, Option.bind_some]
    match ops, p.1, hs, h2 with
    | (b, l) :: r, l' :: r', _, _ =>
      cases b <;> simp [multCode]

theorem visitAll_isSome {G : Graph C} (tops : List ℕ)
    (h : ∀ f ∈ tops, ∀ j, Below G f j → Supported G j) (s : CState C) :
    ∃ s', visitAll G tops s = some s' := by
  induction tops generalizing s with
  | nil => exact ⟨s, rfl⟩
  | cons f tops ih =>
    obtain ⟨s1, h1⟩ := Option.isSome_iff_exists.1 (visit_isSome G f (h f (by simp)) s)
    obtain ⟨s2, h2⟩ := ih (fun g hg => h g (by simp [hg])) s1
    exact ⟨s2, by simp [visitAll, h1]; exact h2⟩

end B2.SLP
