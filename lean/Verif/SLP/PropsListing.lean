import Verif.SLP.Listing
import Verif.SLP.PropsCompile

/-!
# C185: what the printed straight line program says

The English: the text of a compiled program lists its instructions, one line each, in the order in which they are executed,
and two programs with the same text compute the same.
-/

namespace B2.SLP

variable {C V W : Type}

/-! ### Specification -/

/-- The word for an operation. -/
def BinOp.word : BinOp → String
  | .add => "Add" | .sub => "Subtract" | .mul => "Multiply" | .div => "Divide" | .pow => "Power"

/-- The word for a function. -/
def UnFn.word : UnFn → String
  | .exp => "Exp" | .log => "Log" | .neg => "Negate" | .sqrt => "Sqrt" | .sin => "Sin" | .cos => "Cos" | .tan => "Tan"
  | .asin => "Asin" | .acos => "Acos" | .atan => "Atan"

/-- The line which says what an instruction does. -/
def Instr.line : Instr → PLine C V W
  | .bin op a b o => .binary op.word a b o
  | .ipow a k o => .binary "IntPower" a k o
  | .un f a o => .unary f.word a o
  | .assign a o => .unary "Assign" a o

/-- The lines of a text which are instructions. -/
def codeLines (t : List (PLine C V W)) : List (PLine C V W) :=
  t.filter fun | .unary .. | .binary .. => true | _ => false

/-- Numbers into memory, inputs set, evaluated: the memory afterwards. -/
def Prog.run (p : Prog C) (A : Arith C V) (x : ℕ → V) (t : V) (old : Mem V) : Option (Mem V) := do
  let m0 := p.setVars x (loadNums A p.nums old)
  let m1 ← if p.hasPath then p.setPath t m0 else some m0
  runFlat A p.ints p.flat m1

/-- Two programs compute the same: at all inputs, the same functions, Jacobian and (if there is a path variable) time
derivatives. -/
def SameResults (A : Arith C V) (p q : Prog C) : Prop :=
  p.numFunctions = q.numFunctions ∧ p.numVars = q.numVars ∧ p.hasPath = q.hasPath ∧
  ∀ x t old,
    (∀ i, (p.run A x t old).map (p.func · i) = (q.run A x t old).map (q.func · i)) ∧
    (∀ i j, (p.run A x t old).map (p.jac · i j) = (q.run A x t old).map (q.jac · i j)) ∧
    (p.hasPath = true →
      ∀ i, (p.run A x t old).map (p.timeDeriv · i) = (q.run A x t old).map (q.timeDeriv · i))

/-- **C185.** For all systems and the programs compiled from them: the program prints, its instruction lines are its
instructions in order, and programs with equal texts compute the same. -/
def C185_full : Prop :=
  ∀ (C V W : Type) (_ : One C) (A : Arith C V) (G G' : Graph C) (sys sys' : Sys) (p q : Prog C),
    sys.Shape G → sys.Ordered G → sys'.Shape G' → sys'.Ordered G' →
    compile G sys = some p → compile G' sys' = some q →
    ∀ (memD : List V) (memM : List W), memD.length = p.size → memM.length = p.size →
      ∃ t, p.print memD memM = some t ∧ codeLines t = p.instrs.map Instr.line ∧
        (q.print memD memM = some t → SameResults A p q)

/-! ### Proofs -/

theorem listing_flat (code : List Instr) :
    listing (C := C) (V := V) (W := W) (code.flatMap Instr.encode) = some (code.map Instr.line) := by
  induction code with
  | nil => simp [listing]
  | cons c code ih =>
    rw [List.flatMap_cons]
    cases c with
    | bin op a b o =>
      cases op <;> simp [Instr.encode, BinOp.opcode, listing, opName, isUnary, unaryMask, opAssign, ih, Instr.line,
        BinOp.word]
    | ipow a k o =>
      simp [Instr.encode, listing, opName, isUnary, unaryMask, opAssign, opIntPower, ih, Instr.line]
    | un f a o =>
      cases f <;> simp [Instr.encode, UnFn.opcode, listing, opName, isUnary, unaryMask, opAssign, ih, Instr.line,
        UnFn.word]
    | assign a o =>
      simp [Instr.encode, listing, opName, isUnary, unaryMask, opAssign, ih, Instr.line]

theorem line_inj : Function.Injective (Instr.line (C := C) (V := V) (W := W)) := by
  intro a b h
  cases a with
  | bin op _ _ _ =>
    cases b with
    | bin op' _ _ _ => cases op <;> cases op' <;> simp_all [Instr.line, BinOp.word]
    | ipow _ _ _ => cases op <;> simp_all [Instr.line, BinOp.word]
    | un _ _ _ => simp [Instr.line] at h
    | assign _ _ => simp [Instr.line] at h
  | ipow _ _ _ =>
    cases b with
    | bin op' _ _ _ => cases op' <;> simp_all [Instr.line, BinOp.word]
    | ipow _ _ _ => simp_all [Instr.line]
    | un _ _ _ => simp [Instr.line] at h
    | assign _ _ => simp [Instr.line] at h
  | un f _ _ =>
    cases b with
    | bin _ _ _ _ => simp [Instr.line] at h
    | ipow _ _ _ => simp [Instr.line] at h
    | un f' _ _ => cases f <;> cases f' <;> simp_all [Instr.line, UnFn.word]
    | assign _ _ => cases f <;> simp_all [Instr.line, UnFn.word]
  | assign _ _ =>
    cases b with
    | bin _ _ _ _ => simp [Instr.line] at h
    | ipow _ _ _ => simp [Instr.line] at h
    | un f' _ _ => cases f' <;> simp_all [Instr.line, UnFn.word]
    | assign _ _ => simp_all [Instr.line]

theorem varValues_some {base n : ℕ} {mem : List V} (h : base + n ≤ mem.length) :
    varValues base n mem = some ((mem.drop base).take n) := by
  induction n with
  | zero => simp [varValues]
  | succ n ih =>
    have ih := ih (by omega)
    have hm : mem[base + n]? = some mem[base + n] := List.getElem?_eq_getElem (by omega)
    simp only [varValues] at ih ⊢
    rw [List.range_succ, List.mapM_append, ih]
    simp only [List.mapM_cons, List.mapM_nil, hm]
    have : (mem.drop base).take (n + 1) = (mem.drop base).take n ++ [mem[base + n]] := by
      rw [List.take_add_one]
      simp [hm]
    simp [this]

/-- The text, written out. -/
theorem print_eq {p : Prog C} {memD : List V} {memM : List W} {t : List (PLine C V W)} (h : p.print memD memM = some t) :
    ∃ rest : List (PLine C V W), t = ([PLine.fnsVars p.numFunctions p.numVars, .havePath p.hasPath] ++
        ([PLine.outFunctions p.fnBase, .outJacobian p.jacBase] ++
          (if p.hasPath then [.outTimeDeriv p.dtBase] else [])) ++
        PLine.inVariables p.varBase :: (if p.hasPath then [.inTime p.timeLoc] else [])) ++
        p.nums.map (fun q => PLine.number q.1 q.2) ++ p.instrs.map Instr.line ++ rest ∧
      (∃ vd vm, rest = [.varsD vd, .varsM vm, .memD memD, .memM memM] ∨
        ∃ td tm, rest = [.varsD vd, .varsM vm, .timeD td, .timeM tm, .memD memD, .memM memM]) := by
  simp only [Prog.print, Prog.flat, listing_flat, Option.bind_eq_bind, Option.bind_eq_some_iff, Option.some.injEq] at h
  obtain ⟨_, rfl, vd, -, vm, -, time, ht, rfl⟩ := h
  refine ⟨[.varsD vd, .varsM vm] ++ time ++ [.memD memD, .memM memM], by simp, vd, vm, ?_⟩
  simp only [Prog.timeValues] at ht
  by_cases hp : p.hasPath = true
  · rw [if_pos hp] at ht
    simp only [Option.bind_eq_bind, Option.bind_eq_some_iff, Option.some.injEq] at ht
    obtain ⟨td, -, tm, -, rfl⟩ := ht
    exact Or.inr ⟨td, tm, by simp⟩
  · rw [if_neg hp] at ht
    simp only [Option.some.injEq] at ht
    subst ht
    exact Or.inl (by simp)

theorem codeLines_lines (l : List Instr) : codeLines (C := C) (V := V) (W := W) (l.map Instr.line) = l.map Instr.line := by
  rw [codeLines, List.filter_eq_self]
  intro a ha
  simp only [List.mem_map] at ha
  obtain ⟨c, -, rfl⟩ := ha
  cases c <;> rfl

theorem codeLines_nums (l : List (C × ℕ)) :
    codeLines (V := V) (W := W) (l.map fun q => PLine.number q.1 q.2) = [] := by
  rw [codeLines, List.filter_eq_nil_iff]
  intro a ha
  simp only [List.mem_map] at ha
  obtain ⟨c, -, rfl⟩ := ha
  simp

/-- Whenever a program prints, the instruction lines are its instructions, one line each and in order. -/
theorem C185_listing (p : Prog C) (memD : List V) (memM : List W) (t : List (PLine C V W))
    (h : p.print memD memM = some t) : codeLines t = p.instrs.map Instr.line := by
  obtain ⟨rest, rfl, vd, vm, hr⟩ := print_eq h
  have h1 := codeLines_lines (C := C) (V := V) (W := W) p.instrs
  have h2 := codeLines_nums (V := V) (W := W) p.nums
  have h3 : codeLines rest = [] := by
    rcases hr with rfl | ⟨td, tm, rfl⟩ <;> rfl
  simp only [codeLines] at h1 h2 h3 ⊢
  rw [List.filter_append, List.filter_append, List.filter_append, h1, h2, h3]
  cases p.hasPath <;> simp

/-- The numbers named in a text. -/
def numberLines (t : List (PLine C V W)) : List (C × ℕ) :=
  t.filterMap fun | .number c l => some (c, l) | _ => none

theorem numbers_of_print {p : Prog C} {memD : List V} {memM : List W} {t : List (PLine C V W)}
    (h : p.print memD memM = some t) : numberLines t = p.nums := by
  obtain ⟨rest, rfl, vd, vm, hr⟩ := print_eq h
  have h1 : numberLines (p.instrs.map (Instr.line (C := C) (V := V) (W := W))) = [] := by
    rw [numberLines, List.filterMap_eq_nil_iff]
    intro a ha
    simp only [List.mem_map] at ha
    obtain ⟨c, -, rfl⟩ := ha
    cases c <;> rfl
  have h2 : numberLines (V := V) (W := W) (p.nums.map fun q => PLine.number q.1 q.2) = p.nums := by
    simp only [numberLines, List.filterMap_map]
    exact List.filterMap_some
  have h3 : numberLines rest = [] := by
    rcases hr with rfl | ⟨td, tm, rfl⟩ <;> rfl
  simp only [numberLines] at h1 h2 h3 ⊢
  rw [List.filterMap_append, List.filterMap_append, List.filterMap_append, h1, h2, h3]
  cases p.hasPath <;> simp

/-- Equal texts: the same layout, numbers and instructions. -/
theorem fields_of_print {p q : Prog C} {memD memD' : List V} {memM memM' : List W} {t : List (PLine C V W)}
    (h : p.print memD memM = some t) (h' : q.print memD' memM' = some t) :
    p.numFunctions = q.numFunctions ∧ p.numVars = q.numVars ∧ p.hasPath = q.hasPath ∧ p.fnBase = q.fnBase ∧
      p.jacBase = q.jacBase ∧ p.varBase = q.varBase ∧ (p.hasPath = true → p.dtBase = q.dtBase ∧ p.timeLoc = q.timeLoc) ∧
      p.nums = q.nums ∧ p.instrs = q.instrs := by
  have hn : p.nums = q.nums := (numbers_of_print h).symm.trans (numbers_of_print h')
  have hi : p.instrs = q.instrs :=
    (List.map_injective_iff.2 line_inj) ((C185_listing _ _ _ _ h).symm.trans (C185_listing _ _ _ _ h'))
  obtain ⟨rest, e, -⟩ := print_eq h
  obtain ⟨rest', e', -⟩ := print_eq h'
  rw [e] at e'
  cases hp : p.hasPath <;> cases hq : q.hasPath <;> simp [hp, hq] at e'
  · obtain ⟨⟨a, b⟩, c, d, f, -⟩ := e'
    exact ⟨a, b, rfl, c, d, f, by simp, hn, hi⟩
  · obtain ⟨⟨a, b⟩, c, d, f, g, k, -⟩ := e'
    exact ⟨a, b, rfl, c, d, g, fun _ => ⟨f, k⟩, hn, hi⟩

theorem print_isSome {p : Prog C} {memD : List V} {memM : List W} (h1 : p.varBase + p.numVars ≤ memD.length)
    (h2 : p.varBase + p.numVars ≤ memM.length)
    (h3 : p.hasPath = true → p.timeLoc < memD.length ∧ p.timeLoc < memM.length) :
    ∃ t, p.print memD memM = some t := by
  simp only [Prog.print, Prog.flat, listing_flat, varValues_some h1, varValues_some h2, Prog.timeValues]
  cases hp : p.hasPath with
  | false => simp
  | true =>
    obtain ⟨a, b⟩ := h3 hp
    simp [List.getElem?_eq_getElem a, List.getElem?_eq_getElem b]

/-- **C185, except the exponents.** A compiled program prints without leaving its instructions or its memory, whatever the
memory holds; the instruction lines are the instructions in order; and a program with the same text *and the same table of
integer exponents* computes the same. Missing from `C185_full`: the table, which is not printed. -/
theorem C185_partial [One C] (A : Arith C V) (G : Graph C) (sys : Sys) (p q : Prog C) (hs : sys.Shape G)
    (ho : sys.Ordered G) (hp : compile G sys = some p) (memD : List V) (memM : List W)
    (hD : memD.length = p.size) (hM : memM.length = p.size) :
    ∃ t, p.print memD memM = some t ∧ codeLines t = p.instrs.map Instr.line ∧
      (∀ memD' : List V, ∀ memM' : List W, q.print memD' memM' = some t → p.ints = q.ints → SameResults A p q) := by
  obtain ⟨s, -, -, -, -, -, e5, e6, -, e8, e9, -⟩ := compile_some hp
  have hb := (C15_compile_correct_partial G A sys p hs ho hp).bounds.1
  simp only [Sys.inputs, List.length_append] at hb
  obtain ⟨t, ht⟩ := print_isSome (p := p) (memD := memD) (memM := memM) (by rw [e5, e8]; omega) (by rw [e5, e8]; omega)
    (by
      intro h
      rw [e6] at h
      have h1 : sys.path.toList.length = 1 := by
        cases hpa : sys.path with
        | none => simp [hpa] at h
        | some _ => rfl
      rw [e9 h]
      omega)
  refine ⟨t, ht, C185_listing _ _ _ _ ht, ?_⟩
  intro memD' memM' hq hint
  obtain ⟨a1, a2, a3, a4, a5, a6, a7, a8, a9⟩ := fields_of_print ht hq
  have hrun : ∀ x t old, p.run A x t old = q.run A x t old := by
    intro x t old
    simp only [Prog.run, Prog.setVars, Prog.setPath, Prog.flat, a2, a6, a8, a9, hint, a3]
    by_cases hh : q.hasPath = true
    · rw [if_pos hh, if_pos hh, if_pos hh, if_pos hh, (a7 (a3.trans hh)).2]
    · rw [if_neg hh, if_neg hh]
  refine ⟨a1, a2, a3, fun x t old => ⟨fun i => ?_, fun i j => ?_, fun hh i => ?_⟩⟩
  · simp only [hrun, Prog.func, a4]
  · simp only [hrun, Prog.jac, a1, a5]
  · simp only [hrun, Prog.timeDeriv, (a7 hh).1]

/-! ### The exponents are not printed -/

/-- `3^k + x` (node 4), with derivative `1` (node 6); `x` is node 0. -/
def powerGraph (k : ℤ) : Graph ℤ where
  cell
    | 1 => .num 3
    | 2 => .ipow 1 k
    | 3 => .sum [(true, 2), (true, 0)]
    | 4 => .fn 3
    | 5 => .num 1
    | 6 => .fn 5
    | _ => .var
  acyclic := by
    intro i j hj
    match i with
    | 2 | 4 | 6 => simp [Cell.operands] at hj; omega
    | 3 => simp [Cell.operands] at hj; rcases hj with rfl | rfl <;> omega
    | 0 | 1 | 5 | _ + 7 => simp [Cell.operands] at hj

/-- The system with the function `3^k + x`. -/
def powerSys : Sys := ⟨[0], none, [4], [6], []⟩

theorem powerSys_shape (k : ℤ) : powerSys.Shape (powerGraph k) := by
  refine ⟨?_, ?_, by decide, by decide⟩
  · intro v hv
    simp [Sys.inputs, powerSys] at hv
    subst hv; rfl
  · intro f hf
    simp [Sys.tops, powerSys] at hf
    rcases hf with rfl | rfl <;> exact ⟨_, rfl⟩

theorem powerSys_below {k : ℤ} {f j : ℕ} (h : Below (powerGraph k) f j) :
    (f = 4 → j ∈ [4, 3, 2, 1, 0]) ∧ (f = 6 → j ∈ [6, 5]) ∧ (f = 3 → j ∈ [3, 2, 1, 0]) ∧ (f = 2 → j ∈ [2, 1]) ∧
      (f = 1 → j = 1) ∧ (f = 0 → j = 0) ∧ (f = 5 → j = 5) := by
  induction h with
  | refl => refine ⟨?_, ?_, ?_, ?_, ?_, ?_, ?_⟩ <;> (intro e; simp [e])
  | step hm _ ih =>
    refine ⟨?_, ?_, ?_, ?_, ?_, ?_, ?_⟩ <;> intro e <;> subst e <;> simp [powerGraph, Cell.operands] at hm
    · subst hm; have := ih.2.2.1 rfl; simp at this ⊢; omega
    · subst hm; have := ih.2.2.2.2.2.2 rfl; simp [this]
    · rcases hm with rfl | rfl
      · have := ih.2.2.2.1 rfl; simp at this ⊢; omega
      · have := ih.2.2.2.2.2.1 rfl; simp [this]
    · subst hm; have := ih.2.2.2.2.1 rfl; simp [this]

theorem powerSys_ordered (k : ℤ) : powerSys.Ordered (powerGraph k) := by
  refine ⟨by decide, ?_, ?_⟩
  · intro f hf j hb hv
    have hB := powerSys_below hb
    simp [Sys.tops, powerSys] at hf
    simp only [Sys.inputs, powerSys, Option.toList_none, List.append_nil, List.mem_singleton]
    rcases hf with rfl | rfl
    · have := hB.1 rfl
      simp at this
      rcases this with rfl | rfl | rfl | rfl | rfl <;> first | rfl | exact absurd hv (by simp [powerGraph])
    · have := hB.2.1 rfl
      simp at this
      rcases this with rfl | rfl <;> exact absurd hv (by simp [powerGraph])
  · intro pre f post e j hb hj
    have hB := powerSys_below hb
    have ht : powerSys.tops = [4, 6] := rfl
    rw [ht] at e
    match pre, e with
    | [], e =>
      simp only [List.nil_append, List.cons.injEq] at e
      obtain ⟨rfl, rfl⟩ := e
      have := hB.1 rfl
      simp at this hj
      omega
    | [_], e =>
      simp only [List.cons_append, List.nil_append, List.cons.injEq] at e
      obtain ⟨_, _, rfl⟩ := e
      simp at hj
    | _ :: _ :: _, e => simp at e

/-- The program for `3^k + x`. -/
def powerProg (k : ℤ) : Prog ℤ :=
  { numVars := 1, hasPath := false, numFunctions := 1, varBase := 0, timeLoc := 0, fnBase := 1, jacBase := 2, dtBase := 0,
    size := 7, ints := [k], nums := [(3, 3), (1, 6)],
    instrs := [.ipow 3 0 4, .bin .add 4 0 5, .assign 5 1, .assign 6 2] }

deriving instance DecidableEq for Prog

theorem power_compile_zero : compile (powerGraph 0) powerSys = some (powerProg 0) := by decide +kernel

theorem power_compile_one : compile (powerGraph 1) powerSys = some (powerProg 1) := by decide +kernel

/-- The two programs, for `3^0 + x` and `3^1 + x`, print the same text, whatever the memory holds. -/
theorem C185_same_text (memD : List V) (memM : List W) : (powerProg 0).print memD memM = (powerProg 1).print memD memM := rfl

/-- **C185, refuted.** `3^0 + x` and `3^1 + x` compile to programs with the same text; at `x = 2` they give 3 and 5. -/
theorem C185_refuted : ¬ C185_full := by
  intro h
  obtain ⟨t, ht, -, hsame⟩ := h ℤ ℤ ℤ inferInstance intArith (powerGraph 0) (powerGraph 1) powerSys powerSys (powerProg 0)
    (powerProg 1) (powerSys_shape 0) (powerSys_ordered 0) (powerSys_shape 1) (powerSys_ordered 1) power_compile_zero
    power_compile_one [0, 0, 0, 3, 0, 0, 1] [0, 0, 0, 3, 0, 0, 1] rfl rfl
  obtain ⟨-, -, -, hr⟩ := hsame ((C185_same_text _ _).symm.trans ht)
  have h0 := (hr (fun _ => 2) 0 (fun _ => 0)).1 0
  have h1 : ((powerProg 0).run intArith (fun _ => 2) 0 (fun _ => 0)).map ((powerProg 0).func · 0) = some 3 := by
    decide +kernel
  have h2 : ((powerProg 1).run intArith (fun _ => 2) 0 (fun _ => 0)).map ((powerProg 1).func · 0) = some 5 := by
    decide +kernel
  rw [h1, h2] at h0
  exact absurd h0 (by decide)

/-- A case meeting the hypotheses of `C185_partial`, with the lines that are printed. -/
example : ∃ t, (powerProg 2).print [10, 0, 0, 3, 0, 0, 1] [20, 0, 0, 3, 0, 0, 1] = some t ∧
    codeLines t = [PLine.binary "IntPower" 3 0 4, .binary "Add" 4 0 5, .unary "Assign" 5 1, .unary "Assign" 6 2] ∧
    (powerProg 0).print [0, 0, 0, 3, 0, 0, 1] [0, 0, 0, 3, 0, 0, 1] ≠
      ({ powerProg 0 with instrs := [.ipow 3 0 4] } : Prog ℤ).print [0, 0, 0, 3, 0, 0, 1] [0, 0, 0, 3, 0, 0, 1] := by
  obtain ⟨t, ht⟩ := print_isSome (p := powerProg 2) (memD := [10, 0, 0, 3, 0, 0, 1]) (memM := [20, 0, 0, 3, 0, 0, 1])
    (by decide) (by decide) (by decide)
  refine ⟨t, ht, C185_listing _ _ _ _ ht, ?_⟩
  intro he
  obtain ⟨u, hu⟩ := print_isSome (p := powerProg 0) (memD := [0, 0, 0, 3, 0, 0, 1]) (memM := [0, 0, 0, 3, 0, 0, 1])
    (by decide) (by decide) (by decide)
  have := (fields_of_print hu (he.symm.trans hu)).2.2.2.2.2.2.2.2
  exact absurd this (by decide)

end B2.SLP
