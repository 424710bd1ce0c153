import Verif.SLP.PropsCompile

/-!
# Straight-line programs at run time

A compiled program holds one memory per number type, one working precision, and a single flag
`is_evaluated_` (`straight_line_program.hpp:599-612`). `V` is the double type, `W` the multiple
precision type.
-/

namespace B2.SLP

set_option linter.unusedSectionVars false

variable {C V W : Type} [One C]

/-- The mutable part of `StraightLineProgram`, `straight_line_program.hpp:599-612`. -/
structure RT (V W : Type) where
  memD : Mem V
  memM : Mem W
  evaluated : Bool
  prec : ℕ

/-- The numeric operations: double arithmetic, multiple precision arithmetic at each working
precision, and rounding to a precision (`Precision(x, digits)`). -/
structure Num (C V W : Type) where
  dbl : Arith C V
  mp : ℕ → Arith C W
  round : ℕ → W → W

/-- The calls a user can make. `num` in `precision` is what the number nodes return from
`Eval<mpfr_complex>()` at that moment; it depends on the global default precision and on the
nodes' caches, so it is left open. Multiple precision inputs carry their precision `q`. `evalD`
and `evalM` stand for `Eval<T>` and for `GetFuncVals/GetJacobian/GetTimeDeriv<T>`, which call
`Eval<T>` unless the flag is set (and `Eval<T>` itself returns when it is). -/
inductive Op (C V W : Type)
  | setVarsD (x : ℕ → V)
  | setVarsM (q : ℕ) (x : ℕ → W)
  | setPathD (t : V)
  | setPathM (q : ℕ) (t : W)
  | precision (q : ℕ) (num : C → W)
  | evalD
  | evalM

/-- One call. A call that throws (precision mismatch, no path variable) leaves the state unchanged.
`SetVariableValues` and `SetPathVariable`: `straight_line_program.hpp:504-553` (the check of the
time lets any number of 16 digits pass, also a multiple precision one); `precision`:
`straight_line_program.cpp:68-91`; `Eval`: `straight_line_program.cpp:207-312` (the check that
the first number in memory and the program have the same precision cannot fail when the system has
a variable: both are only changed together, and `SetVariableValues` checks the first coordinate). -/
def RT.step (N : Num C V W) (p : Prog C) (s : RT V W) : Op C V W → RT V W
  | .setVarsD x => { s with memD := p.setVars x s.memD, evaluated := false }
  | .setVarsM q x =>
    if q = s.prec then { s with memM := p.setVars x s.memM, evaluated := false } else s
  | .setPathD t =>
    match p.setPath t s.memD with
    | some m => { s with memD := m, evaluated := false }
    | none => s
  | .setPathM q t =>
    if q = 16 ∨ q = s.prec then
      match p.setPath t s.memM with
      | some m => { s with memM := m, evaluated := false }
      | none => s
    else s
  | .precision q num =>
    if q = s.prec then s
    else { s with
      memM := fun l => N.round q (p.nums.foldl (fun m a => m.set a.2 (num a.1)) s.memM l)
      prec := q }
  | .evalD =>
    if s.evaluated then s
    else match runFlat N.dbl p.ints p.flat s.memD with
      | some m => { s with memD := m, evaluated := true }
      | none => s
  | .evalM =>
    if s.evaluated then s
    else match runFlat (N.mp s.prec) p.ints p.flat s.memM with
      | some m => { s with memM := m, evaluated := true }
      | none => s

/-- A history of calls. -/
def RT.run (N : Num C V W) (p : Prog C) (s : RT V W) (h : List (Op C V W)) : RT V W :=
  h.foldl (RT.step N p) s

/-- The state after compilation: numbers copied into both memories, everything else whatever it
is (`straight_line_program.cpp:738, 855-866`). -/
def RT.start (N : Num C V W) (p : Prog C) (prec : ℕ) (num : C → W) (d : Mem V) (m : Mem W) :
    RT V W where
  memD := loadNums N.dbl p.nums d
  memM := p.nums.foldl (fun m a => m.set a.2 (N.round prec (num a.1))) m
  evaluated := false
  prec := prec

/-! ### Specification: the inputs in force -/

/-- What a user knows from the history alone: the values of the inputs by position (variables in
order, then the path variable), the number constants at the current precision, and the
precision. -/
structure Inputs (C V W : Type) where
  inD : ℕ → V
  inM : ℕ → W
  num : C → W
  prec : ℕ

/-- Effect of a call on the inputs in force, for a system with `n` variables and `path` telling
whether there is a path variable: accepted values replace the previous ones; a change of precision
rounds. Evaluations change nothing. -/
def Inputs.step (round : ℕ → W → W) (n : ℕ) (path : Bool) (i : Inputs C V W) :
    Op C V W → Inputs C V W
  | .setVarsD x => { i with inD := fun k => if k < n then x k else i.inD k }
  | .setVarsM q x =>
    if q = i.prec then { i with inM := fun k => if k < n then x k else i.inM k } else i
  | .setPathD t => if path then { i with inD := fun k => if k = n then t else i.inD k } else i
  | .setPathM q t =>
    if (q = 16 ∨ q = i.prec) ∧ path = true then { i with inM := fun k => if k = n then t else i.inM k }
    else i
  | .precision q num =>
    if q = i.prec then i
    else ⟨i.inD, fun k => round q (i.inM k), fun c => round q (num c), q⟩
  | .evalD | .evalM => i

/-- Arithmetic at the current precision with the constants in force. -/
def Num.mpNow (N : Num C V W) (i : Inputs C V W) : Arith C W :=
  { N.mp i.prec with ofNum := i.num }

/-- The outputs in memory `m` are the values of the expression trees at the inputs `x` (given by
position). -/
def Outputs {U : Type} (G : Graph C) (A : Arith C U) (sys : Sys) (p : Prog C) (x : ℕ → U)
    (m : Mem U) : Prop :=
  ∀ v : ℕ → U, (∀ k (h : k < sys.inputs.length), v sys.inputs[k] = x k) →
    (∀ i (h : i < sys.functions.length), p.func m i = value G A v sys.functions[i]) ∧
    (∀ i j (h : i + j * sys.functions.length < sys.dx.length),
      p.jac m i j = value G A v sys.dx[i + j * sys.functions.length]) ∧
    (sys.path.isSome → ∀ i (h : i < sys.dt.length), p.timeDeriv m i = value G A v sys.dt[i])

/-! ### Lemmas -/

theorem exec_arith (A B : Arith C V) (h1 : A.bin = B.bin) (h2 : A.un = B.un)
    (h3 : A.ipow = B.ipow) (T : List ℤ) (code : List Instr) (m : Mem V) :
    exec A T code m = exec B T code m := by
  induction code generalizing m with
  | nil => rfl
  | cons c code ih =>
    simp only [exec, List.foldl_cons] at ih ⊢
    rw [ih]
    congr 1
    cases c <;> simp [Instr.exec, h1, h2, h3]

/-- Everything needed about a correctly compiled program. -/
structure Compiled (G : Graph C) (sys : Sys) (p : Prog C) : Prop where
  numVars : p.numVars = sys.vars.length
  hasPath : p.hasPath = sys.path.isSome
  varBase : p.varBase = 0
  timeLoc : sys.path.isSome → p.timeLoc = sys.vars.length
  numGe : ∀ q ∈ p.nums, sys.inputs.length ≤ q.2
  numNodup : (p.nums.map Prod.snd).Nodup
  outGe : ∀ c ∈ p.instrs, sys.inputs.length ≤ c.out
  outNum : ∀ c ∈ p.instrs, ∀ q ∈ p.nums, c.out ≠ q.2
  correct : ∀ {U : Type} (A : Arith C U), Correct G A sys p

theorem compiled {G : Graph C} {sys : Sys} {p : Prog C} (hs : sys.Shape G) (ho : sys.Ordered G)
    (hp : compile G sys = some p) : Compiled G sys p := by
  have h16 := C16_instructions_partial G sys p hs ho.nodup hp
  obtain ⟨s, hvis, e1, e2, e3, e4, e5, e6, e7, e8, e9, e10, e11, e12⟩ := compile_some hp
  obtain ⟨vis, hcnt⟩ := visitAll_cnt (G := G) (R := fun _ => True) (N := sys.inputs.length)
    (by simp) sys.tops [] [] _ s
    (by rw [List.append_nil]; exact (List.nodup_append.1 ho.nodup).2.1) hs.topsFn (by simp)
    (by rw [List.append_nil]; exact initial_cnt G _ sys ho.nodup) hvis
  exact ⟨e5, e6, e8, e9, by rw [e3]; exact fun q hq => (hcnt.num q hq).2.1, h16.2.2.1,
    fun c hc => (h16.2.2.2 c hc).1, fun c hc => (h16.2.2.2 c hc).2,
    fun A => C15_compile_correct_partial G A sys p hs ho hp⟩

variable {G : Graph C} {sys : Sys} {p : Prog C}

/-- Running on a memory that holds the inputs and the numbers gives the outputs and leaves inputs
and numbers alone. -/
theorem Compiled.exec_outputs {U : Type} (hc : Compiled G sys p) (A : Arith C U) (x : ℕ → U)
    (m : Mem U) (hx : ∀ k < sys.inputs.length, m k = x k) (hn : ∀ q ∈ p.nums, m q.2 = A.ofNum q.1) :
    Outputs G A sys p x (exec A p.ints p.instrs m) ∧
    (∀ k < sys.inputs.length, exec A p.ints p.instrs m k = x k) ∧
    (∀ q ∈ p.nums, exec A p.ints p.instrs m q.2 = A.ofNum q.1) := by
  refine ⟨?_, ?_, ?_⟩
  · intro v hv
    obtain ⟨m', hm', ho⟩ := (hc.correct A).outputs v m
    obtain ⟨m0, hm0, h1, h2, h3⟩ := runOn_spec (A := A) (x := v) (old := m) hc.numVars hc.hasPath
      hc.varBase hc.timeLoc hc.numGe hc.numNodup
    have e : m0 = m := by
      funext l
      by_cases hl : l < sys.inputs.length
      · rw [h1 l hl, hv l hl, hx l hl]
      · by_cases hq : ∃ q ∈ p.nums, q.2 = l
        · obtain ⟨q, hq, rfl⟩ := hq
          rw [h2 q hq, hn q hq]
        · push Not at hq
          exact h3 l (by omega) hq
    rw [hm0, e, Option.some.injEq] at hm'
    subst hm'
    exact ho
  · intro k hk
    rw [exec_other, hx k hk]
    intro c hc'
    have := hc.outGe c hc'
    omega
  · intro q hq
    rw [exec_other, hn q hq]
    exact fun c hc' => hc.outNum c hc' q hq

theorem Compiled.setVars {U : Type} (hc : Compiled G sys p) (x : ℕ → U) (m : Mem U) :
    (∀ k < sys.vars.length, p.setVars x m k = x k) ∧
    ∀ k, sys.vars.length ≤ k → p.setVars x m k = m k := by
  constructor
  · intro k hk
    have := foldl_set_mem (List.range p.numVars) (fun k => k + p.varBase) x m
      (by simp only [hc.varBase, Nat.add_zero, List.map_id']; exact List.nodup_range)
      (a := k) (by simp [hc.numVars, hk])
    simp only [hc.varBase, Nat.add_zero] at this
    rw [Prog.setVars]
    simpa only [hc.varBase, Nat.add_zero] using this
  · intro k hk
    rw [Prog.setVars, foldl_set_other]
    intro j hj
    simp only [List.mem_range, hc.numVars] at hj
    simp only [hc.varBase]
    omega

theorem Compiled.setPath {U : Type} (hc : Compiled G sys p) (t : U) (m : Mem U) :
    p.setPath t m = if sys.path.isSome then some (m.set sys.vars.length t) else none := by
  rw [Prog.setPath, hc.hasPath]
  cases h : sys.path.isSome with
  | true => simp [hc.timeLoc h]
  | false => simp

theorem Compiled.inputs_length (sys : Sys) :
    sys.inputs.length = sys.vars.length + (if sys.path.isSome then 1 else 0) := by
  cases h : sys.path <;> simp [Sys.inputs, h]

end B2.SLP
