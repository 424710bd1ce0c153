import Verif.SLP.Run
import Mathlib.Tactic.IntervalCases

/-!
# C15, C16: the straight-line program compiler

`value G A x i` is the value of node `i` obtained by evaluating its expression tree at the variable
values `x`; `A` are the operations of the number type (any functions: no algebraic laws are used,
so the equalities are exact also in floating point).
-/

namespace B2.SLP

set_option linter.unusedSectionVars false

variable {C V : Type} [One C]

/-- The basic shape of every `System`: the inputs are variables, the outputs are `Function`
nodes, and the variables, path variable and derivative nodes are distinct objects. -/
structure Sys.Shape (G : Graph C) (sys : Sys) : Prop where
  inputsVar : ∀ v ∈ sys.inputs, G.cell v = .var
  topsFn : ∀ f ∈ sys.tops, ∃ n, G.cell f = .fn n
  inputsNodup : sys.inputs.Nodup
  derivNodup : (sys.dx ++ sys.dt).Nodup

/-- What C15 asks of a compiled program: for all variable values `x` and whatever the memory
contained, the program runs and the functions, Jacobian entries and time derivatives it returns
are the values of the expression trees; every instruction reads only inputs, numbers, or what an
earlier instruction wrote, within the memory. -/
structure Correct (G : Graph C) (A : Arith C V) (sys : Sys) (p : Prog C) : Prop where
  outputs : ∀ (x : ℕ → V) (old : Mem V), ∃ m, runOn A p sys x old = some m ∧
    (∀ i (h : i < sys.functions.length), p.func m i = value G A x sys.functions[i]) ∧
    (∀ i j (h : i + j * sys.functions.length < sys.dx.length),
      p.jac m i j = value G A x sys.dx[i + j * sys.functions.length]) ∧
    (sys.path.isSome → ∀ i (h : i < sys.dt.length), p.timeDeriv m i = value G A x sys.dt[i])
  reads : ReadsOK sys.inputs.length p.nums p.ints p.instrs
  bounds : sys.inputs.length ≤ p.size ∧ (∀ q ∈ p.nums, q.2 < p.size) ∧
    ∀ c ∈ p.instrs, c.out < p.size

/-- C15, full statement: every system that compiles is compiled correctly. -/
def C15_full : Prop :=
  ∀ (C V : Type) [One C] (G : Graph C) (A : Arith C V) (sys : Sys) (p : Prog C),
    sys.Shape G → compile G sys = some p → Correct G A sys p

/-- What the compiler needs from a system. -/
structure Sys.Ordered (G : Graph C) (sys : Sys) : Prop where
  /-- no function is added twice, no output is also an input -/
  nodup : (sys.inputs ++ sys.tops).Nodup
  /-- only variables of the system (or the path variable) occur -/
  closed : ∀ f ∈ sys.tops, ∀ j, Below G f j → G.cell j = .var → j ∈ sys.inputs
  /-- a function that is used by another one of the system comes before it -/
  ordered : ∀ pre f post, sys.tops = pre ++ f :: post → ∀ j, Below G f j → j ∉ post

theorem below_le {G : Graph C} {i j : ℕ} (h : Below G i j) : j ≤ i := by
  induction h with
  | refl => exact le_rfl
  | step hm _ ih => exact le_of_lt (lt_of_le_of_lt ih (G.acyclic _ _ hm))

/-- C15 for every system in which functions are distinct, use only the system's variables, and
come after the functions they use. Missing from `C15_full`: the systems violating
`Sys.Ordered`, for which it is false. -/
theorem C15_compile_correct_partial (G : Graph C) (A : Arith C V) (sys : Sys) (p : Prog C)
    (hs : sys.Shape G) (ho : sys.Ordered G) (hp : compile G sys = some p) :
    Correct G A sys p := by
  obtain ⟨s, hvis, e1, e2, e3, e4, e5, e6, e7, e8, e9, e10, e11, e12⟩ := compile_some hp
  have hnd := ho.nodup
  have hvars : ∀ f ∈ sys.tops, ∀ j, Below G f j → G.cell j = .var →
      ((CState.init : CState C).reserve (sys.inputs ++ sys.tops)).loc j ≠ none := by
    intro f hf j hj hc
    obtain ⟨k, hk, hk2⟩ := List.getElem_of_mem
      (List.mem_append_left sys.tops (ho.closed f hf j hj hc))
    rw [← hk2, initial_loc sys hnd k hk]
    simp
  have htops : sys.tops.Nodup := (List.nodup_append.1 hnd).2.1
  have hord : ∀ pre f post n, sys.tops = pre ++ f :: post → G.cell f = .fn n →
      ∀ j, Below G n j → j ∉ f :: (post ++ []) := by
    intro pre f post n he hf j hj hmem
    have hm : n ∈ (G.cell f).operands := by simp [hf, Cell.operands]
    rw [List.append_nil] at hmem
    rcases List.mem_cons.1 hmem with rfl | hmem
    · have := below_le hj
      have := G.acyclic j n hm
      omega
    · exact ho.ordered pre f post he j (.step hm hj) hmem
  have key := fun x => visitAll_spec (G := G) (A := A) (x := x)
    (I := fun m => ∀ k (hk : k < sys.inputs.length), m k = x sys.inputs[k]) sys.tops [] _ s
    (by rwa [List.append_nil]) hs.topsFn hord hvars
    (by rw [List.append_nil]; exact initial_inv G A x sys hnd hs.inputsVar) hvis
  obtain ⟨vis, hcnt⟩ := visitAll_cnt (G := G) (R := fun _ => True) (N := sys.inputs.length)
    (by simp) sys.tops [] [] _ s (by rwa [List.append_nil]) hs.topsFn (by simp)
    (by rw [List.append_nil]; exact initial_cnt G _ sys hnd) hvis
  constructor
  · intro x old
    obtain ⟨m0, hm, hI, hL, -⟩ := runOn_spec (A := A) (x := x) (old := old) e5 e6 e8 e9
      (by rw [e3]; exact fun q hq => (hcnt.num q hq).2.1) (by rw [e3]; exact hcnt.numNodup)
    obtain ⟨hi, hl⟩ := key x
    have hout : ∀ k (hk : k < sys.tops.length),
        exec A p.ints p.instrs m0 (sys.inputs.length + k) = value G A x sys.tops[k] := by
      intro k hk
      have hk' : sys.inputs.length + k < (sys.inputs ++ sys.tops).length := by simp [hk]
      have h1 := initial_loc (C := C) sys hnd (sys.inputs.length + k) hk'
      rw [List.getElem_append_right (by omega)] at h1
      simp only [Nat.add_sub_cancel_left] at h1
      have h2 := hl sys.tops[k] (by rw [h1]; simp)
      rw [h1] at h2
      have h3 := hi.done _ _ h2 (by simp)
      rw [e2, e4]
      exact h3.val s.ints m0 (List.prefix_refl _) hI (fun q hq => hL q (by rw [e3]; exact hq))
    refine ⟨_, hm, ?_, ?_, ?_⟩
    · intro i h
      have := hout i (by simp [Sys.tops]; omega)
      rw [Prog.func, e10, Nat.add_comm, this]
      congr 1
      simp only [Sys.tops, List.append_assoc]
      rw [List.getElem_append_left h]
    · intro i j h
      have := hout (sys.functions.length + (i + j * sys.functions.length))
        (by simp [Sys.tops]; omega)
      rw [Prog.jac, e7, e11, show i + j * sys.functions.length +
        (sys.inputs.length + sys.functions.length) = sys.inputs.length +
        (sys.functions.length + (i + j * sys.functions.length)) by omega, this]
      congr 1
      simp only [Sys.tops, List.append_assoc]
      rw [List.getElem_append_right (by omega), List.getElem_append_left (by omega)]
      congr 1
      omega
    · intro hpath i h
      have := hout (sys.functions.length + (sys.dx.length + i))
        (by simp [Sys.tops, hpath]; omega)
      rw [Prog.timeDeriv, e12 hpath, show i +
        (sys.inputs.length + sys.functions.length + sys.dx.length) = sys.inputs.length +
        (sys.functions.length + (sys.dx.length + i)) by omega, this]
      congr 1
      simp only [Sys.tops, List.append_assoc, hpath, if_true]
      rw [List.getElem_append_right (by omega), List.getElem_append_right (by omega)]
      congr 1
      omega
  · rw [e2, e3, e4]
    by_cases hV : Nonempty V
    · obtain ⟨v⟩ := hV
      exact (key fun _ => v).1.reads
    · exact (visitAll_spec (G := G) (A := (⟨fun _ => (), fun _ _ _ => (), fun _ _ => (),
        fun _ _ => ()⟩ : Arith C Unit)) (x := fun _ => ())
        (I := fun m => ∀ k (hk : k < sys.inputs.length), m k = ()) sys.tops [] _ s
        (by rwa [List.append_nil]) hs.topsFn hord hvars
        (by rw [List.append_nil]; exact initial_inv G _ (fun _ => ()) sys hnd hs.inputsVar)
        hvis).1.reads
  · rw [e1, e3, e4]
    exact ⟨hcnt.inLe, fun q hq => (hcnt.num q hq).1, fun c hc => (hcnt.outLt c hc).1⟩

/-- C15: compilation succeeds whenever every node below the outputs is of a supported type and
every sum and product has an operand. -/
theorem C15_compiles (G : Graph C) (sys : Sys)
    (h : ∀ f ∈ sys.tops, ∀ j, Below G f j → Supported G j) : ∃ p, compile G sys = some p := by
  obtain ⟨s6, h6⟩ := visitAll_isSome sys.functions
    (fun f hf => h f (by simp [Sys.tops, hf]))
    (if sys.path.isSome then ((((CState.init : CState C).reserve sys.vars).reserve
      sys.path.toList).reserve sys.functions).reserve sys.dx |>.reserve sys.dt
     else ((((CState.init : CState C).reserve sys.vars).reserve sys.path.toList).reserve
      sys.functions).reserve sys.dx)
  obtain ⟨s7, h7⟩ := visitAll_isSome sys.dx (fun f hf => h f (by simp [Sys.tops, hf])) s6
  obtain ⟨s8, h8⟩ := visitAll_isSome (G := G) (if sys.path.isSome then sys.dt else [])
    (fun f hf => h f (by simp only [Sys.tops, List.mem_append]; exact .inr hf)) s7
  simp only [compile, h6, h7, h8, Option.bind_eq_bind, Option.bind_some]
  exact ⟨_, rfl⟩

/-! ### Double precision

`FreshEval_d` for sums and products starts from 0 and 1 (`arithmetic.cpp:377-394`, `873-891`)
instead of from the first operand. -/

/-- `SumOperator::FreshEval_d`, `MultOperator::FreshEval_d`. -/
def loopDbl (A : Arith C V) (opT opF : BinOp) (start : V) (l : List (Bool × V)) : V :=
  l.foldl (fun acc p => A.bin (if p.1 then opT else opF) acc p.2) start

/-- The value of a node as the `FreshEval_d` methods compute it. -/
def valueDbl (G : Graph C) (A : Arith C V) (zero : V) (x : ℕ → V) (i : ℕ) : V :=
  let v (j : ℕ) : V := if _h : j < i then valueDbl G A zero x j else x j
  match G.cell i with
  | .sum ops => loopDbl A .add .sub zero (ops.map fun o => (o.1, v o.2))
  | .mult ops => loopDbl A .mul .div (A.ofNum 1) (ops.map fun o => (o.1, v o.2))
  | _ => valueWith G A x v i
termination_by i

/-- C15 for `dbl`: where `0 + a = a`, `0 - a = -a` and `1 * a = a` hold (exact arithmetic, or IEEE
away from signed zeros, infinities and NaN), the tree evaluation in `dbl` and the order of
operations of the straight-line program give the same value. -/
theorem C15_double (G : Graph C) (A : Arith C V) (zero : V) (x : ℕ → V)
    (h0 : ∀ a, A.bin .add zero a = a) (h1 : ∀ a, A.bin .sub zero a = A.un .neg a)
    (h2 : ∀ a, A.bin .mul (A.ofNum 1) a = a) (i : ℕ)
    (hs : ∀ j, Below G i j → Supported G j) :
    valueDbl G A zero x i = value G A x i := by
  induction i using Nat.strong_induction_on with
  | _ i ih =>
  have hop : ∀ j ∈ (G.cell i).operands, (if _h : j < i then valueDbl G A zero x j else x j) =
      value G A x j := by
    intro j hj
    rw [dif_pos (G.acyclic i j hj)]
    exact ih j (G.acyclic i j hj) fun k hk => hs k (.step hj hk)
  have hsup := hs i (.refl i)
  unfold Supported at hsup
  rw [valueDbl, value_eq]
  cases hc : G.cell i with
  | sum ops =>
    simp only [hc] at hsup
    simp only [valueWith, hc]
    have e : (ops.map fun o => (o.1, if _h : o.2 < i then valueDbl G A zero x o.2 else x o.2)) =
        ops.map fun o => (o.1, value G A x o.2) :=
      List.map_congr_left fun o ho => by
        rw [hop o.2 (by rw [hc]; exact List.mem_map_of_mem ho)]
    rw [e]
    match ops, hsup with
    | (b, j) :: r, _ => cases b <;> simp [loopDbl, sumMp, h0, h1]
  | mult ops =>
    simp only [hc] at hsup
    simp only [valueWith, hc]
    have e : (ops.map fun o => (o.1, if _h : o.2 < i then valueDbl G A zero x o.2 else x o.2)) =
        ops.map fun o => (o.1, value G A x o.2) :=
      List.map_congr_left fun o ho => by
        rw [hop o.2 (by rw [hc]; exact List.mem_map_of_mem ho)]
    rw [e]
    match ops, hsup with
    | (b, j) :: r, _ => cases b <;> simp [loopDbl, multMp, h2]
  | _ => exact valueWith_congr G A x i hop

/-! ### Where C15 fails -/

/-- Integer arithmetic, for examples. -/
def intArith : Arith ℤ ℤ where
  ofNum c := c
  bin
    | .add => (· + ·)
    | .sub => (· - ·)
    | .mul => (· * ·)
    | .div => (· / ·)
    | .pow => fun a b => a ^ b.toNat
  un
    | .neg => fun a => -a
    | _ => fun a => a
  ipow a k := a ^ k.toNat

/-- Nodes: 0 = `x`, 1 = function `g = x`, 2 = function `f = g`, 3 = the number 1,
4 and 5 = derivatives, 6 = another variable `y`, 7 = function `y`, 8 = its derivative 0. -/
def exGraph : Graph ℤ where
  cell
    | 1 => .fn 0
    | 2 => .fn 1
    | 3 => .num 1
    | 4 => .fn 3
    | 5 => .fn 3
    | 7 => .fn 6
    | 8 => .fn 3
    | _ => .var
  acyclic := by
    intro i j hj
    match i with
    | 0 => simp [Cell.operands] at hj
    | 1 => simp [Cell.operands] at hj; omega
    | 2 => simp [Cell.operands] at hj; omega
    | 3 => simp [Cell.operands] at hj
    | 4 => simp [Cell.operands] at hj; omega
    | 5 => simp [Cell.operands] at hj; omega
    | 6 => simp [Cell.operands] at hj
    | 7 => simp [Cell.operands] at hj; omega
    | 8 => simp [Cell.operands] at hj; omega
    | _ + 9 => simp [Cell.operands] at hj

/-- Compiling evaluates by unfolding. -/
theorem visit_fn_known {G : Graph C} {f n l lf : ℕ} {s : CState C} (hf : G.cell f = .fn n)
    (hn : s.loc n = some l) (hlf : s.loc f = some lf) :
    visit G f s = some (s.emit (.assign l lf)) := by
  rw [visit_eq]
  simp [visitWith, hf, ensure, hn, CState.getLoc, hlf]

/-- Same, when the entry node is a number met for the first time. -/
theorem visit_fn_num {G : Graph C} {f n lf : ℕ} {c : C} {s : CState C} (hf : G.cell f = .fn n)
    (hc : G.cell n = .num c) (hn : s.loc n = none) (hlf : s.loc f = some lf) :
    visit G f s = some (((s.addNum c).setLoc n s.next).emit (.assign s.next lf)) := by
  have hfn : f ≠ n := by rintro rfl; rw [hf] at hc; cases hc
  have v : visit G n s = some ((s.addNum c).setLoc n s.next) := by
    rw [visit_eq]; simp [visitWith, hc]
  rw [visit_eq]
  have h1 : ((s.addNum c).setLoc n s.next).loc n = some s.next := by simp [CState.setLoc]
  have h2 : ((s.addNum c).setLoc n s.next).loc f = some lf := by
    simp [CState.setLoc, CState.addNum, hfn, hlf]
  simp [visitWith, hf, ensure, hn, v, CState.getLoc, h1, h2]

/-- Same, when the entry node is a variable that was never recorded: location 0 is used. -/
theorem visit_fn_foreign {G : Graph C} {f n lf : ℕ} {s : CState C} (hf : G.cell f = .fn n)
    (hc : G.cell n = .var) (hn : s.loc n = none) (hlf : s.loc f = some lf) :
    visit G f s = some ((s.setLoc n 0).emit (.assign 0 lf)) := by
  have hfn : f ≠ n := by rintro rfl; rw [hf] at hc; cases hc
  have v : visit G n s = some s := by rw [visit_eq]; simp [visitWith, hc]
  have h2 : (s.setLoc n 0).loc f = some lf := by simp [CState.setLoc, hfn, hlf]
  rw [visit_eq]
  simp [visitWith, hf, ensure, hn, v, CState.getLoc, h2]

/-- A system compiled with no path variable, from its list of visits. -/
theorem compile_noPath {G : Graph C} {vars fs dx : List ℕ} {s s' : CState C}
    (h1 : visitAll G fs ((((CState.init : CState C).reserve vars).reserve fs).reserve dx) = some s)
    (h2 : visitAll G dx s = some s') :
    compile G ⟨vars, none, fs, dx, []⟩ = some
      { numVars := vars.length, hasPath := false, numFunctions := fs.length, varBase := 0,
        timeLoc := 0, fnBase := vars.length, jacBase := vars.length + fs.length,
        dtBase := 0, size := s'.next, ints := s'.ints, nums := s'.nums, instrs := s'.code } := by
  have e1 := (reserve_fields (CState.init : CState C) vars).1
  have e2 := (reserve_fields ((CState.init : CState C).reserve vars) fs).1
  have e0 : (CState.init : CState C).next = 0 := rfl
  rw [e0, Nat.zero_add] at e1
  rw [e1] at e2
  simp only [compile, Option.toList_none, Option.isSome_none, Bool.false_eq_true, if_false]
  have h0 : ∀ s : CState C, s.reserve [] = s := fun _ => rfl
  have h3 : ∀ s : CState C, visitAll G [] s = some s := fun _ => rfl
  simp only [h0, h1, h2, h3, Option.bind_eq_bind, Option.bind_some, e1, e2]

theorem exGraph_shape (sys : Sys) (h1 : ∀ v ∈ sys.inputs, v = 0)
    (h2 : ∀ f ∈ sys.tops, f = 1 ∨ f = 2 ∨ f = 4 ∨ f = 5 ∨ f = 7 ∨ f = 8)
    (h3 : sys.inputs.Nodup) (h4 : (sys.dx ++ sys.dt).Nodup) : sys.Shape exGraph := by
  refine ⟨fun v hv => ?_, fun f hf => ?_, h3, h4⟩
  · rw [h1 v hv]; rfl
  · rcases h2 f hf with rfl | rfl | rfl | rfl | rfl | rfl <;> exact ⟨_, rfl⟩

theorem exGraph_values (A : Arith ℤ ℤ) (x : ℕ → ℤ) : value exGraph A x 1 = x 0 ∧
    value exGraph A x 2 = x 0 ∧ value exGraph A x 7 = x 6 := by
  have v : ∀ i, exGraph.cell i = .var → value exGraph A x i = x i := by
    intro i h; rw [value_eq]; simp [valueWith, h]
  have f : ∀ i n, exGraph.cell i = .fn n → value exGraph A x i =
      value exGraph A x n := by
    intro i n h; rw [value_eq]; simp [valueWith, h]
  refine ⟨?_, ?_, ?_⟩
  · rw [f 1 0 rfl, v 0 rfl]
  · rw [f 2 1 rfl, f 1 0 rfl, v 0 rfl]
  · rw [f 7 6 rfl, v 6 rfl]

/-- A system of the basic shape that compiles and runs, with a wrong function value. -/
def WrongFunction (G : Graph ℤ) (sys : Sys) : Prop :=
  ∃ (p : Prog ℤ) (x : ℕ → ℤ) (old m : Mem ℤ) (i : ℕ) (h : i < sys.functions.length),
    sys.Shape G ∧ compile G sys = some p ∧ runOn intArith p sys x old = some m ∧
    p.func m i ≠ value G intArith x sys.functions[i]

/-- `f = g, g = x` with `f` added before `g`: `f` is copied from the location of `g` before `g`
is computed. -/
theorem C15_forward_reference_refuted : WrongFunction exGraph ⟨[0], none, [2, 1], [4, 5], []⟩ := by
  set s0 := (((CState.init : CState ℤ).reserve [0]).reserve [2, 1]).reserve [4, 5] with hs0
  have v2 : visit exGraph 2 s0 = some (s0.emit (.assign 2 1)) := visit_fn_known rfl rfl rfl
  have v1 : visit exGraph 1 (s0.emit (.assign 2 1)) =
      some ((s0.emit (.assign 2 1)).emit (.assign 0 2)) := visit_fn_known rfl rfl rfl
  set s1 := (s0.emit (.assign 2 1)).emit (.assign 0 2) with hs1
  have v4 : visit exGraph 4 s1 = some (((s1.addNum 1).setLoc 3 s1.next).emit (.assign 5 3)) :=
    visit_fn_num (n := 3) rfl rfl rfl rfl
  have v5 : visit exGraph 5 (((s1.addNum 1).setLoc 3 s1.next).emit (.assign 5 3)) = some
      ((((s1.addNum 1).setLoc 3 s1.next).emit (.assign 5 3)).emit (.assign 5 4)) :=
    visit_fn_known (n := 3) rfl rfl rfl
  have hcomp := compile_noPath (G := exGraph) (vars := [0]) (fs := [2, 1]) (dx := [4, 5])
    (s := s1) (s' := (((s1.addNum 1).setLoc 3 s1.next).emit (.assign 5 3)).emit (.assign 5 4))
    (by simp [visitAll, ← hs0, v2, v1, hs1]) (by simp [visitAll, v4, v5])
  refine ⟨_, fun _ => 5, fun _ => 0,
    fun l => if l = 0 then 5 else if l = 1 then 0 else if l = 2 then 5 else
      if l = 3 then 1 else if l = 4 then 1 else if l = 5 then 1 else 0,
    0, by simp, ?_, hcomp, ?_, ?_⟩
  · exact exGraph_shape _ (by simp [Sys.inputs]) (by simp [Sys.tops]) (by decide) (by decide)
  · simp only [runOn, Prog.flat, runFlat_flat, Option.bind_eq_bind, Option.bind_some,
      Option.some.injEq]
    funext l
    simp [exec, Instr.exec, Mem.set, hs1, hs0, CState.emit, CState.setLoc, CState.addNum,
      CState.reserve, CState.bump, CState.init, Prog.setVars, loadNums, intArith, List.range_succ]
    split_ifs <;> simp_all
  · rw [show ((⟨[0], none, [2, 1], [4, 5], []⟩ : Sys).functions[0]) = 2 from rfl,
      (exGraph_values _ _).2.1]
    simp [Prog.func]

/-- The same function added twice: the first output is never written. -/
theorem C15_duplicate_function_refuted : WrongFunction exGraph ⟨[0], none, [1, 1], [4, 5], []⟩ := by
  set s0 := (((CState.init : CState ℤ).reserve [0]).reserve [1, 1]).reserve [4, 5] with hs0
  have v1 : visit exGraph 1 s0 = some (s0.emit (.assign 0 2)) := visit_fn_known rfl rfl rfl
  have v1' : visit exGraph 1 (s0.emit (.assign 0 2)) =
      some ((s0.emit (.assign 0 2)).emit (.assign 0 2)) := visit_fn_known rfl rfl rfl
  set s1 := (s0.emit (.assign 0 2)).emit (.assign 0 2) with hs1
  have v4 : visit exGraph 4 s1 = some (((s1.addNum 1).setLoc 3 s1.next).emit (.assign 5 3)) :=
    visit_fn_num (n := 3) rfl rfl rfl rfl
  have v5 : visit exGraph 5 (((s1.addNum 1).setLoc 3 s1.next).emit (.assign 5 3)) = some
      ((((s1.addNum 1).setLoc 3 s1.next).emit (.assign 5 3)).emit (.assign 5 4)) :=
    visit_fn_known (n := 3) rfl rfl rfl
  have hcomp := compile_noPath (G := exGraph) (vars := [0]) (fs := [1, 1]) (dx := [4, 5])
    (s := s1) (s' := (((s1.addNum 1).setLoc 3 s1.next).emit (.assign 5 3)).emit (.assign 5 4))
    (by simp [visitAll, ← hs0, v1, v1', hs1]) (by simp [visitAll, v4, v5])
  refine ⟨_, fun _ => 5, fun _ => 0,
    fun l => if l = 0 then 5 else if l = 1 then 0 else if l = 2 then 5 else
      if l = 3 then 1 else if l = 4 then 1 else if l = 5 then 1 else 0,
    0, by simp, ?_, hcomp, ?_, ?_⟩
  · exact exGraph_shape _ (by simp [Sys.inputs]) (by simp [Sys.tops]) (by decide) (by decide)
  · simp only [runOn, Prog.flat, runFlat_flat, Option.bind_eq_bind, Option.bind_some,
      Option.some.injEq]
    funext l
    simp [exec, Instr.exec, Mem.set, hs1, hs0, CState.emit, CState.setLoc, CState.addNum,
      CState.reserve, CState.bump, CState.init, Prog.setVars, loadNums, intArith, List.range_succ]
    split_ifs <;> simp_all
  · rw [show ((⟨[0], none, [1, 1], [4, 5], []⟩ : Sys).functions[0]) = 1 from rfl,
      (exGraph_values _ _).1]
    simp [Prog.func]

/-- A function of a variable that belongs to no variable group: the compiler silently uses the
first variable instead. -/
theorem C15_foreign_variable_refuted : WrongFunction exGraph ⟨[0], none, [7], [8], []⟩ := by
  set s0 := (((CState.init : CState ℤ).reserve [0]).reserve [7]).reserve [8] with hs0
  have v7 : visit exGraph 7 s0 = some ((s0.setLoc 6 0).emit (.assign 0 1)) :=
    visit_fn_foreign rfl rfl rfl rfl
  set s1 := (s0.setLoc 6 0).emit (.assign 0 1) with hs1
  have v8 : visit exGraph 8 s1 = some (((s1.addNum 1).setLoc 3 s1.next).emit (.assign 3 2)) :=
    visit_fn_num (n := 3) rfl rfl rfl rfl
  have hcomp := compile_noPath (G := exGraph) (vars := [0]) (fs := [7]) (dx := [8])
    (s := s1) (s' := ((s1.addNum 1).setLoc 3 s1.next).emit (.assign 3 2))
    (by simp [visitAll, ← hs0, v7]) (by simp [visitAll, v8])
  refine ⟨_, fun i => if i = 6 then 7 else 5, fun _ => 0,
    fun l => if l = 0 then 5 else if l = 1 then 5 else if l = 2 then 1 else
      if l = 3 then 1 else 0,
    0, by simp, ?_, hcomp, ?_, ?_⟩
  · exact exGraph_shape _ (by simp [Sys.inputs]) (by simp [Sys.tops]) (by decide) (by decide)
  · simp only [runOn, Prog.flat, runFlat_flat, Option.bind_eq_bind, Option.bind_some,
      Option.some.injEq]
    funext l
    simp [exec, Instr.exec, Mem.set, hs1, hs0, CState.emit, CState.setLoc, CState.addNum,
      CState.reserve, CState.bump, CState.init, Prog.setVars, loadNums, intArith, List.range_succ]
    split_ifs <;> simp_all
  · rw [show ((⟨[0], none, [7], [8], []⟩ : Sys).functions[0]) = 7 from rfl,
      (exGraph_values _ _).2.2]
    simp [Prog.func]

/-- The full C15 is false. -/
theorem C15_compile_refuted : ¬ C15_full := by
  intro H
  obtain ⟨p, x, old, m, i, hi, hs, hc, hr, hne⟩ := C15_forward_reference_refuted
  obtain ⟨m', hr', hf, -⟩ := (H ℤ ℤ exGraph intArith _ p hs hc).outputs x old
  rw [hr, Option.some.injEq] at hr'
  subst hr'
  exact hne (hf i hi)

/-- The system `g = x, f = g` on `exGraph`. -/
def exSys : Sys := ⟨[0], none, [1, 2], [4, 5], []⟩

theorem exSys_shape : exSys.Shape exGraph :=
  exGraph_shape _ (by simp [exSys, Sys.inputs]) (by simp [exSys, Sys.tops]) (by decide) (by decide)

theorem exSys_ordered : exSys.Ordered exGraph := by
  have below : ∀ f j, Below exGraph f j → f ≤ 5 → (f = 1 ∨ f = 2 → j ≤ f) ∧
      (f = 4 ∨ f = 5 → j = f ∨ j = 3) ∧ j ≤ 5 := by
    intro f j h hf
    have hle := below_le h
    refine ⟨fun _ => hle, fun h45 => ?_, by omega⟩
    cases h with
    | refl => exact .inl rfl
    | step hm hk =>
      right
      have h3 : ∀ k, Below exGraph 3 k → k = 3 := by
        intro k hk
        cases hk with
        | refl => rfl
        | step hm _ => simp [exGraph, Cell.operands] at hm
      rcases h45 with rfl | rfl <;>
      · simp [exGraph, Cell.operands] at hm; subst hm; exact h3 _ hk
  refine ⟨by decide, ?_, ?_⟩
  · intro f hf j hj hc
    simp [exSys, Sys.tops] at hf
    have := (below f j hj (by omega)).2.2
    interval_cases j <;> simp_all [exGraph, exSys, Sys.inputs]
  · intro pre f post he j hj hmem
    have hf : f ∈ [1, 2, 4, 5] := by
      have : f ∈ exSys.tops := by rw [he]; simp
      simpa [exSys, Sys.tops] using this
    have he' : [1, 2, 4, 5] = pre ++ f :: post := by simpa [exSys, Sys.tops] using he
    have hb := below f j hj (by simp at hf; omega)
    have hlt : ∀ k ∈ post, f < k := by
      have : List.Pairwise (· < ·) (pre ++ f :: post) := by rw [← he']; decide
      rw [List.pairwise_append] at this
      exact (List.pairwise_cons.1 this.2.1).1
    have := hlt j hmem
    have := below_le hj
    omega

theorem exSys_compiles : ∃ p, compile exGraph exSys = some p :=
  C15_compiles exGraph exSys (by
    intro f _ j _
    unfold Supported
    match j with
    | 0 | 1 | 2 | 3 | 4 | 5 | 6 | 7 | 8 => simp [exGraph]
    | _ + 9 => simp [exGraph])

/-- Non-vacuity of the partial theorem: `g = x, f = g` in this order satisfies the hypotheses. -/
example : ∃ p, compile exGraph exSys = some p ∧ Correct exGraph intArith exSys p := by
  obtain ⟨p, hp⟩ := exSys_compiles
  exact ⟨p, hp, C15_compile_correct_partial exGraph intArith _ p exSys_shape exSys_ordered hp⟩

/-! ### C16 -/

/-- C16, full statement. -/
def C16_full : Prop :=
  ∀ (C : Type) [One C] (G : Graph C) (sys : Sys) (p : Prog C),
    sys.Shape G → compile G sys = some p →
    (∀ R : Finset ℕ, (∀ f ∈ sys.tops, ∀ i, Below G f i → i ∈ R) →
      p.instrs.length ≤ ∑ i ∈ R, (G.cell i).operands.length) ∧
    (p.instrs.map Instr.out).Nodup

theorem Below.trans {G : Graph C} {i j k : ℕ} (h : Below G i j) (h' : Below G j k) :
    Below G i k := by
  induction h with
  | refl => exact h'
  | step hm _ ih => exact .step hm (ih h')

/-- C16: the number of instructions is at most the number of operand edges of the distinct nodes
reachable from the outputs (`R` is any set containing them), and no location is written twice; nor
is an input or a number ever overwritten, and numbers have distinct locations. For every system
whose functions are distinct objects (missing from `C16_full`: the same function added twice). -/
theorem C16_instructions_partial (G : Graph C) (sys : Sys) (p : Prog C) (hs : sys.Shape G)
    (hnd : (sys.inputs ++ sys.tops).Nodup) (hp : compile G sys = some p) :
    (∀ R : Finset ℕ, (∀ f ∈ sys.tops, ∀ i, Below G f i → i ∈ R) →
      p.instrs.length ≤ ∑ i ∈ R, (G.cell i).operands.length) ∧
    (p.instrs.map Instr.out).Nodup ∧ (p.nums.map Prod.snd).Nodup ∧
    ∀ c ∈ p.instrs, sys.inputs.length ≤ c.out ∧ ∀ q ∈ p.nums, c.out ≠ q.2 := by
  obtain ⟨s, hvis, e1, e2, e3, e4, -⟩ := compile_some hp
  obtain ⟨vis, hcnt⟩ := visitAll_cnt (G := G) (R := fun i => ∃ f ∈ sys.tops, Below G f i)
    (N := sys.inputs.length)
    (fun i ⟨f, hf, hi⟩ j hj => ⟨f, hf, hi.trans (.step hj (.refl j))⟩)
    sys.tops [] [] _ s (by rw [List.append_nil]; exact (List.nodup_append.1 hnd).2.1) hs.topsFn
    (fun f hf => ⟨f, hf, .refl f⟩)
    (by rw [List.append_nil]; exact initial_cnt G _ sys hnd) hvis
  refine ⟨fun R hR => ?_, by rw [e4]; exact hcnt.outNodup, by rw [e3]; exact hcnt.numNodup, ?_⟩
  · rw [e4]
    have h1 := hcnt.count
    rw [Nat.add_zero] at h1
    refine h1.trans ?_
    have h2 : (vis.map (edges G)).sum = ∑ i ∈ vis.toFinset, edges G i :=
      (List.sum_toFinset _ hcnt.nodup).symm
    rw [h2]
    refine Finset.sum_le_sum_of_subset (fun i hi => ?_)
    obtain ⟨f, hf, hb⟩ := (hcnt.mem i (List.mem_toFinset.1 hi)).2.2
    exact hR f hf i hb
  · rw [e3, e4]
    exact fun c hc => ⟨(hcnt.outLt c hc).2, fun q hq => (hcnt.num q hq).2.2 c hc⟩

/-- Adding the same function twice writes its location twice. -/
theorem C16_refuted : ¬ C16_full := by
  intro H
  set s0 := (((CState.init : CState ℤ).reserve [0]).reserve [1, 1]).reserve [4, 5] with hs0
  have v1 : visit exGraph 1 s0 = some (s0.emit (.assign 0 2)) := visit_fn_known rfl rfl rfl
  have v1' : visit exGraph 1 (s0.emit (.assign 0 2)) =
      some ((s0.emit (.assign 0 2)).emit (.assign 0 2)) := visit_fn_known rfl rfl rfl
  set s1 := (s0.emit (.assign 0 2)).emit (.assign 0 2) with hs1
  have v4 : visit exGraph 4 s1 = some (((s1.addNum 1).setLoc 3 s1.next).emit (.assign 5 3)) :=
    visit_fn_num (n := 3) rfl rfl rfl rfl
  have v5 : visit exGraph 5 (((s1.addNum 1).setLoc 3 s1.next).emit (.assign 5 3)) = some
      ((((s1.addNum 1).setLoc 3 s1.next).emit (.assign 5 3)).emit (.assign 5 4)) :=
    visit_fn_known (n := 3) rfl rfl rfl
  have hcomp := compile_noPath (G := exGraph) (vars := [0]) (fs := [1, 1]) (dx := [4, 5])
    (s := s1) (s' := (((s1.addNum 1).setLoc 3 s1.next).emit (.assign 5 3)).emit (.assign 5 4))
    (by simp [visitAll, ← hs0, v1, v1', hs1]) (by simp [visitAll, v4, v5])
  have h := (H ℤ exGraph _ _ (exGraph_shape _ (by simp [Sys.inputs]) (by simp [Sys.tops])
    (by decide) (by decide)) hcomp).2
  have e : s0.code = [] := rfl
  simp [hs1, CState.emit, CState.setLoc, CState.addNum, e, Instr.out] at h

/-- Exponential sharing: node `k + 1` is `node k + node k`, so the tree of node `n` has `2 ^ n`
leaves. -/
def doubling (n : ℕ) : Graph ℤ where
  cell i := if i = 0 then .var else if i ≤ n then .sum [(true, i - 1), (true, i - 1)] else
    if i = n + 1 then .fn n else .var
  acyclic := by
    intro i j hj
    by_cases h0 : i = 0
    · simp [h0, Cell.operands] at hj
    · by_cases h1 : i ≤ n
      · simp [h0, h1, Cell.operands] at hj; omega
      · by_cases h2 : i = n + 1
        · simp [h2, Cell.operands] at hj; omega
        · simp [h0, h1, h2, Cell.operands] at hj

/-- Non-vacuity: a function whose tree has `2 ^ n` leaves compiles to at most `2 n + 1`
instructions. -/
example (n : ℕ) (p : Prog ℤ) (hp : compile (doubling n) ⟨[0], none, [n + 1], [], []⟩ = some p) :
    p.instrs.length ≤ 2 * n + 1 := by
  have hs : (⟨[0], none, [n + 1], [], []⟩ : Sys).Shape (doubling n) := by
    refine ⟨by simp [Sys.inputs, doubling], ?_, by simp [Sys.inputs], by simp⟩
    intro f hf
    simp [Sys.tops] at hf
    exact ⟨n, by simp [doubling, hf]⟩
  have h := (C16_instructions_partial (doubling n) _ p hs (by simp [Sys.inputs, Sys.tops]) hp).1
    (Finset.range (n + 2)) (by
      intro f hf i hi
      simp [Sys.tops] at hf
      subst hf
      have := below_le hi
      simp; omega)
  refine h.trans ?_
  rw [Finset.sum_range_succ]
  have h1 : ∑ i ∈ Finset.range (n + 1), ((doubling n).cell i).operands.length ≤ 2 * n := by
    rw [Finset.sum_range_succ']
    have h0 : ((doubling n).cell 0).operands.length = 0 := by simp [doubling, Cell.operands]
    rw [h0, Nat.add_zero]
    calc ∑ i ∈ Finset.range n, ((doubling n).cell (i + 1)).operands.length
        ≤ ∑ _i ∈ Finset.range n, 2 := Finset.sum_le_sum fun i hi => by
          have : i + 1 ≤ n := Finset.mem_range.1 hi
          simp [doubling, Cell.operands, this]
      _ = 2 * n := by simp; omega
  have h2 : ((doubling n).cell (n + 1)).operands.length = 1 := by
    simp [doubling, Cell.operands]
  omega

end B2.SLP
