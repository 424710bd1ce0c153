import Verif.SLP.Runtime

/-!
# C17: evaluations reflect the inputs in force
-/

namespace B2.SLP

set_option linter.unusedSectionVars false

variable {C V W : Type} [One C]

/-- C17, full statement: after any history, evaluating in either number type gives the values of
the expression trees at the inputs (and constants and precision) in force. `P` restricts the
histories. -/
def C17_for (P : ∀ {C V W : Type}, Op C V W → Prop) : Prop :=
  ∀ (C V W : Type) [One C] (G : Graph C) (sys : Sys) (p : Prog C) (N : Num C V W) (prec : ℕ)
    (num : C → W) (d : Mem V) (m : Mem W) (h : List (Op C V W)), (∀ o ∈ h, P o) →
    sys.Shape G → sys.Ordered G → compile G sys = some p →
    let i := h.foldl (Inputs.step N.round sys.vars.length sys.path.isSome)
      ⟨d, m, fun c => N.round prec (num c), prec⟩
    let s := (RT.start N p prec num d m).run N p h
    Outputs G N.dbl sys p i.inD (s.step N p .evalD).memD ∧
    Outputs G (N.mpNow i) sys p i.inM (s.step N p .evalM).memM

/-- C17, full statement: all histories. -/
def C17_full : Prop := C17_for fun _ => True

/-- What the single flag knows: nothing is computed (`fresh`), the outputs were computed in one of
the types and are current, or outdated outputs are marked as evaluated (`lost`). -/
inductive Phase
  | fresh | doneD | doneM | lost
deriving DecidableEq

/-- The phase after a call made at precision `prec`; `path` tells whether the system has a path
variable. Only an accepted set makes the state `fresh` again. -/
def Phase.step (path : Bool) (prec : ℕ) (f : Phase) : Op C V W → Phase
  | .setVarsD _ => .fresh
  | .setVarsM q _ => if q = prec then .fresh else f
  | .setPathD _ => if path then .fresh else f
  | .setPathM q _ => if (q = 16 ∨ q = prec) ∧ path = true then .fresh else f
  | .precision q _ => if q = prec then f else match f with
    | .doneM => .lost
    | f => f
  | .evalD => match f with
    | .fresh => .doneD
    | f => f
  | .evalM => match f with
    | .fresh => .doneM
    | f => f

/-- Inputs and phase along a history. -/
def track (N : Num C V W) (sys : Sys) (i : Inputs C V W) (f : Phase) :
    List (Op C V W) → Inputs C V W × Phase
  | [] => (i, f)
  | o :: h => track N sys (Inputs.step N.round sys.vars.length sys.path.isSome i o)
      (Phase.step sys.path.isSome i.prec f o) h

theorem track_inputs (N : Num C V W) (sys : Sys) (i : Inputs C V W) (f : Phase)
    (h : List (Op C V W)) : (track N sys i f h).1 =
      h.foldl (Inputs.step N.round sys.vars.length sys.path.isSome) i := by
  induction h generalizing i f with
  | nil => rfl
  | cons o h ih => rw [track, ih]; rfl

/-- The invariant. -/
structure Good (G : Graph C) (N : Num C V W) (sys : Sys) (p : Prog C) (s : RT V W)
    (i : Inputs C V W) (f : Phase) : Prop where
  prec : s.prec = i.prec
  flag : s.evaluated = false ↔ f = .fresh
  inD : ∀ k < sys.inputs.length, s.memD k = i.inD k
  inM : ∀ k < sys.inputs.length, s.memM k = i.inM k
  numD : ∀ q ∈ p.nums, s.memD q.2 = N.dbl.ofNum q.1
  numM : ∀ q ∈ p.nums, s.memM q.2 = i.num q.1
  outD : f = .doneD → Outputs G N.dbl sys p i.inD s.memD
  outM : f = .doneM → Outputs G (N.mpNow i) sys p i.inM s.memM

variable {G : Graph C} {sys : Sys} {p : Prog C} {N : Num C V W} {s : RT V W} {i : Inputs C V W}
  {f : Phase}

theorem Good.evalM_run (hc : Compiled G sys p) (hg : Good G N sys p s i f)
    (he : s.evaluated = false) : ∃ m, s.step N p .evalM = { s with memM := m, evaluated := true } ∧
      Outputs G (N.mpNow i) sys p i.inM m ∧ (∀ k < sys.inputs.length, m k = i.inM k) ∧
      ∀ q ∈ p.nums, m q.2 = i.num q.1 := by
  obtain ⟨h1, h2, h3⟩ := hc.exec_outputs (N.mpNow i) i.inM s.memM hg.inM hg.numM
  refine ⟨_, ?_, h1, h2, h3⟩
  simp only [RT.step, he, Bool.false_eq_true, if_false, Prog.flat, runFlat_flat]
  rw [exec_arith (N.mp s.prec) (N.mpNow i)] <;> simp [Num.mpNow, hg.prec]

theorem Good.evalD_run (hc : Compiled G sys p) (hg : Good G N sys p s i f)
    (he : s.evaluated = false) : ∃ m, s.step N p .evalD = { s with memD := m, evaluated := true } ∧
      Outputs G N.dbl sys p i.inD m ∧ (∀ k < sys.inputs.length, m k = i.inD k) ∧
      ∀ q ∈ p.nums, m q.2 = N.dbl.ofNum q.1 := by
  obtain ⟨h1, h2, h3⟩ := hc.exec_outputs N.dbl i.inD s.memD hg.inD hg.numD
  refine ⟨_, ?_, h1, h2, h3⟩
  simp only [RT.step, he, Bool.false_eq_true, if_false, Prog.flat, runFlat_flat]

theorem Good.step (hc : Compiled G sys p) (hg : Good G N sys p s i f) (o : Op C V W) :
    Good G N sys p (s.step N p o) (i.step N.round sys.vars.length sys.path.isSome o)
      (f.step sys.path.isSome i.prec o) := by
  have hlen := Compiled.inputs_length sys
  have hvl : sys.vars.length ≤ sys.inputs.length := by omega
  cases o with
  | setVarsD x =>
    obtain ⟨h1, h2⟩ := hc.setVars x s.memD
    refine ⟨hg.prec, by simp [RT.step, Phase.step], ?_, hg.inM, ?_, hg.numM, by simp [Phase.step],
      by simp [Phase.step]⟩
    · intro k hk
      simp only [RT.step, Inputs.step]
      split_ifs with h
      · exact h1 k h
      · rw [h2 k (by omega), hg.inD k hk]
    · intro q hq
      simp only [RT.step]
      rw [h2 _ (le_trans hvl (hc.numGe q hq)), hg.numD q hq]
  | setVarsM q x =>
    by_cases hq : q = i.prec
    · obtain ⟨h1, h2⟩ := hc.setVars x s.memM
      have hq' : q = s.prec := by rw [hg.prec, hq]
      simp only [RT.step, Inputs.step, Phase.step, if_pos hq, if_pos hq']
      refine ⟨hg.prec, by simp, hg.inD, ?_, hg.numD, ?_, by simp, by simp⟩
      · intro k hk
        dsimp only
        split_ifs with h
        · exact h1 k h
        · rw [h2 k (by omega), hg.inM k hk]
      · intro a ha
        dsimp only
        rw [h2 _ (le_trans hvl (hc.numGe a ha)), hg.numM a ha]
    · have hq' : ¬ q = s.prec := by rw [hg.prec]; exact hq
      simp only [RT.step, Inputs.step, Phase.step, if_neg hq, if_neg hq']
      exact hg
  | setPathD t =>
    simp only [RT.step, Inputs.step, Phase.step, hc.setPath]
    cases hp : sys.path.isSome with
    | false => simpa using hg
    | true =>
      simp only [if_true]
      refine ⟨hg.prec, by simp, ?_, hg.inM, ?_, hg.numM, by simp, by simp⟩
      · intro k hk
        simp only [Mem.set]
        split_ifs
        · rfl
        · exact hg.inD k hk
      · intro a ha
        have := hc.numGe a ha
        simp only [hp, if_true] at hlen
        simp only [Mem.set]
        rw [if_neg (by omega), hg.numD a ha]
  | setPathM q t =>
    by_cases hq : q = 16 ∨ q = i.prec
    · have hq' : q = 16 ∨ q = s.prec := by rw [hg.prec]; exact hq
      simp only [RT.step, Inputs.step, Phase.step, if_pos hq', hc.setPath]
      cases hp : sys.path.isSome with
      | false => simpa using hg
      | true =>
        simp only [if_true, hq, true_and]
        refine ⟨hg.prec, by simp, hg.inD, ?_, hg.numD, ?_, by simp, by simp⟩
        · intro k hk
          simp only [Mem.set]
          split_ifs
          · rfl
          · exact hg.inM k hk
        · intro a ha
          have := hc.numGe a ha
          simp only [hp, if_true] at hlen
          simp only [Mem.set]
          rw [if_neg (by omega), hg.numM a ha]
    · have hq' : ¬ (q = 16 ∨ q = s.prec) := by rw [hg.prec]; exact hq
      simp only [RT.step, Inputs.step, Phase.step, if_neg hq', hq, false_and, if_false]
      exact hg
  | precision q num =>
    by_cases hq : q = i.prec
    · have hq' : q = s.prec := by rw [hg.prec, hq]
      simp only [RT.step, Inputs.step, Phase.step, if_pos hq, if_pos hq']
      exact hg
    · have hq' : ¬ q = s.prec := by rw [hg.prec]; exact hq
      simp only [RT.step, Inputs.step, Phase.step, if_neg hq, if_neg hq']
      refine ⟨rfl, ?_, hg.inD, ?_, hg.numD, ?_, ?_, ?_⟩
      · rw [hg.flag]; cases f <;> simp
      · intro k hk
        dsimp only
        rw [foldl_set_other, hg.inM k hk]
        intro a ha
        have := hc.numGe a ha
        omega
      · intro a ha
        dsimp only
        rw [foldl_set_mem p.nums Prod.snd (fun a => num a.1) s.memM hc.numNodup ha]
      · intro hf
        have : f = .doneD := by cases f <;> simp_all
        exact hg.outD this
      · intro hf
        cases f <;> simp_all
  | evalD =>
    cases he : s.evaluated with
    | true =>
      have : f ≠ .fresh := by rw [Ne, ← hg.flag, he]; simp
      have e1 : s.step N p .evalD = s := by simp [RT.step, he]
      have e2 : f.step sys.path.isSome i.prec (.evalD : Op C V W) = f := by
        cases f <;> simp_all [Phase.step]
      rw [e1, e2]; exact hg
    | false =>
      have hf := hg.flag.1 he
      obtain ⟨m, e, h1, h2, h3⟩ := hg.evalD_run hc he
      rw [e, hf]
      exact ⟨hg.prec, by simp [Phase.step], h2, hg.inM, h3, hg.numM, fun _ => h1,
        by simp [Phase.step]⟩
  | evalM =>
    cases he : s.evaluated with
    | true =>
      have : f ≠ .fresh := by rw [Ne, ← hg.flag, he]; simp
      have e1 : s.step N p .evalM = s := by simp [RT.step, he]
      have e2 : f.step sys.path.isSome i.prec (.evalM : Op C V W) = f := by
        cases f <;> simp_all [Phase.step]
      rw [e1, e2]; exact hg
    | false =>
      have hf := hg.flag.1 he
      obtain ⟨m, e, h1, h2, h3⟩ := hg.evalM_run hc he
      rw [e, hf]
      exact ⟨hg.prec, by simp [Phase.step], hg.inD, h2, hg.numD, h3, by simp [Phase.step],
        fun _ => h1⟩

theorem Good.run (hc : Compiled G sys p) (h : List (Op C V W)) : ∀ {s i f},
    Good G N sys p s i f → Good G N sys p (s.run N p h) (track N sys i f h).1
      (track N sys i f h).2 := by
  induction h with
  | nil => exact fun hg => hg
  | cons o h ih =>
    intro s i f hg
    rw [track]
    exact ih (hg.step hc o)

theorem good_start (hc : Compiled G sys p) (prec : ℕ) (num : C → W) (d : Mem V) (m : Mem W) :
    Good G N sys p (RT.start N p prec num d m) ⟨d, m, fun c => N.round prec (num c), prec⟩
      .fresh := by
  have hlt : ∀ k < sys.inputs.length, ∀ a ∈ p.nums, a.2 ≠ k := by
    intro k hk a ha
    have := hc.numGe a ha
    omega
  refine ⟨rfl, by simp [RT.start], ?_, ?_, ?_, ?_, by simp, by simp⟩
  · intro k hk
    exact foldl_set_other _ _ _ _ (hlt k hk)
  · intro k hk
    exact foldl_set_other _ _ _ _ (hlt k hk)
  · intro q hq
    exact foldl_set_mem p.nums Prod.snd (fun a => N.dbl.ofNum a.1) d hc.numNodup hq
  · intro q hq
    exact foldl_set_mem p.nums Prod.snd (fun a => N.round prec (num a.1)) m hc.numNodup hq

/-- C17 for every history in which, since the last accepted set, no evaluation in the other number
type and (for multiple precision) no precision change after an evaluation occurred: `track`'s
phase. Missing from `C17_full`: exactly those histories, for which it is false. -/
theorem C17_current_partial (G : Graph C) (sys : Sys) (p : Prog C) (N : Num C V W) (prec : ℕ)
    (num : C → W) (d : Mem V) (m : Mem W) (h : List (Op C V W)) (hs : sys.Shape G)
    (ho : sys.Ordered G) (hp : compile G sys = some p) :
    let i0 : Inputs C V W := ⟨d, m, fun c => N.round prec (num c), prec⟩
    let i := h.foldl (Inputs.step N.round sys.vars.length sys.path.isSome) i0
    let s := (RT.start N p prec num d m).run N p h
    let f := (track N sys i0 .fresh h).2
    (f = .fresh ∨ f = .doneD → Outputs G N.dbl sys p i.inD (s.step N p .evalD).memD) ∧
    (f = .fresh ∨ f = .doneM → Outputs G (N.mpNow i) sys p i.inM (s.step N p .evalM).memM) := by
  intro i0 i s f
  have hc := compiled hs ho hp
  have hg : Good G N sys p s i f := by
    have := (good_start (N := N) hc prec num d m).run hc h
    rwa [track_inputs] at this
  constructor
  · rintro (hf | hf)
    · obtain ⟨m, e, h1, -⟩ := hg.evalD_run hc (hg.flag.2 hf)
      rw [e]; exact h1
    · have he : s.evaluated = true := by
        have := hg.flag.not.2 (by rw [hf]; simp)
        simpa using this
      simp only [RT.step, he, if_true]
      exact hg.outD hf
  · rintro (hf | hf)
    · obtain ⟨m, e, h1, -⟩ := hg.evalM_run hc (hg.flag.2 hf)
      rw [e]; exact h1
    · have he : s.evaluated = true := by
        have := hg.flag.not.2 (by rw [hf]; simp)
        simpa using this
      simp only [RT.step, he, if_true]
      exact hg.outM hf

/-- After an accepted set of the variables the next evaluation in either type recomputes, whatever
happened before. -/
theorem C17_after_set (G : Graph C) (sys : Sys) (p : Prog C) (N : Num C V W) (prec : ℕ)
    (num : C → W) (d : Mem V) (m : Mem W) (h : List (Op C V W)) (x : ℕ → V) (hs : sys.Shape G)
    (ho : sys.Ordered G) (hp : compile G sys = some p) :
    let i := (h ++ [Op.setVarsD x]).foldl (Inputs.step N.round sys.vars.length sys.path.isSome)
      ⟨d, m, fun c => N.round prec (num c), prec⟩
    let s := (RT.start N p prec num d m).run N p (h ++ [.setVarsD x])
    Outputs G N.dbl sys p i.inD (s.step N p .evalD).memD ∧
    Outputs G (N.mpNow i) sys p i.inM (s.step N p .evalM).memM := by
  intro i s
  have key := C17_current_partial G sys p N prec num d m (h ++ [.setVarsD x]) hs ho hp
  have hf : ∀ (h : List (Op C V W)) i f,
      (track N sys i f (h ++ [.setVarsD x])).2 = .fresh := by
    intro h
    induction h with
    | nil => intro i f; rfl
    | cons o h ih => intro i f; exact ih _ _
  exact ⟨key.1 (.inl (hf _ _ _)), key.2 (.inl (hf _ _ _))⟩

/-- Evaluating twice without a change gives the same outputs (in fact the second evaluation changes
nothing), in either type. -/
theorem C17_evaluate_twice (p : Prog C) (N : Num C V W) (s : RT V W) :
    (s.step N p .evalD).step N p .evalD = s.step N p .evalD ∧
    (s.step N p .evalM).step N p .evalM = s.step N p .evalM := by
  constructor <;>
  · cases he : s.evaluated <;> simp [RT.step, he, Prog.flat, runFlat_flat]

/-! ### Refutation -/

/-- Numbers of both types are integers; rounding to `q` digits is modelled by capping at `q`. -/
def capNum : Num ℤ ℤ ℤ := ⟨intArith, fun _ => intArith, fun q z => min z q⟩

/-- Calls of either number type, no precision changes. -/
def Op.NoPrecision {C V W : Type} : Op C V W → Prop
  | .precision _ _ => False
  | _ => True

/-- Multiple precision calls only. -/
def Op.OnlyMp {C V W : Type} : Op C V W → Prop
  | .setVarsM _ _ | .setPathM _ _ | .precision _ _ | .evalM => True
  | _ => False

/-- Set the variable in both types, evaluate in double, evaluate in multiple precision: the
multiple precision outputs are not computed, because the flag is shared. -/
theorem C17_two_types_refuted : ¬ C17_for Op.NoPrecision := by
  intro H
  obtain ⟨p, hp⟩ := exSys_compiles
  have hc := compiled exSys_shape exSys_ordered hp
  have key := fun z => (H ℤ ℤ ℤ exGraph exSys p capNum 9 (fun c => c) (fun _ => 0) (fun _ => 0)
    [.setVarsD fun _ => 5, .setVarsM 9 fun _ => z, .evalD] (by simp [Op.NoPrecision])
    exSys_shape exSys_ordered hp).2
  have e : ∀ z, p.func (((RT.start capNum p 9 (fun c => c) (fun _ => 0) (fun _ => 0)).run capNum p
      [.setVarsD fun _ => 5, .setVarsM 9 fun _ => z, .evalD]).step capNum p .evalM).memM 0 =
      (RT.start capNum p 9 (fun c => c) (fun _ => 0) (fun _ => 0)).memM 1 := by
    intro z
    obtain ⟨s, -, -, -, -, -, -, -, -, -, -, hfb, -⟩ := compile_some hp
    have h2 := (hc.setVars (fun _ => z)
      (RT.start capNum p 9 (fun c => c) (fun _ => 0) (fun _ => 0)).memM).2 1 (by decide)
    have h3 : p.fnBase = 1 := hfb
    simp only [Prog.func, h3]
    simp only [RT.run, List.foldl_cons, List.foldl_nil, RT.step, Prog.flat, runFlat_flat]
    simpa [RT.start] using h2
  have v : ∀ z, (RT.start capNum p 9 (fun c => c) (fun _ => 0) (fun _ => 0)).memM 1 = z := by
    intro z
    have h := (key z (fun _ => z) (by intro k hk; have : k = 0 := by
                                        simp [exSys, Sys.inputs] at hk; exact hk
                                      subst this; rfl)).1 0 (by decide)
    rw [e z] at h
    rw [h]
    exact (exGraph_values _ (fun _ => z)).1
  have := (v 0).symm.trans (v 1)
  omega

/-- The system `f = x + x` on `doubling 1`. -/
def dblSys : Sys := ⟨[0], none, [2], [], []⟩

theorem dblSys_shape : dblSys.Shape (doubling 1) :=
  ⟨by simp [dblSys, Sys.inputs, doubling], by simp [dblSys, Sys.tops, doubling],
    by simp [dblSys, Sys.inputs], by simp [dblSys]⟩

theorem dblSys_ordered : dblSys.Ordered (doubling 1) := by
  refine ⟨by decide, ?_, ?_⟩
  · intro f hf j hj hc
    simp [dblSys, Sys.tops] at hf
    subst hf
    have := below_le hj
    interval_cases j <;> simp_all [doubling, dblSys, Sys.inputs]
  · intro pre f post he j hj hmem
    have : post = [] := by
      have h := congrArg List.length he
      simp [dblSys, Sys.tops] at h
      exact List.eq_nil_of_length_eq_zero (by omega)
    simp [this] at hmem

theorem dblSys_compiles : ∃ p, compile (doubling 1) dblSys = some p := by
  refine C15_compiles _ _ ?_
  intro f hf j hj
  simp [dblSys, Sys.tops] at hf
  subst hf
  have := below_le hj
  interval_cases j <;> simp [Supported, doubling]

/-- Multiple precision only: set, evaluate, change the precision, evaluate. The outputs are the
rounded old outputs, not recomputed from the rounded inputs. -/
theorem C17_precision_refuted : ¬ C17_for Op.OnlyMp := by
  intro H
  obtain ⟨p, hp⟩ := dblSys_compiles
  have key := (H ℤ ℤ ℤ (doubling 1) dblSys p capNum 9 (fun c => c) (fun _ => 0) (fun _ => 0)
    [.setVarsM 9 fun _ => 5, .evalM, .precision 3 fun c => c] (by simp [Op.OnlyMp])
    dblSys_shape dblSys_ordered hp).2 (fun _ => 3) (by
      intro k hk
      have : k = 0 := by simp [dblSys, Sys.inputs] at hk; exact hk
      subst this; rfl)
  have h := key.1 0 (by decide)
  have hv : value (doubling 1) (capNum.mpNow (([.setVarsM 9 fun _ => 5, .evalM,
      .precision 3 fun c => c] : List (Op ℤ ℤ ℤ)).foldl
      (Inputs.step capNum.round dblSys.vars.length dblSys.path.isSome)
      ⟨fun _ => 0, fun _ => 0, fun c => capNum.round 9 c, 9⟩)) (fun _ => 3) 2 = 6 := by
    have h0 : (doubling 1).cell 0 = .var := rfl
    have h1 : (doubling 1).cell 1 = .sum [(true, 0), (true, 0)] := rfl
    have h2 : (doubling 1).cell 2 = .fn 1 := rfl
    rw [value_eq, valueWith, h2]
    simp only
    rw [value_eq, valueWith, h1]
    simp only [List.map_cons, List.map_nil, sumMp, List.foldl_cons, List.foldl_nil]
    have : ∀ A : Arith ℤ ℤ, value (doubling 1) A (fun _ => 3) 0 = 3 := by
      intro A
      rw [value_eq, valueWith, h0]
    rw [this]
    rfl
  have h' : (6 : ℤ) = p.func (((RT.start capNum p 9 (fun c => c) (fun _ => 0) (fun _ => 0)).run
      capNum p [.setVarsM 9 fun _ => 5, .evalM, .precision 3 fun c => c]).step capNum p
      .evalM).memM 0 := by rw [h, ← hv]; rfl
  have h3 : ∀ l, (((RT.start capNum p 9 (fun c => c) (fun _ => 0) (fun _ => 0)).run
      capNum p [.setVarsM 9 fun _ => 5, .evalM, .precision 3 fun c => c]).step capNum p
      .evalM).memM l ≤ 3 := by
    intro l
    simp only [RT.run, List.foldl_cons, List.foldl_nil, RT.step, Prog.flat, runFlat_flat]
    simp [RT.start, capNum]
  have := h3 (0 + p.fnBase)
  rw [Prog.func] at h'
  omega

/-- The full C17 is false. -/
theorem C17_refuted : ¬ C17_full := fun H => C17_two_types_refuted fun C V W _ G sys p N q n d m h _ =>
  H C V W G sys p N q n d m h fun _ _ => trivial

/-- Non-vacuity: a history interleaving both types that satisfies the partial theorem's
hypothesis: set, evaluate in double twice, set in multiple precision, change precision, set again. -/
example (x : ℕ → ℤ) : (track capNum exSys ⟨x, x, fun c => c, 9⟩ .fresh
    [.setVarsD x, .evalD, .evalD, .setVarsM 9 x, .evalM, .precision 20 id, .setVarsM 20 x]).2 =
      .fresh := by
  simp [track, Phase.step, Inputs.step]

end B2.SLP
